import Verif.Bss.MinsolOk

/-!
# Sessions: every legal call refines the abstract machine
-/

set_option autoImplicit false
set_option linter.unusedSectionVars false
set_option linter.unusedVariables false

namespace DD
open Arena Bdd

theorem IsTop.unique {F : BFun} {t t' : Option Nat} (h : IsTop F t) (h' : IsTop F t') : t = t' := by
  have aux : ∀ l, IsTop F (some l) → ¬ ∀ a b, F a = F b := by
    rintro l ⟨_, a, ha⟩ hc
    exact ha (hc _ _)
  have lt : ∀ l l', IsTop F (some l) → IsTop F (some l') → ¬ l < l' := by
    rintro l l' ⟨h1, _⟩ ⟨_, a, ha⟩ hlt
    apply ha
    apply h1
    intro x hx
    have : x ≠ l' := by omega
    simp [this]
  cases t with
  | none =>
    cases t' with
    | none => rfl
    | some l => exact absurd h (aux l h')
  | some l =>
    cases t' with
    | none => exact absurd h' (aux l h)
    | some l' =>
      have := lt l l' h h'
      have := lt l' l h' h
      have : l = l' := by omega
      rw [this]

/-- The world implements the abstract state. -/
structure Rel (w : World) (A : Abs) : Prop where
  mok : MOK w.mgr A.names w.held.vals
  nodup : w.held.NodupKeys
  next : A.next = w.next
  fresh : ∀ h i, w.held.get h = some i → h < w.next
  heldN : ∀ h, w.held.get h = none → A.held h = none
  heldS : ∀ h i, w.held.get h = some i → ∃ F, A.held h = some F ∧ Den w.mgr.bdd.arena i F

namespace Rel

variable {w : World} {A : Abs}

theorem get (R : Rel w A) {h : Nat} {F : BFun} (hF : A.held h = some F) :
    ∃ i, w.held.get h = some i ∧ Den w.mgr.bdd.arena i F := by
  cases hg : w.held.get h with
  | none => rw [R.heldN h hg] at hF; cases hF
  | some i =>
    obtain ⟨G, h1, h2⟩ := R.heldS h i hg
    rw [h1] at hF; cases hF
    exact ⟨i, rfl, h2⟩

theorem getS (R : Rel w A) {h : Nat} (hF : (A.held h).isSome) :
    ∃ F i, A.held h = some F ∧ w.held.get h = some i ∧ Den w.mgr.bdd.arena i F := by
  obtain ⟨F, hF⟩ := Option.isSome_iff_exists.1 hF
  obtain ⟨i, h1, h2⟩ := R.get hF
  exact ⟨F, i, hF, h1, h2⟩

theorem nodes (R : Rel w A) : ∀ {fs : List Nat} {Fs : List BFun}, A.funs fs = some Fs →
    ∃ is, w.nodes fs = some is ∧ DenL w.mgr.bdd.arena is Fs := by
  intro fs
  induction fs with
  | nil => intro Fs h; cases h; exact ⟨[], rfl, .nil⟩
  | cons f fs ih =>
    intro Fs h
    unfold Abs.funs at h
    split at h
    · rename_i F Fs' h1 h2
      cases h
      obtain ⟨i, g1, g2⟩ := R.get h1
      obtain ⟨is, g3, g4⟩ := ih h2
      refine ⟨i :: is, ?_, .cons g2 g4⟩
      simp only [World.nodes, g1, g3]
    · cases h

theorem notin (R : Rel w A) : w.held.get w.next = none := by
  cases hg : w.held.get w.next with
  | none => rfl
  | some i => exact absurd (R.fresh _ _ hg) (by omega)

/-- A manager change that keeps all held nodes. -/
theorem mgr (R : Rel w A) {m : BddMgr} {names : List String} (h : MOK m names w.held.vals)
    (keep : ∀ i F, i ∈ w.held.vals → Den w.mgr.bdd.arena i F → Den m.bdd.arena i F) :
    Rel { w with mgr := m } { A with names := names } where
  mok := h
  nodup := R.nodup
  next := R.next
  fresh := R.fresh
  heldN := R.heldN
  heldS h i hi := by
    obtain ⟨F, h1, h2⟩ := R.heldS h i hi
    exact ⟨F, h1, keep i F (AMap.mem_vals_of_get hi) h2⟩

/-- A call that creates a handle. -/
theorem give (R : Rel w A) {m : BddMgr} {names : List String} {r : Nat} {F : BFun}
    (h : MOK m names (r :: w.held.vals)) (hd : Den m.bdd.arena r F)
    (keep : ∀ i F, i ∈ w.held.vals → Den w.mgr.bdd.arena i F → Den m.bdd.arena i F) :
    ∃ w', w.give (some (r, m)) = some (.handle A.next, w') ∧
      Rel w' ({ A with names := names }.give F) ∧ w'.mgr = m ∧
      w'.held = w.held.insert w.next r ∧ w'.next = w.next + 1 := by
  refine ⟨_, by unfold World.give; rw [R.next], ?_, rfl, rfl, rfl⟩
  have hv : (w.held.insert w.next r).vals = r :: w.held.vals := AMap.vals_insert_fresh _ R.notin
  exact
    { mok := by show MOK m names (w.held.insert w.next r).vals; rw [hv]; exact h
      nodup := AMap.nodup_insert R.nodup _ _
      next := by show A.next + 1 = _; rw [R.next]
      fresh := fun h i hi => by
        have hi' : (w.held.insert w.next r).get h = some i := hi
        rw [AMap.get_insert] at hi'
        show h < w.next + 1
        split at hi'
        · omega
        · have := R.fresh h i hi'; omega
      heldN := fun h hi => by
        have hi' : (w.held.insert w.next r).get h = none := hi
        rw [AMap.get_insert] at hi'
        split at hi'
        · cases hi'
        · rename_i hne
          show (if h = A.next then some F else A.held h) = none
          rw [R.next, if_neg (Ne.symm hne)]
          exact R.heldN h hi'
      heldS := fun h i hi => by
        have hi' : (w.held.insert w.next r).get h = some i := hi
        rw [AMap.get_insert] at hi'
        show ∃ G, (if h = A.next then some F else A.held h) = some G ∧ Den m.bdd.arena i G
        split at hi'
        · rename_i he
          cases hi'
          rw [R.next, if_pos he.symm]
          exact ⟨F, rfl, hd⟩
        · rename_i hne
          rw [R.next, if_neg (Ne.symm hne)]
          obtain ⟨G, h1, h2⟩ := R.heldS h i hi'
          exact ⟨G, h1, keep i G (AMap.mem_vals_of_get hi') h2⟩ }

/-- A call whose result is wrapped. -/
theorem wrapped (R : Rel w A) {res : Option (Nat × Bdd)} {F : BFun} (hr : BOk w.mgr.bdd F res) :
    ∃ w', w.give (w.mgr.wrap res) = some (.handle A.next, w') ∧ Rel w' (A.give F) := by
  obtain ⟨r, m', h1, h2, h3, h4⟩ := R.mok.wrap hr
  obtain ⟨w', g1, g2, _⟩ := R.give h2 h3 h4
  exact ⟨w', by rw [h1]; exact g1, g2⟩

theorem varorder_loop {m : BddMgr} {names : List String} (l : List (String × Nat)) :
    ∀ (acc : List String), acc.length = names.length →
    (∀ k v, (k, v) ∈ l → ∃ h ch hd, m.bdd.arena.node? v = some (.nt h ch) ∧
      m.bdd.arena.headers[h]? = some hd ∧ names[hd.level]? = some k) →
    ∃ r, l.foldl (init := some acc) (fun acc (kv : String × Nat) =>
      match acc with
      | none => none
      | some result =>
        match m.bdd.arena.node? kv.2 with
        | some (.nt h _) =>
          match m.bdd.arena.headers[h]? with
          | none => none
          | some hd => if hd.level < result.length then some (result.set hd.level kv.1) else none
        | _ => none) = some r ∧ r.length = names.length ∧
      (∀ (j : Nat), acc[j]? = names[j]? → r[j]? = names[j]?) ∧
      (∀ k v, (k, v) ∈ l → ∀ h ch hd, m.bdd.arena.node? v = some (.nt h ch) →
        m.bdd.arena.headers[h]? = some hd → r[hd.level]? = names[hd.level]?) := by
  induction l with
  | nil => intro acc h1 _; exact ⟨acc, rfl, h1, fun _ h => h, by intro k v h; cases h⟩
  | cons kv l ih =>
    intro acc h1 h2
    obtain ⟨k, v⟩ := kv
    obtain ⟨h, ch, hd, e1, e2, e3⟩ := h2 k v List.mem_cons_self
    have hlt : hd.level < acc.length := by
      rw [h1]; exact (List.getElem?_eq_some_iff.1 e3).1
    obtain ⟨r, r1, r2, r3, r4⟩ := ih (acc.set hd.level k) (by simp [h1])
      (fun k v h => h2 k v (List.mem_cons_of_mem _ h))
    have hset : ∀ (j : Nat), acc[j]? = names[j]? ∨ j = hd.level →
        (acc.set hd.level k)[j]? = names[j]? := by
      intro j hj
      rw [List.getElem?_set]
      by_cases he : hd.level = j
      · subst he; simp only [if_true, hlt]; exact e3.symm
      · simp only [he, if_false]
        rcases hj with hj | hj
        · exact hj
        · exact absurd hj.symm he
    refine ⟨r, ?_, r2, fun j hj => r3 j (hset j (.inl hj)), ?_⟩
    · rw [List.foldl_cons]
      simp only [e1, e2, hlt, if_true]
      exact r1
    · intro k' v' hm h' ch' hd' f1 f2
      rcases List.mem_cons.1 hm with he | hm
      · cases he
        rw [e1] at f1; cases f1
        rw [e2] at f2; cases f2
        exact r3 _ (hset _ (.inr rfl))
      · exact r4 k' v' hm h' ch' hd' f1 f2

theorem getVarorder {m : BddMgr} {names : List String} {L : List Nat} (h : MOK m names L) :
    m.getVarorder = some names := by
  have key : ∀ (i : Nat) k v, names[i]? = some k → m.vars.get k = some v →
      ∃ h ch hd, m.bdd.arena.node? v = some (.nt h ch) ∧
      m.bdd.arena.headers[h]? = some hd ∧ hd.level = i := by
    intro i k v hi hv
    obtain ⟨v', hv', hd⟩ := h.vars i k hi
    rw [hv] at hv'; cases hv'
    have top : IsTop (fun a => a i) (some i) := by
      refine ⟨fun a b hab => hab i (by omega), fun _ => false, ?_⟩
      simp [BFun.cof]
    cases den_cases h.inv h.inj hd with
    | const b _ _ hc =>
      exfalso
      have h1 := hc (fun _ => false)
      have h2 := hc (fun _ => true)
      rw [← h1] at h2; simp at h2
    | node hh lo hi hd' e1 e2 e3 _ _ e6 =>
      exact ⟨hh, _, hd', e1, e2, by have := IsTop.unique e6 top; simpa using this⟩
  have := varorder_loop (m := m) (names := names) m.vars.kvs (List.replicate m.vars.len "?")
    (by simp [h.varsLen]) (by
      intro k v hm
      have hg := AMap.get_of_mem h.varsNodup hm
      obtain ⟨i, hi⟩ := List.mem_iff_getElem?.1 (h.varsOnly k v hg)
      obtain ⟨hh, ch, hd, e1, e2, e3⟩ := key i k v hi hg
      exact ⟨hh, ch, hd, e1, e2, by rw [e3]; exact hi⟩)
  obtain ⟨r, r1, r2, r3, r4⟩ := this
  have : r = names := by
    apply List.ext_getElem? 
    intro j
    cases hj : names[j]? with
    | none =>
      rw [List.getElem?_eq_none_iff] at hj ⊢
      omega
    | some k =>
      obtain ⟨v, hv, _⟩ := h.vars j k hj
      obtain ⟨hh, ch, hd, e1, e2, e3⟩ := key j k v hj hv
      have := r4 k v (AMap.mem_of_get hv) hh ch hd e1 e2
      rw [e3, hj] at this
      exact this
  subst this
  exact r1

/-- The main step. -/
theorem step (R : Rel w A) {c : Cmd} (hl : A.Legal c) :
    ∃ o w' A', w.step c = some (o, w') ∧ A.Post c o A' ∧ Rel w' A' := by
  cases c with
  | const b =>
    have : BOk w.mgr.bdd (fun _ => b) (some (if b then Bdd.one else Bdd.zero, w.mgr.bdd)) :=
      .ret R.mok.inv (by have := Den_const R.mok.inv b; cases b <;> exact this)
    obtain ⟨w', h1, h2⟩ := R.wrapped this
    exact ⟨_, w', _, h1, ⟨rfl, rfl⟩, h2⟩
  | defvar v =>
    obtain ⟨r, m', h1, h2, h3, h4⟩ := R.mok.defvar v
    obtain ⟨w', g1, g2, _⟩ := R.give h2 h3 (fun i F _ hd => h4 i F hd)
    refine ⟨_, w', _, ?_, ⟨rfl, rfl⟩, g2⟩
    show w.give (w.mgr.defvar v) = _
    rw [h1]; exact g1
  | not f =>
    obtain ⟨F, i, h1, h2, h3⟩ := R.getS hl
    obtain ⟨w', g1, g2⟩ := R.wrapped (not_den R.mok.inv h3)
    exact ⟨_, w', _, by simp only [World.step, h2]; exact g1, ⟨F, h1, rfl, rfl⟩, g2⟩
  | and f g =>
    obtain ⟨F, i, h1, h2, h3⟩ := R.getS hl.1
    obtain ⟨G, j, k1, k2, k3⟩ := R.getS hl.2
    obtain ⟨w', g1, g2⟩ := R.wrapped (and_den R.mok.inv h3 k3)
    exact ⟨_, w', _, by simp only [World.step, h2, k2]; exact g1, ⟨F, G, h1, k1, rfl, rfl⟩, g2⟩
  | or f g =>
    obtain ⟨F, i, h1, h2, h3⟩ := R.getS hl.1
    obtain ⟨G, j, k1, k2, k3⟩ := R.getS hl.2
    obtain ⟨w', g1, g2⟩ := R.wrapped (or_den R.mok.inv h3 k3)
    exact ⟨_, w', _, by simp only [World.step, h2, k2]; exact g1, ⟨F, G, h1, k1, rfl, rfl⟩, g2⟩
  | xor f g =>
    obtain ⟨F, i, h1, h2, h3⟩ := R.getS hl.1
    obtain ⟨G, j, k1, k2, k3⟩ := R.getS hl.2
    obtain ⟨w', g1, g2⟩ := R.wrapped (xor_den R.mok.inv h3 k3)
    exact ⟨_, w', _, by simp only [World.step, h2, k2]; exact g1, ⟨F, G, h1, k1, rfl, rfl⟩, g2⟩
  | ite f g h =>
    obtain ⟨F, i, h1, h2, h3⟩ := R.getS hl.1
    obtain ⟨G, j, k1, k2, k3⟩ := R.getS hl.2.1
    obtain ⟨H, k, l1, l2, l3⟩ := R.getS hl.2.2
    obtain ⟨w', g1, g2⟩ := R.wrapped (ite_den R.mok.inv h3 k3 l3)
    exact ⟨_, w', _, by simp only [World.step, h2, k2, l2]; exact g1,
      ⟨F, G, H, h1, k1, l1, rfl, rfl⟩, g2⟩
  | dual f =>
    obtain ⟨F, i, h1, h2, h3⟩ := R.getS hl
    obtain ⟨w', g1, g2⟩ := R.wrapped (dual_den R.mok.inv h3)
    exact ⟨_, w', _, by simp only [World.step, h2]; exact g1, ⟨F, h1, rfl, rfl⟩, g2⟩
  | createNode h f g =>
    obtain ⟨hlt, F, G, hF, hG, dF, dG⟩ := hl
    obtain ⟨i, h2, h3⟩ := R.get hF
    obtain ⟨j, k2, k3⟩ := R.get hG
    have hn : A.names[h]? = some A.names[h] := List.getElem?_eq_getElem hlt
    have hh : w.mgr.bdd.arena.headers[h]? = some ⟨h, A.names[h], 2⟩ := by
      rw [R.mok.hdrs, mkHeaders_get]; exact ⟨_, hn, rfl⟩
    have r1 := rank_le_of_indep R.mok.inv R.mok.inj h3 dF
    have r2 := rank_le_of_indep R.mok.inv R.mok.inj k3 dG
    obtain ⟨w', g1, g2⟩ := R.wrapped (createNode_den R.mok.inv hh h3 r1 k3 r2)
    exact ⟨_, w', _, by simp only [World.step, h2, k2]; exact g1, ⟨F, G, hF, hG, rfl, rfl⟩, g2⟩
  | andList fs =>
    obtain ⟨Fs, hFs⟩ := Option.isSome_iff_exists.1 hl
    obtain ⟨is, h1, h2⟩ := R.nodes hFs
    obtain ⟨w', g1, g2⟩ := R.wrapped (andList_den R.mok.inv h2)
    exact ⟨_, w', _, by simp only [World.step, h1]; exact g1, ⟨Fs, hFs, rfl, rfl⟩, g2⟩
  | orList fs =>
    obtain ⟨Fs, hFs⟩ := Option.isSome_iff_exists.1 hl
    obtain ⟨is, h1, h2⟩ := R.nodes hFs
    obtain ⟨w', g1, g2⟩ := R.wrapped (orList_den R.mok.inv h2)
    exact ⟨_, w', _, by simp only [World.step, h1]; exact g1, ⟨Fs, hFs, rfl, rfl⟩, g2⟩
  | kofn k fs =>
    obtain ⟨Fs, hFs⟩ := Option.isSome_iff_exists.1 hl
    obtain ⟨is, h1, h2⟩ := R.nodes hFs
    obtain ⟨w', g1, g2⟩ := R.wrapped (kofn_den R.mok.inv k h2)
    exact ⟨_, w', _, by simp only [World.step, h1]; exact g1, ⟨Fs, hFs, rfl, rfl⟩, g2⟩
  | rpn ts =>
    obtain ⟨⟨r, ns⟩, hr⟩ := Option.isSome_iff_exists.1 hl
    have := R.mok.rpn ts
    rw [hr] at this
    cases r with
    | error e =>
      obtain ⟨m', h1, h2, h3⟩ := this
      exact ⟨.err e, _, _, by simp only [World.step, h1], ⟨_, _, hr, rfl, rfl⟩, R.mgr h2 h3⟩
    | ok F =>
      obtain ⟨i, m', h1, h2, h3, h4⟩ := this
      obtain ⟨w', g1, g2, _⟩ := R.give h2 h3 h4
      exact ⟨_, w', _, by simp only [World.step, h1]; exact g1, ⟨_, _, hr, rfl, rfl⟩, g2⟩
  | clone f =>
    obtain ⟨F, i, h1, h2, h3⟩ := R.getS hl
    obtain ⟨w', g1, g2, _⟩ := R.give (R.mok.pin h3) h3 (fun _ _ _ hd => hd)
    exact ⟨_, w', _, by simp only [World.step, h2]; exact g1, ⟨F, h1, rfl, rfl⟩, g2⟩
  | drop f =>
    obtain ⟨F, i, h1, h2, h3⟩ := R.getS hl
    refine ⟨_, _, _, by simp only [World.step, h2]; rfl, ⟨rfl, rfl⟩, ?_⟩
    have hc := AMap.count_vals_remove R.nodup h2
    have mok' : MOK w.mgr A.names (i :: (w.held.remove f).vals) := R.mok.perm hc
    exact
      { mok := mok'.unpin
        nodup := AMap.nodup_remove R.nodup _
        next := R.next
        fresh := fun h j hj => by
          have hj : (w.held.remove f).get h = some j := hj
          rw [AMap.get_remove] at hj
          split at hj
          · cases hj
          · exact R.fresh h j hj
        heldN := fun h hj => by
          have hj : (w.held.remove f).get h = none := hj
          rw [AMap.get_remove] at hj
          show (if h = f then none else A.held h) = none
          split at hj
          · rename_i he; rw [if_pos he.symm]
          · rename_i he; rw [if_neg (Ne.symm he)]; exact R.heldN h hj
        heldS := fun h j hj => by
          have hj : (w.held.remove f).get h = some j := hj
          rw [AMap.get_remove] at hj
          show ∃ F, (if h = f then none else A.held h) = some F ∧ Den w.mgr.bdd.arena j F
          split at hj
          · cases hj
          · rename_i he; rw [if_neg (Ne.symm he)]; exact R.heldS h j hj }
  | children f =>
    obtain ⟨F, i, h1, h2, h3⟩ := R.getS hl
    cases den_cases R.mok.inv R.mok.inj h3 with
    | const b e1 _ e3 =>
      refine ⟨.pair none, w, A, by simp only [World.step, h2, e1],
        ⟨F, none, h1, fun a b => by rw [e3, e3], rfl, rfl⟩, R⟩
    | node hh lo hi hd e1 e2 e3 e4 e5 e6 =>
      obtain ⟨w1, g1, g2, g3, g4, g5⟩ := R.give (R.mok.pin e4) e4 (fun _ _ _ hd => hd)
      have e5' : Den w1.mgr.bdd.arena hi (F.cof hd.level true) := by rw [g3]; exact e5
      obtain ⟨w2, k1, k2, k3, k4, k5⟩ := g2.give (g2.mok.pin e5') e5' (fun _ _ _ hd => hd)
      refine ⟨.pair (some (A.next, A.next + 1)), w2, _, ?_,
        ⟨F, some hd.level, h1, e6, rfl, rfl⟩, k2⟩
      simp only [World.step, h2, e1]
      rw [R.next]
      congr 1
      refine Prod.ext rfl ?_
      show _ = w2
      obtain ⟨m2, he2, n2⟩ := w2
      simp only at k3 k4 k5
      rw [k3, k4, k5, g3, g4, g5]
  | gc keep =>
    obtain ⟨Fs, hFs⟩ := Option.isSome_iff_exists.1 hl
    obtain ⟨is, h1, h2⟩ := R.nodes hFs
    have hmem : ∀ {is : List Nat} {Fs : List BFun}, DenL w.mgr.bdd.arena is Fs →
        ∀ r ∈ is, w.mgr.bdd.arena.Live r := by
      intro is Fs h
      induction h with
      | nil => intro r hr; cases hr
      | cons h1 _ ih =>
        intro r hr
        rcases List.mem_cons.1 hr with rfl | hr
        · exact h1.live
        · exact ih r hr
    obtain ⟨n, b, k1, k2, k3⟩ := R.mok.collect (roots := w.mgr.gc.roots.keys ++ is)
      (by
        intro r hr _
        rcases List.mem_append.1 hr with hr | hr
        · exact R.mok.roots_live hr
        · exact hmem h2 r hr)
      (fun k hk => List.mem_append_left _ hk)
    refine ⟨.unit, _, A, ?_, ⟨rfl, rfl⟩, R.mgr k2 k3⟩
    simp only [World.step, h1, BddMgr.collect, k1]
  | setThreshold n =>
    exact ⟨.unit, _, A, rfl, ⟨rfl, rfl⟩, R.mgr { R.mok with } (fun _ _ _ hd => hd)⟩
  | clearCache =>
    refine ⟨.unit, _, A, rfl, ⟨rfl, rfl⟩, R.mgr ?_ (fun _ _ _ hd => hd)⟩
    exact { R.mok with inv := (clearCache_inv R.mok.inv) }
  | eq f g =>
    obtain ⟨F, i, h1, h2, h3⟩ := R.getS hl.1
    obtain ⟨G, j, k1, k2, k3⟩ := R.getS hl.2
    refine ⟨_, w, A, by simp only [World.step, h2, k2]; rfl, ⟨F, G, _, h1, k1, rfl, ?_, rfl⟩, R⟩
    rw [decide_eq_true_iff]
    constructor
    · rintro rfl; exact h3.fun_eq k3
    · rintro rfl; exact canon R.mok.inv R.mok.inj h3 k3
  | isZero f =>
    obtain ⟨F, i, h1, h2, h3⟩ := R.getS hl
    cases den_cases R.mok.inv R.mok.inj h3 with
    | const b e1 _ e3 =>
      refine ⟨_, w, A, by simp only [World.step, h2, e1, Option.map_some]; rfl,
        ⟨F, _, h1, rfl, ?_, rfl⟩, R⟩
      rw [decide_eq_true_iff]
      cases b with
      | false => exact ⟨fun _ => e3, fun _ => rfl⟩
      | true => exact ⟨fun h => (by cases h), fun h => by
          have := (e3 (fun _ => false)).symm.trans (h _); cases this⟩
    | node hh lo hi hd e1 e2 e3 e4 e5 e6 =>
      refine ⟨_, w, A, by simp only [World.step, h2, e1, Option.map_some]; rfl,
        ⟨F, _, h1, rfl, ?_, rfl⟩, R⟩
      rw [decide_eq_true_iff]
      constructor
      · intro h; cases h
      · intro h; obtain ⟨_, a, ha⟩ := e6; exact absurd ((h _).trans (h _).symm) ha
  | isOne f =>
    obtain ⟨F, i, h1, h2, h3⟩ := R.getS hl
    cases den_cases R.mok.inv R.mok.inj h3 with
    | const b e1 _ e3 =>
      refine ⟨_, w, A, by simp only [World.step, h2, e1, Option.map_some]; rfl,
        ⟨F, _, h1, rfl, ?_, rfl⟩, R⟩
      rw [decide_eq_true_iff]
      cases b with
      | true => exact ⟨fun _ => e3, fun _ => rfl⟩
      | false => exact ⟨fun h => (by cases h), fun h => by
          have := (e3 (fun _ => false)).symm.trans (h _); cases this⟩
    | node hh lo hi hd e1 e2 e3 e4 e5 e6 =>
      refine ⟨_, w, A, by simp only [World.step, h2, e1, Option.map_some]; rfl,
        ⟨F, _, h1, rfl, ?_, rfl⟩, R⟩
      rw [decide_eq_true_iff]
      constructor
      · intro h; cases h
      · intro h; obtain ⟨_, a, ha⟩ := e6; exact absurd ((h _).trans (h _).symm) ha
  | isUndet f =>
    obtain ⟨F, i, h1, h2, h3⟩ := R.getS hl
    cases den_cases R.mok.inv R.mok.inj h3 with
    | const b e1 _ e3 =>
      refine ⟨.bool false, w, A, ?_, ⟨rfl, rfl⟩, R⟩
      simp only [World.step, h2, e1, Option.map_some]
      cases b <;> rfl
    | node hh lo hi hd e1 e2 e3 e4 e5 e6 =>
      refine ⟨.bool false, w, A, ?_, ⟨rfl, rfl⟩, R⟩
      simp only [World.step, h2, e1, Option.map_some]
      rfl
  | level f =>
    obtain ⟨F, i, h1, h2, h3⟩ := R.getS hl
    cases den_cases R.mok.inv R.mok.inj h3 with
    | const b e1 _ e3 =>
      exact ⟨.level none, w, A, by simp only [World.step, h2, level?_term e1],
        ⟨F, none, h1, fun a b => by rw [e3, e3], rfl, rfl⟩, R⟩
    | node hh lo hi hd e1 e2 e3 e4 e5 e6 =>
      exact ⟨.level (some hd.level), w, A, by simp only [World.step, h2, e3],
        ⟨F, some hd.level, h1, e6, rfl, rfl⟩, R⟩
  | minsol f =>
    obtain ⟨F, i, h1, h2, h3⟩ := R.getS hl
    obtain ⟨x, b, e1, e2, e3, e4, e5⟩ := minsol_ok R.mok.inv R.mok.inj h3
    refine ⟨.bool x.isSome, { w with mgr := { w.mgr with bdd := b } }, A,
      by simp only [World.step, h2, e1], ⟨F, _, h1, rfl, ?_, rfl⟩,
      { R with
        mok := R.mok.eng e2 e3
        heldS := fun h j hj => by
          obtain ⟨G, k1, k2⟩ := R.heldS h j hj
          exact ⟨G, k1, k2.ext R.mok.inv.wf e3.toExt⟩ }⟩
    cases x with
    | none => exact ⟨fun h => (by cases h), fun h => absurd h (e4 rfl)⟩
    | some r => exact ⟨fun _ => (e5 r rfl).1, fun _ => rfl⟩
  | varorder =>
    exact ⟨.strs A.names, w, A, by simp only [World.step, getVarorder R.mok, Option.map_some],
      ⟨rfl, rfl⟩, R⟩

theorem new : Rel World.new Abs.init where
  mok :=
    { inv := inv_new
      hdrs := rfl
      nodup := List.nodup_nil
      varsNodup := AMap.nodup_empty
      varsLen := rfl
      vars := by intro i s h; simp [Abs.init] at h
      varsOnly := by intro s v h; cases h
      roots := rootsOK_empty
      live := by intro i h; cases h }
  nodup := AMap.nodup_empty
  next := rfl
  fresh := by intro h i hi; cases hi
  heldN := fun _ _ => rfl
  heldS := by intro h i hi; cases hi

/-- A panicking `rpn` is exactly one whose operators lack operands. -/
theorem rpn_none (R : Rel w A) (ts : List Tok) : w.step (.rpn ts) = none ↔ arpn A.names ts = none := by
  have := R.mok.rpn ts
  constructor
  · intro h
    cases ha : arpn A.names ts with
    | none => rfl
    | some r =>
      obtain ⟨o, w', A', h1, _⟩ := R.step (c := .rpn ts) (by show (arpn A.names ts).isSome; rw [ha]; rfl)
      rw [h] at h1; cases h1
  · intro h
    rw [h] at this
    have this : w.mgr.rpn ts = none := this
    simp only [World.step, this]

end Rel

namespace Abs

theorem Post.det {A : Abs} {c : Cmd} {o o' : Out} {A1 A2 : Abs} (h : A.Post c o A1)
    (h' : A.Post c o' A2) : o = o' ∧ A1 = A2 := by
  cases c <;> simp only [Post] at h h'
  case const => exact ⟨h.1.trans h'.1.symm, h.2.trans h'.2.symm⟩
  case defvar => exact ⟨h.1.trans h'.1.symm, h.2.trans h'.2.symm⟩
  case drop => exact ⟨h.1.trans h'.1.symm, h.2.trans h'.2.symm⟩
  case gc => exact ⟨h.1.trans h'.1.symm, h.2.trans h'.2.symm⟩
  case setThreshold => exact ⟨h.1.trans h'.1.symm, h.2.trans h'.2.symm⟩
  case clearCache => exact ⟨h.1.trans h'.1.symm, h.2.trans h'.2.symm⟩
  case isUndet => exact ⟨h.1.trans h'.1.symm, h.2.trans h'.2.symm⟩
  case varorder => exact ⟨h.1.trans h'.1.symm, h.2.trans h'.2.symm⟩
  case not =>
    obtain ⟨F, h1, h2, h3⟩ := h; obtain ⟨F', k1, k2, k3⟩ := h'
    rw [h1] at k1; cases k1
    exact ⟨h2.trans k2.symm, h3.trans k3.symm⟩
  case dual =>
    obtain ⟨F, h1, h2, h3⟩ := h; obtain ⟨F', k1, k2, k3⟩ := h'
    rw [h1] at k1; cases k1
    exact ⟨h2.trans k2.symm, h3.trans k3.symm⟩
  case clone =>
    obtain ⟨F, h1, h2, h3⟩ := h; obtain ⟨F', k1, k2, k3⟩ := h'
    rw [h1] at k1; cases k1
    exact ⟨h2.trans k2.symm, h3.trans k3.symm⟩
  case and =>
    obtain ⟨F, G, h1, h1', h2, h3⟩ := h; obtain ⟨F', G', k1, k1', k2, k3⟩ := h'
    rw [h1] at k1; cases k1; rw [h1'] at k1'; cases k1'
    exact ⟨h2.trans k2.symm, h3.trans k3.symm⟩
  case or =>
    obtain ⟨F, G, h1, h1', h2, h3⟩ := h; obtain ⟨F', G', k1, k1', k2, k3⟩ := h'
    rw [h1] at k1; cases k1; rw [h1'] at k1'; cases k1'
    exact ⟨h2.trans k2.symm, h3.trans k3.symm⟩
  case xor =>
    obtain ⟨F, G, h1, h1', h2, h3⟩ := h; obtain ⟨F', G', k1, k1', k2, k3⟩ := h'
    rw [h1] at k1; cases k1; rw [h1'] at k1'; cases k1'
    exact ⟨h2.trans k2.symm, h3.trans k3.symm⟩
  case createNode =>
    obtain ⟨F, G, h1, h1', h2, h3⟩ := h; obtain ⟨F', G', k1, k1', k2, k3⟩ := h'
    rw [h1] at k1; cases k1; rw [h1'] at k1'; cases k1'
    exact ⟨h2.trans k2.symm, h3.trans k3.symm⟩
  case ite =>
    obtain ⟨F, G, H, h1, h1', h1'', h2, h3⟩ := h
    obtain ⟨F', G', H', k1, k1', k1'', k2, k3⟩ := h'
    rw [h1] at k1; cases k1; rw [h1'] at k1'; cases k1'; rw [h1''] at k1''; cases k1''
    exact ⟨h2.trans k2.symm, h3.trans k3.symm⟩
  case andList =>
    obtain ⟨F, h1, h2, h3⟩ := h; obtain ⟨F', k1, k2, k3⟩ := h'
    rw [h1] at k1; cases k1
    exact ⟨h2.trans k2.symm, h3.trans k3.symm⟩
  case orList =>
    obtain ⟨F, h1, h2, h3⟩ := h; obtain ⟨F', k1, k2, k3⟩ := h'
    rw [h1] at k1; cases k1
    exact ⟨h2.trans k2.symm, h3.trans k3.symm⟩
  case kofn =>
    obtain ⟨F, h1, h2, h3⟩ := h; obtain ⟨F', k1, k2, k3⟩ := h'
    rw [h1] at k1; cases k1
    exact ⟨h2.trans k2.symm, h3.trans k3.symm⟩
  case rpn =>
    obtain ⟨r, ns, h1, h2⟩ := h; obtain ⟨r', ns', k1, k2⟩ := h'
    rw [h1] at k1; cases k1
    cases r with
    | ok F => exact ⟨h2.1.trans k2.1.symm, h2.2.trans k2.2.symm⟩
    | error e => exact ⟨h2.1.trans k2.1.symm, h2.2.trans k2.2.symm⟩
  case children =>
    obtain ⟨F, t, h1, h2, h3⟩ := h; obtain ⟨F', t', k1, k2, k3⟩ := h'
    rw [h1] at k1; cases k1
    have := h2.unique k2
    subst this
    cases t with
    | none => exact ⟨h3.1.trans k3.1.symm, h3.2.trans k3.2.symm⟩
    | some l => exact ⟨h3.1.trans k3.1.symm, h3.2.trans k3.2.symm⟩
  case eq =>
    obtain ⟨F, G, b, h1, h2, h3, h4, h5⟩ := h; obtain ⟨F', G', b', k1, k2, k3, k4, k5⟩ := h'
    rw [h1] at k1; cases k1; rw [h2] at k2; cases k2
    have : b = b' := by rw [Bool.eq_iff_iff, h4, k4]
    exact ⟨by rw [h3, k3, this], h5.trans k5.symm⟩
  case minsol =>
    obtain ⟨F, b, h1, h2, h3, h4⟩ := h; obtain ⟨F', b', k1, k2, k3, k4⟩ := h'
    rw [h1] at k1; cases k1
    have : b = b' := by rw [Bool.eq_iff_iff, h3, k3]
    exact ⟨by rw [h2, k2, this], h4.trans k4.symm⟩
  case isZero =>
    obtain ⟨F, b, h1, h2, h3, h4⟩ := h; obtain ⟨F', b', k1, k2, k3, k4⟩ := h'
    rw [h1] at k1; cases k1
    have : b = b' := by rw [Bool.eq_iff_iff, h3, k3]
    exact ⟨by rw [h2, k2, this], h4.trans k4.symm⟩
  case isOne =>
    obtain ⟨F, b, h1, h2, h3, h4⟩ := h; obtain ⟨F', b', k1, k2, k3, k4⟩ := h'
    rw [h1] at k1; cases k1
    have : b = b' := by rw [Bool.eq_iff_iff, h3, k3]
    exact ⟨by rw [h2, k2, this], h4.trans k4.symm⟩
  case level =>
    obtain ⟨F, t, h1, h2, h3, h4⟩ := h; obtain ⟨F', t', k1, k2, k3, k4⟩ := h'
    rw [h1] at k1; cases k1
    have := h2.unique k2
    subst this
    exact ⟨h3.trans k3.symm, h4.trans k4.symm⟩

theorem Runs.det {A : Abs} {cs : List Cmd} {os os' : List Out} {A1 A2 : Abs} (h : Runs A cs os A1)
    (h' : Runs A cs os' A2) : os = os' ∧ A1 = A2 := by
  induction h generalizing os' A2 with
  | nil => cases h'; exact ⟨rfl, rfl⟩
  | cons _ hp _ ih =>
    cases h' with
    | cons _ hp' hr' =>
      obtain ⟨rfl, rfl⟩ := hp.det hp'
      obtain ⟨rfl, rfl⟩ := ih hr'
      exact ⟨rfl, rfl⟩

end Abs

namespace Rel

/-- Whole sessions. -/
theorem run : ∀ (cs : List Cmd) {w : World} {A : Abs}, Rel w A → A.LegalRun cs →
    ∃ os w' A', w.run cs = some (os, w') ∧ A.Runs cs os A' ∧ Rel w' A' := by
  intro cs
  induction cs with
  | nil => intro w A R _; exact ⟨[], w, A, rfl, .nil A, R⟩
  | cons c cs ih =>
    intro w A R hl
    cases hl with
    | cons h1 h2 =>
      obtain ⟨o, w1, A1, e1, e2, e3⟩ := R.step h1
      obtain ⟨os, w2, A2, f1, f2, f3⟩ := ih e3 (h2 o A1 e2)
      exact ⟨o :: os, w2, A2, by simp only [World.run, e1, f1], .cons h1 e2 f2, f3⟩

end Rel
end DD
