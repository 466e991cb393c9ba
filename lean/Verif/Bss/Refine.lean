import Verif.Bss.Spec

/-!
# The BDD wrapper refines its specification
-/

set_option autoImplicit false
set_option linter.unusedSectionVars false
set_option linter.unusedVariables false

namespace DD
open Arena Bdd

theorem getElem?_idxOf' : ∀ (l : List String) {v : String}, v ∈ l → l[l.idxOf v]? = some v := by
  intro l
  induction l with
  | nil => intro v h; cases h
  | cons x l ih =>
    intro v h
    rw [List.idxOf_cons]
    by_cases e : x = v
    · simp [e]
    · have : (x == v) = false := by simp [e]
      rw [this]
      simp only [cond_false, List.getElem?_cons_succ]
      exact ih (by rcases List.mem_cons.1 h with rfl | h; exact absurd rfl e; exact h)

theorem idxOf_snoc : ∀ (l : List String) {v : String}, v ∉ l → (l ++ [v]).idxOf v = l.length := by
  intro l
  induction l with
  | nil => intro v _; simp
  | cons x l ih =>
    intro v h
    have e : (x == v) = false := by simp; exact fun e => h (e ▸ List.mem_cons_self)
    rw [List.cons_append, List.idxOf_cons, e, cond_false, ih (fun h' => h (List.mem_cons_of_mem _ h'))]
    rfl

/-- Headers made by `defvar` for the given names. -/
def mkHeaders (names : List String) : List Header := names.mapIdx (fun i s => ⟨i, s, 2⟩)

theorem mkHeaders_get {names : List String} {h : Nat} {hd : Header} :
    (mkHeaders names)[h]? = some hd ↔ ∃ s, names[h]? = some s ∧ hd = ⟨h, s, 2⟩ := by
  unfold mkHeaders
  rw [List.getElem?_mapIdx]
  cases names[h]? with
  | none => simp
  | some s => simp [eq_comm]

theorem mkHeaders_append (names : List String) (v : String) :
    mkHeaders (names ++ [v]) = mkHeaders names ++ [⟨names.length, v, 2⟩] := by
  unfold mkHeaders
  rw [List.mapIdx_append]
  simp

theorem levInj_of {T : Type} {m : Arena T} {names : List String} (h : m.headers = mkHeaders names) :
    m.LevInj := by
  intro i j hd hd' h1 h2 hl
  rw [h, mkHeaders_get] at h1 h2
  obtain ⟨s, _, rfl⟩ := h1
  obtain ⟨s', _, rfl⟩ := h2
  exact hl

/-- Manager invariant: `names` are the variables in order, `L` the nodes of the client's handles. -/
structure MOK (m : BddMgr) (names : List String) (L : List Nat) : Prop where
  inv : Inv m.bdd
  hdrs : m.bdd.arena.headers = mkHeaders names
  nodup : names.Nodup
  varsNodup : m.vars.NodupKeys
  varsLen : m.vars.len = names.length
  vars : ∀ (i : Nat) (s : String), names[i]? = some s →
    ∃ v, m.vars.get s = some v ∧ Den m.bdd.arena v (fun a => a i)
  varsOnly : ∀ s v, m.vars.get s = some v → s ∈ names
  roots : RootsOK m.gc.roots (L ++ m.vars.vals)
  live : ∀ i ∈ L, ∃ F, Den m.bdd.arena i F

namespace MOK

variable {m : BddMgr} {names : List String} {L : List Nat}

theorem inj (h : MOK m names L) : m.bdd.arena.LevInj := levInj_of h.hdrs

theorem varVals (h : MOK m names L) {i : Nat} (hi : i ∈ m.vars.vals) :
    ∃ F, Den m.bdd.arena i F := by
  obtain ⟨s, hs⟩ := AMap.get_of_mem_vals h.varsNodup hi
  obtain ⟨j, hj⟩ := List.mem_iff_getElem?.1 (h.varsOnly s i hs)
  obtain ⟨v, hv, hd⟩ := h.vars j s hj
  rw [hs] at hv; cases hv
  exact ⟨_, hd⟩

theorem all (h : MOK m names L) {i : Nat} (hi : i ∈ L ++ m.vars.vals) :
    ∃ F, Den m.bdd.arena i F := by
  rcases List.mem_append.1 hi with hi | hi
  · exact h.live i hi
  · exact h.varVals hi

theorem perm (h : MOK m names L) {L' : List Nat} (e : ∀ k, L.count k = L'.count k) :
    MOK m names L' :=
  { h with
    roots := h.roots.congr (fun k => by rw [List.count_append, List.count_append, e])
    live := fun i hi => h.live i (by
      rw [← List.count_pos_iff, e, List.count_pos_iff]; exact hi) }

theorem pin (h : MOK m names L) {i : Nat} {F : BFun} (hd : Den m.bdd.arena i F) :
    MOK (m.pin i) names (i :: L) :=
  { h with
    roots := h.roots.pin i
    live := fun j hj => by
      rcases List.mem_cons.1 hj with rfl | hj
      · exact ⟨F, hd⟩
      · exact h.live j hj }

theorem unpin {i : Nat} (h : MOK m names (i :: L)) : MOK (m.unpin i) names L :=
  { h with
    roots := RootsOK.unpin h.roots
    live := fun j hj => h.live j (List.mem_cons_of_mem _ hj) }

/-- After an engine operation. -/
theorem eng (h : MOK m names L) {b : Bdd} (hb : Inv b) (st : Step m.bdd.arena b.arena) :
    MOK { m with bdd := b } names L :=
  { h with
    inv := hb
    hdrs := by show b.arena.headers = _; rw [st.heq]; exact h.hdrs
    vars := fun i s hs => by
      obtain ⟨v, h1, h2⟩ := h.vars i s hs
      exact ⟨v, h1, h2.ext h.inv.wf st.toExt⟩
    live := fun i hi => by
      obtain ⟨F, hF⟩ := h.live i hi
      exact ⟨F, hF.ext h.inv.wf st.toExt⟩ }

/-- After a collection with all pinned nodes among the roots. -/
theorem collect (h : MOK m names L) {roots : List Nat}
    (hr : ∀ r ∈ roots, r < m.bdd.arena.nodes.length → m.bdd.arena.Live r)
    (hsub : ∀ k ∈ m.gc.roots.keys, k ∈ roots) :
    ∃ n b, m.bdd.gc roots = some (n, b) ∧ MOK { m with bdd := b } names L ∧
      ∀ i F, i ∈ L → Den m.bdd.arena i F → Den b.arena i F := by
  obtain ⟨n, b, h1, h2, h3, h4, h5, h6, h7, h8, h9⟩ := gc_ok h.inv hr
  have key : ∀ i F, i ∈ L ++ m.vars.vals → Den m.bdd.arena i F → Den b.arena i F := by
    intro i F hi hd
    have hk := hsub i (h.roots.mem_keys.2 hi)
    exact Den.back h2.wf h6.toExt ((h5 i).2 (Or.inr ⟨i, hk, hd.live.1, .refl _⟩)) hd
  refine ⟨n, b, h1, ?_, fun i F hi hd => key i F (List.mem_append_left _ hi) hd⟩
  exact { h with
    inv := h2
    hdrs := by show b.arena.headers = _; rw [h3]; exact h.hdrs
    vars := fun i s hs => by
      obtain ⟨v, h1, hv⟩ := h.vars i s hs
      exact ⟨v, h1, key _ _ (List.mem_append_right _ (AMap.mem_vals_of_get h1)) hv⟩
    live := fun i hi => by
      obtain ⟨F, hF⟩ := h.live i hi
      exact ⟨F, key _ _ (List.mem_append_left _ hi) hF⟩ }

theorem roots_live (h : MOK m names L) {r : Nat} (hr : r ∈ m.gc.roots.keys) :
    m.bdd.arena.Live r := by
  obtain ⟨F, hF⟩ := h.all (h.roots.mem_keys.1 hr)
  exact hF.live

theorem maybeGc (h : MOK m names L) : ∃ m', m.maybeGc = some m' ∧ MOK m' names L ∧
    ∀ i F, i ∈ L → Den m.bdd.arena i F → Den m'.bdd.arena i F := by
  unfold BddMgr.maybeGc
  split
  · exact ⟨m, rfl, h, fun _ _ _ hd => hd⟩
  · obtain ⟨n, b, h1, h2, h3⟩ := h.collect (roots := m.gc.roots.keys)
      (fun r hr _ => h.roots_live hr) (fun k hk => hk)
    simp only [h1]
    exact ⟨_, rfl, { h2 with }, h3⟩

theorem wrap (h : MOK m names L) {res : Option (Nat × Bdd)} {F : BFun} (hr : BOk m.bdd F res) :
    ∃ r m', m.wrap res = some (r, m') ∧ MOK m' names (r :: L) ∧ Den m'.bdd.arena r F ∧
      ∀ i F, i ∈ L → Den m.bdd.arena i F → Den m'.bdd.arena i F := by
  obtain ⟨r, b, rfl, hb, st, hd⟩ := hr
  obtain ⟨m', h1, h2, h3⟩ := ((h.eng hb st).pin hd).maybeGc
  refine ⟨r, m', by simp only [BddMgr.wrap, h1], h2, h3 r F List.mem_cons_self hd, ?_⟩
  intro i G hi hG
  exact h3 i G (List.mem_cons_of_mem _ hi) (hG.ext h.inv.wf st.toExt)

theorem mem_proj (h : MOK m names L) {v : String} (hv : v ∈ names) :
    ∃ i, m.vars.get v = some i ∧ Den m.bdd.arena i (proj names v) :=
  h.vars _ v (getElem?_idxOf' _ hv)

theorem defvar (h : MOK m names L) (v : String) :
    ∃ r m', m.defvar v = some (r, m') ∧ MOK m' (addName names v) (r :: L) ∧
      Den m'.bdd.arena r (proj (addName names v) v) ∧
      ∀ i F, Den m.bdd.arena i F → Den m'.bdd.arena i F := by
  unfold BddMgr.defvar
  by_cases hv : v ∈ names
  · obtain ⟨i, h1, h2⟩ := h.mem_proj hv
    have hadd : addName names v = names := by simp [addName, hv]
    simp only [h1, hadd]
    exact ⟨i, _, rfl, h.pin h2, h2, fun _ _ hd => hd⟩
  · have hnone : m.vars.get v = none := by
      cases hg : m.vars.get v with
      | none => rfl
      | some i => exact absurd (h.varsOnly v i hg) hv
    have hadd : addName names v = names ++ [v] := by simp [addName, hv]
    simp only [hnone, hadd]
    obtain ⟨h1, h2, h3, h4, h5, h6⟩ := createHeader_inv h.inv m.vars.len v
    generalize hb : m.bdd.createHeader m.vars.len v = hb' at h1 h2 h3 h4 h5 h6
    obtain ⟨hid, b⟩ := hb'
    simp only at h1 h2 h3 h4 h5 h6
    have z := Den_const h1 false
    have o := Den_const h1 true
    obtain ⟨r, b', e1, i1, st1, d1⟩ := createNode_den h1 h3 z
      (by rw [rank_term (Bdd.fixed h1 (.ofBool false)).2]; omega) o
      (by rw [rank_term (Bdd.fixed h1 (.ofBool true)).2]; omega)
    have e1' : b.createNode hid Bdd.zero Bdd.one = some (r, b') := e1
    simp only [e1']
    have hkeep : ∀ i F, Den m.bdd.arena i F → Den b'.arena i F := fun i F hd =>
      (hd.ext h.inv.wf h2).ext h1.wf st1.toExt
    have hproj : Den b'.arena r (proj (names ++ [v]) v) := by
      refine d1.congr (fun a => ?_)
      simp only [proj, h.varsLen]
      rw [idxOf_snoc _ hv]
      simp
    refine ⟨r, _, rfl, ?_, hproj, hkeep⟩
    refine
      { inv := i1
        hdrs := ?_
        nodup := ?_
        varsNodup := AMap.nodup_insert h.varsNodup _ _
        varsLen := ?_
        vars := ?_
        varsOnly := ?_
        roots := ?_
        live := ?_ }
    · show b'.arena.headers = _
      rw [st1.heq, h4, h.hdrs, h.varsLen, mkHeaders_append]
    · rw [List.nodup_append]
      refine ⟨h.nodup, by simp, ?_⟩
      intro x hx y hy
      simp at hy
      subst hy
      intro he
      exact hv (he ▸ hx)
    · show (m.vars.insert v r).len = _
      rw [AMap.len_insert_fresh _ hnone, h.varsLen]
      simp
    · intro i s hs
      show ∃ w, (m.vars.insert v r).get s = some w ∧ Den b'.arena w (fun a => a i)
      rw [List.getElem?_append] at hs
      split at hs
      · obtain ⟨w, hw1, hw2⟩ := h.vars i s hs
        have hne : v ≠ s := fun he => hv (he ▸ List.mem_of_getElem? hs)
        rw [AMap.get_insert_ne _ _ hne]
        exact ⟨w, hw1, hkeep _ _ hw2⟩
      · have hi : i = names.length ∧ s = v := by
          have : i - names.length = 0 := by
            have := (List.getElem?_eq_some_iff.1 hs).1
            simp at this; omega
          rw [this] at hs
          simp at hs
          exact ⟨by omega, hs.symm⟩
        obtain ⟨rfl, rfl⟩ := hi
        refine ⟨r, by simp, hproj.congr (fun a => ?_)⟩
        simp only [proj]
        rw [idxOf_snoc _ hv]
    · intro s w hw
      have hw' : (m.vars.insert v r).get s = some w := hw
      rw [AMap.get_insert] at hw'
      split at hw'
      · rename_i he; subst he; simp
      · exact List.mem_append_left _ (h.varsOnly s w hw')
    · show RootsOK (pinR (pinR m.gc.roots r) r) ((r :: L) ++ (m.vars.insert v r).vals)
      rw [AMap.vals_insert_fresh _ hnone]
      refine ((h.roots.pin r).pin r).congr (fun k => ?_)
      simp only [List.cons_append, List.count_cons, List.count_append]
      omega
    · intro i hi
      rcases List.mem_cons.1 hi with rfl | hi
      · exact ⟨_, hproj⟩
      · obtain ⟨F, hF⟩ := h.live i hi
        exact ⟨F, hkeep _ _ hF⟩

/-! ### rpn -/

/-- Relation between the concrete and the abstract evaluation state. -/
structure RpnRel (s : BddMgr.RpnSt) (t : ARpn) (L : List Nat) : Prop where
  mok : MOK s.mgr t.names L
  stack : DenL s.mgr.bdd.arena s.stack t.stack
  cacheN : ∀ id, s.cache.get id = none → t.cache id = none
  cacheS : ∀ id i, s.cache.get id = some i → ∃ F, t.cache id = some F ∧ Den s.mgr.bdd.arena i F

/-- Functions of nodes are unchanged between two manager states. -/
def Keep (m m' : BddMgr) : Prop := ∀ i F, Den m.bdd.arena i F → Den m'.bdd.arena i F

theorem denL_keep {m m' : BddMgr} (k : Keep m m') {ns : List Nat} {Fs : List BFun}
    (h : DenL m.bdd.arena ns Fs) : DenL m'.bdd.arena ns Fs := by
  induction h with
  | nil => exact .nil
  | cons h1 _ ih => exact .cons (k _ _ h1) ih

theorem rpn_push {s : BddMgr.RpnSt} {t : ARpn} (h : RpnRel s t L) {st : List Nat}
    {sF : List BFun} (hst : DenL s.mgr.bdd.arena st sF) {res : Option (Nat × Bdd)} {F : BFun}
    (hr : BOk s.mgr.bdd F res) :
    ∃ s', (BddMgr.pushRes s.mgr st res).map
        (fun p => (Except.ok { s with mgr := p.1, stack := p.2 } : Except RpnErr BddMgr.RpnSt)) =
          some (.ok s') ∧
      RpnRel s' { t with stack := F :: sF } L ∧ Keep s.mgr s'.mgr := by
  obtain ⟨r, b, rfl, hb, stp, hd⟩ := hr
  have k : Keep s.mgr { s.mgr with bdd := b } := fun i F hF => hF.ext h.mok.inv.wf stp.toExt
  refine ⟨_, rfl, ⟨h.mok.eng hb stp, .cons hd (denL_keep k hst), h.cacheN, ?_⟩, k⟩
  intro id i hi
  obtain ⟨G, h1, h2⟩ := h.cacheS id i hi
  exact ⟨G, h1, k _ _ h2⟩

/-- Outcome of one token. -/
def TokOut (s : BddMgr.RpnSt) (L : List Nat) :
    Option (Except RpnErr ARpn) → Option (Except RpnErr BddMgr.RpnSt) → Prop
  | none, r => r = none
  | some (.error e), r => r = some (.error e)
  | some (.ok t'), r => ∃ s', r = some (.ok s') ∧ RpnRel s' t' L ∧ Keep s.mgr s'.mgr

theorem rpnTok {s : BddMgr.RpnSt} {t : ARpn} (h : RpnRel s t L) (k : Tok) :
    TokOut s L (arpnTok t k) (BddMgr.rpnTok s k) := by
  obtain ⟨mgr, stack, cache⟩ := s
  obtain ⟨names, astack, acache⟩ := t
  obtain ⟨mok, hst, hN, hS⟩ := h
  have h : RpnRel ⟨mgr, stack, cache⟩ ⟨names, astack, acache⟩ L := ⟨mok, hst, hN, hS⟩
  simp only at hst hN hS mok
  cases k with
  | const b =>
    refine ⟨_, rfl, ⟨mok, .cons ?_ hst, hN, hS⟩, fun _ _ hd => hd⟩
    have := Den_const mok.inv b
    cases b <;> exact this
  | and =>
    cases hst with
    | nil => exact rfl
    | cons h1 hst =>
      cases hst with
      | nil => exact rfl
      | cons h2 hst => exact rpn_push h hst (and_den mok.inv h2 h1)
  | or =>
    cases hst with
    | nil => exact rfl
    | cons h1 hst =>
      cases hst with
      | nil => exact rfl
      | cons h2 hst => exact rpn_push h hst (or_den mok.inv h2 h1)
  | xor =>
    cases hst with
    | nil => exact rfl
    | cons h1 hst =>
      cases hst with
      | nil => exact rfl
      | cons h2 hst => exact rpn_push h hst (xor_den mok.inv h2 h1)
  | not =>
    cases hst with
    | nil => exact rfl
    | cons h1 hst => exact rpn_push h hst (not_den mok.inv h1)
  | ite =>
    cases hst with
    | nil => exact rfl
    | cons h1 hst =>
      cases hst with
      | nil => exact rfl
      | cons h2 hst =>
        cases hst with
        | nil => exact rfl
        | cons h3 hst => exact rpn_push h hst (ite_den mok.inv h3 h2 h1)
  | save id =>
    cases hst with
    | nil => exact rfl
    | @cons i F ns Fs h1 hst =>
      refine ⟨_, rfl, ⟨mok, .cons h1 hst, ?_, ?_⟩, fun _ _ hd => hd⟩
      · intro id' hid
        simp only at hid ⊢
        rw [AMap.get_insert] at hid
        split at hid
        · cases hid
        · rename_i hne
          simp only [Ne.symm hne, if_false]
          exact hN id' hid
      · intro id' j hj
        simp only at hj ⊢
        rw [AMap.get_insert] at hj
        split at hj
        · rename_i he
          subst he
          cases hj
          exact ⟨F, by simp, h1⟩
        · rename_i hne
          simp only [Ne.symm hne, if_false]
          exact hS id' j hj
  | load id =>
    unfold BddMgr.rpnTok arpnTok
    cases hg : cache.get id with
    | none => simp only [hN id hg, hg]; exact rfl
    | some i =>
      obtain ⟨F, h1, h2⟩ := hS id i hg
      simp only [h1, hg]
      exact ⟨_, rfl, ⟨mok, .cons h2 hst, hN, hS⟩, fun _ _ hd => hd⟩
  | var v =>
    obtain ⟨r, m', h1, h2, h3, h4⟩ := mok.defvar v
    unfold BddMgr.rpnTok
    simp only [h1]
    refine ⟨_, rfl, ⟨h2.unpin, .cons h3 (denL_keep (m' := m'.unpin r) h4 hst), hN, ?_⟩, h4⟩
    intro id i hi
    obtain ⟨G, h5, h6⟩ := hS id i hi
    exact ⟨G, h5, h4 _ _ h6⟩

/-- Outcome of the loop. -/
def LoopOut (m : BddMgr) (L : List Nat) : Option (Except (RpnErr × List String) ARpn) →
    Option (Except (RpnErr × BddMgr) BddMgr.RpnSt) → Prop
  | none, r => r = none
  | some (.error (e, ns)), r => ∃ m', r = some (.error (e, m')) ∧ MOK m' ns L ∧ Keep m m'
  | some (.ok t'), r => ∃ s', r = some (.ok s') ∧ RpnRel s' t' L ∧ Keep m s'.mgr

theorem rpnLoop : ∀ (ts : List Tok) {s : BddMgr.RpnSt} {t : ARpn}, RpnRel s t L →
    LoopOut s.mgr L (arpnLoop t ts) (BddMgr.rpnLoop s ts) := by
  intro ts
  induction ts with
  | nil => intro s t h; exact ⟨s, rfl, h, fun _ _ hd => hd⟩
  | cons k ts ih =>
    intro s t h
    have := rpnTok h k
    unfold arpnLoop BddMgr.rpnLoop
    cases hk : arpnTok t k with
    | none =>
      rw [hk] at this
      have this : BddMgr.rpnTok s k = none := this
      simp only [this]; exact rfl
    | some r =>
      rw [hk] at this
      cases r with
      | error e =>
        have this : BddMgr.rpnTok s k = some (.error e) := this
        simp only [this]
        exact ⟨_, rfl, h.mok, fun _ _ hd => hd⟩
      | ok t' =>
        obtain ⟨s', h1, h2, h3⟩ := this
        simp only [h1]
        have := ih h2
        cases hl : arpnLoop t' ts with
        | none => rw [hl] at this; exact this
        | some q =>
          rw [hl] at this
          cases q with
          | error p =>
            obtain ⟨m', q1, q2, q3⟩ := this
            exact ⟨m', q1, q2, fun i F hd => q3 _ _ (h3 _ _ hd)⟩
          | ok t'' =>
            obtain ⟨s'', q1, q2, q3⟩ := this
            exact ⟨s'', q1, q2, fun i F hd => q3 _ _ (h3 _ _ hd)⟩

/-- Outcome of `rpn`. -/
def RpnOut (m : BddMgr) (L : List Nat) : Option (Except RpnErr BFun × List String) →
    Option (Except RpnErr Nat × BddMgr) → Prop
  | none, r => r = none
  | some (.error e, ns), r => ∃ m', r = some (.error e, m') ∧ MOK m' ns L ∧
      ∀ i F, i ∈ L → Den m.bdd.arena i F → Den m'.bdd.arena i F
  | some (.ok F, ns), r => ∃ i m', r = some (.ok i, m') ∧ MOK m' ns (i :: L) ∧
      Den m'.bdd.arena i F ∧ ∀ i F, i ∈ L → Den m.bdd.arena i F → Den m'.bdd.arena i F

theorem rpn (h : MOK m names L) (ts : List Tok) : RpnOut m L (arpn names ts) (m.rpn ts) := by
  have := rpnLoop (L := L) ts (s := ⟨m, [], AMap.empty⟩) (t := ⟨names, [], fun _ => none⟩)
    ⟨h, .nil, fun _ _ => rfl, by intro id i hi; cases hi⟩
  unfold arpn BddMgr.rpn
  cases hl : arpnLoop ⟨names, [], fun _ => none⟩ ts with
  | none => rw [hl] at this; have this : _ = none := this; simp only [this]; exact rfl
  | some q =>
    rw [hl] at this
    cases q with
    | error p =>
      obtain ⟨e, ns⟩ := p
      obtain ⟨m', q1, q2, q3⟩ := this
      simp only [q1]
      exact ⟨m', rfl, q2, fun i F _ hd => q3 i F hd⟩
    | ok t =>
      obtain ⟨s', q1, q2, q3⟩ := this
      simp only [q1]
      obtain ⟨mgr, stack, cache⟩ := s'
      obtain ⟨names', astack, acache⟩ := t
      have hst := q2.stack
      simp only at hst ⊢
      cases hst with
      | nil => exact ⟨_, rfl, q2.mok, fun i F _ hd => q3 i F hd⟩
      | cons h1 hst =>
        cases hst with
        | cons h2 hst => exact ⟨_, rfl, q2.mok, fun i F _ hd => q3 i F hd⟩
        | nil =>
          obtain ⟨r, m', w1, w2, w3, w4⟩ := q2.mok.wrap (.ret q2.mok.inv h1)
          simp only at w1 ⊢
          simp only [w1]
          exact ⟨r, m', rfl, w2, w3, fun i F hi hd => w4 i F hi (q3 i F hd)⟩

end MOK
end DD
