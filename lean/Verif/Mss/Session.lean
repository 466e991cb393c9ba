import Verif.Mss.Refine

/-!
# MDD sessions: effect of the manager's calls
-/

set_option autoImplicit false
set_option linter.unusedSectionVars false
set_option linter.unusedVariables false

namespace DD
open Arena Mtmdd2

/-! ## Folds -/

/-- A left fold of pointwise results. -/
def foldRel (o : M2Bin) : MVal → List MVal → MVal → Prop
  | x, [], z => z = x
  | x, y :: ys, z => ∃ u, o.Rel x y u ∧ foldRel o u ys z

/-- Readings of a list of nodes. -/
def MEvalL (e : Mtmdd2) (a : Nat → Nat) : List MNode → List MVal → Prop
  | [], [] => True
  | x :: xs, u :: us => e.MEval a x u ∧ MEvalL e a xs us
  | _, _ => False

theorem mevalL_ext {e e' : Mtmdd2} (hs : Inv e) (h : Ext2 e e') {a : Nat → Nat} :
    ∀ {xs : List MNode} {us : List MVal}, (∀ x ∈ xs, e.MLive x) → (MEvalL e' a xs us ↔ MEvalL e a xs us) := by
  intro xs
  induction xs with
  | nil => intro us _; cases us <;> exact Iff.rfl
  | cons x xs ih =>
    intro us hl
    cases us with
    | nil => exact Iff.rfl
    | cons u us =>
      show _ ∧ _ ↔ _ ∧ _
      rw [meval_ext hs h (hl x List.mem_cons_self), ih (fun y hy => hl y (List.mem_cons_of_mem _ hy))]

theorem foldOp_ok (o : M2Bin) : ∀ (xs : List MNode) {e : Mtmdd2} {r : MNode}, Inv e → e.MLive r →
    (∀ x ∈ xs, e.MLive x) →
    MOk e (fun a z => ∀ u us, e.MEval a r u → MEvalL e a xs us → foldRel o u us z) (foldOp o e r xs) := by
  intro xs
  induction xs with
  | nil =>
    intro e r he hr _
    refine (MOk.ret he hr).mono ?_
    intro a _ z hz u us hu hus
    cases us with
    | nil => exact hz.det hu
    | cons _ _ => exact hus.elim
  | cons x xs ih =>
    intro e r he hr hl
    obtain ⟨r1, e1, h1, h2, h3, h4, h5⟩ := bin_ok he o hr (hl x List.mem_cons_self)
    have hl1 : ∀ y ∈ xs, e.MLive y := fun y hy => hl y (List.mem_cons_of_mem _ hy)
    obtain ⟨r2, e2, k1, k2, k3, k4, k5⟩ := ih h2 h4 (fun y hy => mlive_ext h3.ext2 (hl1 y hy))
    refine ⟨r2, e2, by simp only [foldOp, h1, k1], k2, h3.trans k3, k4, ?_⟩
    intro a ha z hz u us hu hus
    cases us with
    | nil => exact hus.elim
    | cons y ys =>
      have ha1 : e1.ValidA a := k3.valid.1 ha
      obtain ⟨v, hv⟩ := mtotal h2 ha1 h4
      exact ⟨v, h5 a ha1 v hv u y hu hus.1,
        k5 a ha z hz v ys hv ((mevalL_ext he h3.ext2 hl1).2 hus.2)⟩

/-! ## Variable order -/

section order
variable {m : MddMgr} {vs : List (String × Nat)} {L : List MNode}

/-- The header of a variable's node, if it has one. -/
theorem var_case (h : MMOK m vs L) {i : Nat} {x : String} {r : Nat} (hi : vs[i]? = some (x, r)) {n : MNode}
    (hn : MDen m.w.eng n (fun a => .v (some (a i)))) :
    (2 ≤ r → m.w.eng.header? n = some i) ∧ (r = 1 → m.w.eng.header? n = none) := by
  have hz : ValidV vs (fun _ => 0) := h.valid.1 h.inv.zero
  have key : ∀ t, m.w.eng.header? n = t → MTop vs (fun a => MVal.v (some ((a i : Nat) : Int))) t := by
    intro t ht
    cases mden_cases h.inv h.hdrs h.inj hn with
    | bterm t' _ e1 _ _ _ _ _ e =>
      rw [e1] at ht; subst ht
      intro a b ha hb
      exact (e a ha).trans (e b hb).symm
    | vterm t' _ e1 _ _ _ _ _ e =>
      rw [e1] at ht; subst ht
      intro a b ha hb
      exact (e a ha).trans (e b hb).symm
    | node l p ch _ e1 _ _ _ _ _ _ e _ =>
      rw [e1] at ht; subst ht
      exact e
  constructor
  · intro h2
    have top : MTop vs (fun a => MVal.v (some ((a i : Nat) : Int))) (some i) := by
      refine ⟨fun a b _ _ hab => by simp only [hab i (Nat.le_refl _)],
        fun _ => 0, upd (fun _ => 0) i 1, hz, validV_upd hz hi (by exact h2), fun x hx => by rw [upd_ne _ _ hx], ?_⟩
      simp
    exact (key _ rfl).unique top
  · intro h1
    have top : MTop vs (fun a => MVal.v (some ((a i : Nat) : Int))) none := by
      intro a b ha hb
      have := ha i x r hi
      have := hb i x r hi
      have : a i = b i := by omega
      simp only [this]
    exact (key _ rfl).unique top

/-- The body of the loop of `get_varorder`. -/
def orderStep (e : Mtmdd2) (acc : Option (List (String × Nat))) (kv : String × MNode) :
    Option (List (String × Nat)) :=
  match acc with
  | none => none
  | some result =>
    match e.header? kv.2 with
    | none => none
    | some h =>
      match e.mtmdd.arena.headers[h]? with
      | none => none
      | some hd => if hd.level < result.length then some (result.set hd.level (kv.1, hd.edgeNum)) else none

theorem getVarorder_eq (m : MddMgr) : m.getVarorder =
    m.vars.kvs.foldl (orderStep m.w.eng) (some (List.replicate m.vars.len ("?", 0))) := rfl

theorem orderStep_none (e : Mtmdd2) (l : List (String × MNode)) : l.foldl (orderStep e) none = none := by
  induction l with
  | nil => rfl
  | cons x l ih => exact ih

/-- Each key in the table is a variable with its position and node. -/
theorem kv_pos (h : MMOK m vs L) {kv : String × MNode} (hm : kv ∈ m.vars.kvs) :
    ∃ i r, vs[i]? = some (kv.1, r) ∧ MDen m.w.eng kv.2 (fun a => .v (some (a i))) := by
  have hg : m.vars.get kv.1 = some kv.2 := AMap.get_of_mem h.varsNodup hm
  obtain ⟨p, hp, e⟩ := List.mem_map.1 (h.varsOnly _ _ hg)
  obtain ⟨i, hi⟩ := List.mem_iff_getElem?.1 hp
  obtain ⟨n, h1, h2⟩ := h.vars i p.1 p.2 hi
  rw [e, hg] at h1; cases h1
  exact ⟨i, p.2, by rw [hi, ← e], h2⟩

theorem hdr_at (h : MMOK m vs L) {i : Nat} {p : String × Nat} (hi : vs[i]? = some p) :
    m.w.eng.mtmdd.arena.headers[i]? = some ⟨i, p.1, p.2⟩ := by
  rw [← h.inv.hdr, h.hdrs]
  exact mkH_get.2 ⟨p, hi, rfl⟩

theorem order_fold (h : MMOK m vs L) (h2 : ∀ p ∈ vs, 2 ≤ p.2) : ∀ (l : List (String × MNode)),
    (∀ kv ∈ l, kv ∈ m.vars.kvs) → ∀ acc : List (String × Nat), acc.length = vs.length →
    ∃ out, l.foldl (orderStep m.w.eng) (some acc) = some out ∧ out.length = vs.length ∧
      ∀ (i : Nat) (p : String × Nat), vs[i]? = some p →
        (p.1 ∈ l.map Prod.fst → out[i]? = some p) ∧ (acc[i]? = some p → out[i]? = some p) := by
  intro l
  induction l with
  | nil =>
    intro _ acc ha
    exact ⟨acc, rfl, ha, fun i p hi => ⟨fun hm => by simp at hm, fun h => h⟩⟩
  | cons kv l ih =>
    intro hl acc ha
    obtain ⟨i, r, hi, hd⟩ := kv_pos h (hl kv List.mem_cons_self)
    have hr : 2 ≤ r := h2 _ (List.mem_of_getElem? hi)
    have e1 := (var_case h hi hd).1 hr
    have e2 := hdr_at h hi
    have hlt := (List.getElem?_eq_some_iff.1 hi).1
    have step : orderStep m.w.eng (some acc) kv = some (acc.set i (kv.1, r)) := by
      unfold orderStep
      simp only [e1, e2]
      rw [if_pos (by omega)]
    obtain ⟨out, o1, o2, o3⟩ := ih (fun x hx => hl x (List.mem_cons_of_mem _ hx)) (acc.set i (kv.1, r))
      (by rw [List.length_set]; exact ha)
    refine ⟨out, by rw [List.foldl_cons, step]; exact o1, o2, fun j p hj => ⟨fun hm => ?_, fun hacc => ?_⟩⟩
    · rcases List.mem_map.1 hm with ⟨q, hq, e⟩
      rcases List.mem_cons.1 hq with rfl | hq
      · have hji : j = i := by
          have hnd := h.nodup
          have a1 : (vs.map Prod.fst)[j]? = some p.1 := by rw [List.getElem?_map, hj]; rfl
          have a2 : (vs.map Prod.fst)[i]? = some p.1 := by rw [List.getElem?_map, hi]; simp [e]
          obtain ⟨b1, c1⟩ := List.getElem?_eq_some_iff.1 a1
          obtain ⟨b2, c2⟩ := List.getElem?_eq_some_iff.1 a2
          exact List.getElem?_inj b1 hnd |>.1 (a1.trans a2.symm)
        subst hji
        rw [hj] at hi; cases hi
        refine (o3 j _ hj).2 ?_
        rw [List.getElem?_set_self (by omega)]
      · exact (o3 j p hj).1 (List.mem_map.2 ⟨q, hq, e⟩)
    · refine (o3 j p hj).2 ?_
      by_cases hji : j = i
      · subst hji
        rw [hj] at hi; cases hi
        rw [List.getElem?_set_self (by omega)]
      · rw [List.getElem?_set_ne (Ne.symm hji)]; exact hacc

/-- `get_varorder` lists the variables in order of definition, if they all have at least two states. -/
theorem getVarorder_ok (h : MMOK m vs L) (h2 : ∀ p ∈ vs, 2 ≤ p.2) : m.getVarorder = some vs := by
  obtain ⟨out, o1, o2, o3⟩ := order_fold h h2 m.vars.kvs (fun _ h => h)
    (List.replicate m.vars.len ("?", 0)) (by rw [List.length_replicate, h.varsLen])
  rw [getVarorder_eq, o1]
  congr 1
  refine List.ext_getElem? (fun i => ?_)
  cases hi : vs[i]? with
  | none =>
    rw [List.getElem?_eq_none_iff] at hi ⊢
    omega
  | some p =>
    refine (o3 i p hi).1 ?_
    obtain ⟨n, h1, _⟩ := h.vars i p.1 p.2 hi
    exact List.mem_map.2 ⟨(p.1, n), AMap.mem_of_get h1, rfl⟩

/-- `get_varorder` panics as soon as some variable has a single state. -/
theorem getVarorder_panics (h : MMOK m vs L) {x : String} (h1 : (x, 1) ∈ vs) : m.getVarorder = none := by
  obtain ⟨i, hi⟩ := List.mem_iff_getElem?.1 h1
  obtain ⟨n, hn, hd⟩ := h.vars i x 1 hi
  have hh := (var_case h hi hd).2 rfl
  have hm := AMap.mem_of_get hn
  rw [getVarorder_eq]
  obtain ⟨l, l', e⟩ := List.append_of_mem hm
  rw [e, List.foldl_append, List.foldl_cons]
  cases hf : List.foldl (orderStep m.w.eng) (some (List.replicate m.vars.len ("?", 0))) l with
  | none => exact orderStep_none _ _
  | some acc =>
    have : orderStep m.w.eng (some acc) (x, n) = none := by unfold orderStep; simp only [hh]
    rw [this]
    exact orderStep_none _ _

end order

/-! ## Postfix expressions: what every run preserves -/

/-- Invariant of the `rpn` loop. -/
structure RpnOk (s : MddMgr.RpnSt) (vs : List (String × Nat)) (L : List MNode) : Prop where
  mok : MMOK s.mgr vs L
  stack : ∀ x ∈ s.stack, s.mgr.w.eng.MLive x
  cache : ∀ id x, s.cache.get id = some x → s.mgr.w.eng.MLive x

theorem Ext2.refl (e : Mtmdd2) : Ext2 e e := ⟨Ext.refl _, Ext.refl _⟩
theorem Ext2.trans {a b c : Mtmdd2} (h : Ext2 a b) (h' : Ext2 b c) : Ext2 a c :=
  ⟨h.1.trans h'.1, h.2.trans h'.2⟩

section rpn
variable {L : List MNode}

theorem RpnOk.push {s : MddMgr.RpnSt} {vs : List (String × Nat)} (h : RpnOk s vs L) {st : List MNode}
    (hst : ∀ x ∈ st, x ∈ s.stack) {res : Option (MNode × Mtmdd2)} {Φ : (Nat → Nat) → MVal → Prop}
    (hr : MOk s.mgr.w.eng Φ res) :
    ∃ r e, res = some (r, e) ∧ s.push st res = some (.ok { s with
        mgr := { s.mgr with w := { s.mgr.w with eng := e } }, stack := r :: st }) ∧
      RpnOk { s with mgr := { s.mgr with w := { s.mgr.w with eng := e } }, stack := r :: st } vs L ∧
      St s.mgr.w.eng e ∧ ∀ a, e.ValidA a → ∀ z, e.MEval a r z → Φ a z := by
  obtain ⟨r, e, h1, h2, h3, h4, h5⟩ := hr
  refine ⟨r, e, h1, by rw [h1]; rfl, ⟨h.mok.setEng h2 h3, ?_, ?_⟩, h3, h5⟩
  · intro x hx
    rcases List.mem_cons.1 hx with rfl | hx
    · exact h4
    · exact mlive_ext h3.ext2 (h.stack x (hst x hx))
  · intro id x hx
    exact mlive_ext h3.ext2 (h.cache id x hx)

/-- The variables after one token. -/
def tokVars (vars : String → Option Nat) (vs : List (String × Nat)) : MTok → List (String × Nat)
  | .var x => match vars x with | some r => addVar vs x r | none => vs
  | _ => vs

theorem tokVars_prefix (vars : String → Option Nat) (vs : List (String × Nat)) (t : MTok) :
    vs <+: tokVars vars vs t := by
  cases t <;> first | exact List.prefix_rfl | skip
  unfold tokVars
  simp only
  split
  · exact addVar_prefix _ _ _
  · exact List.prefix_rfl

theorem defvar_zero {m : MddMgr} {x : String} (hg : m.vars.get x = none) : m.defvar x 0 = none := by
  have h1 : MddMgr.varNode m.w.eng m.vars.len x 0 = none := by
    simp only [MddMgr.varNode, MddMgr.valuesFrom]
    cases m.w.eng.createHeader m.vars.len x 0 with
    | none => rfl
    | some p => rfl
  simp only [MddMgr.defvar, hg, h1]

/-- `defvar` returns only if the variable exists or has at least one state. -/
theorem defvar_legal {m : MddMgr} {vs : List (String × Nat)} (h : MMOK m vs L) {x : String} {r : Nat}
    {p : MNode × MddMgr} (hd : m.defvar x r = some p) : x ∈ vs.map Prod.fst ∨ 0 < r := by
  cases Nat.eq_zero_or_pos r with
  | inr h => exact .inr h
  | inl h0 =>
    subst h0
    left
    refine Decidable.byContradiction fun hx => ?_
    rw [defvar_zero (h.get_none.2 hx)] at hd
    cases hd

theorem ite_kinds {e : Mtmdd2} {f g h : MNode} {p : MNode × Mtmdd2} (he : e.ite f g h = some p) :
    g.isBool = h.isBool := by
  cases f <;> cases g <;> cases h <;> first | rfl | (cases he; done)

theorem RpnOk.tok {vars : String → Option Nat} {s : MddMgr.RpnSt} {vs : List (String × Nat)}
    (h : RpnOk s vs L) {t : MTok} {s' : MddMgr.RpnSt} (ht : MddMgr.rpnTok vars s t = some (.ok s')) :
    RpnOk s' (tokVars vars vs t) L ∧ Ext2 s.mgr.w.eng s'.mgr.w.eng := by
  have fin : ∀ {st : List MNode} {res : Option (MNode × Mtmdd2)} {Φ : (Nat → Nat) → MVal → Prop},
      (∀ x ∈ st, x ∈ s.stack) → MOk s.mgr.w.eng Φ res → s.push st res = some (.ok s') →
      RpnOk s' vs L ∧ Ext2 s.mgr.w.eng s'.mgr.w.eng := by
    intro st res Φ hst hr hp
    obtain ⟨r, e, _, h2, h3, h4, _⟩ := h.push hst hr
    rw [h2] at hp
    simp only [Option.some.injEq, Except.ok.injEq] at hp
    subst hp
    exact ⟨h3, h4.ext2⟩
  cases t with
  | bin o =>
    simp only [MddMgr.rpnTok] at ht
    split at ht
    · rename_i b a st hst
      exact fin (by intro x hx; rw [hst]; simp [hx])
        (bin_ok h.mok.inv o (h.stack a (by rw [hst]; simp)) (h.stack b (by rw [hst]; simp))) ht
    · cases ht
  | not =>
    simp only [MddMgr.rpnTok] at ht
    split at ht
    · rename_i a st hst
      exact fin (by intro x hx; rw [hst]; simp [hx]) (not_m h.mok.inv (h.stack a (by rw [hst]; simp))) ht
    · cases ht
  | ite =>
    simp only [MddMgr.rpnTok] at ht
    split at ht
    · rename_i c b a st hst
      cases hi : s.mgr.w.eng.ite a b c with
      | none => rw [hi] at ht; cases ht
      | some p =>
        exact fin (by intro x hx; rw [hst]; simp [hx])
          (ite_m h.mok.inv (h.stack a (by rw [hst]; simp)) (h.stack b (by rw [hst]; simp))
            (h.stack c (by rw [hst]; simp)) (ite_kinds hi)) ht
    · cases ht
  | const b =>
    simp only [MddMgr.rpnTok, Option.some.injEq, Except.ok.injEq] at ht
    subst ht
    refine ⟨⟨h.mok, ?_, h.cache⟩, Ext2.refl _⟩
    intro x hx
    rcases List.mem_cons.1 hx with rfl | hx
    · cases b
      · exact mlive_undetB h.mok.inv .zero
      · exact mlive_undetB h.mok.inv .one
    · exact h.stack x hx
  | save id =>
    simp only [MddMgr.rpnTok] at ht
    split at ht
    · rename_i x st hst
      simp only [Option.some.injEq, Except.ok.injEq] at ht
      subst ht
      refine ⟨⟨h.mok, h.stack, ?_⟩, Ext2.refl _⟩
      intro id' y hy
      have hy : (s.cache.insert id x).get id' = some y := hy
      rw [AMap.get_insert] at hy
      split at hy
      · cases hy; exact h.stack _ (by rw [hst]; simp)
      · exact h.cache id' y hy
    · cases ht
  | load id =>
    simp only [MddMgr.rpnTok] at ht
    split at ht
    · rename_i x hx
      simp only [Option.some.injEq, Except.ok.injEq] at ht
      subst ht
      refine ⟨⟨h.mok, ?_, h.cache⟩, Ext2.refl _⟩
      intro y hy
      rcases List.mem_cons.1 hy with rfl | hy
      · exact h.cache id _ hx
      · exact h.stack y hy
    · cases ht
  | int v =>
    simp only [MddMgr.rpnTok] at ht
    exact fin (fun x hx => hx) (value_m h.mok.inv v) ht
  | var x =>
    simp only [MddMgr.rpnTok] at ht
    cases hv : vars x with
    | none => rw [hv] at ht; cases ht
    | some r =>
      rw [hv] at ht
      simp only at ht
      cases hd : s.mgr.defvar x r with
      | none => rw [hd] at ht; cases ht
      | some p =>
        rw [hd] at ht
        obtain ⟨n, m', i, h1, h2, h3, h4, h5, h6, h7⟩ := h.mok.defvar x (defvar_legal h.mok hd)
        rw [h1] at hd
        obtain ⟨n', m''⟩ := p
        cases hd
        simp only [Option.some.injEq, Except.ok.injEq] at ht
        subst ht
        simp only [tokVars, hv]
        refine ⟨⟨h2.unpin, ?_, ?_⟩, h7⟩
        · intro y hy
          rcases List.mem_cons.1 hy with rfl | hy
          · exact h4.live
          · exact mlive_ext h7 (h.stack y hy)
        · intro id y hy
          exact mlive_ext h7 (h.cache id y hy)

/-- What remains true after the loop. -/
def LoopOk (e0 : Mtmdd2) (vs : List (String × Nat)) (L : List MNode) :
    Except (RpnErr × MddMgr) MddMgr.RpnSt → Prop
  | .ok s => ∃ vs', vs <+: vs' ∧ RpnOk s vs' L ∧ Ext2 e0 s.mgr.w.eng
  | .error (_, m) => ∃ vs', vs <+: vs' ∧ MMOK m vs' L ∧ Ext2 e0 m.w.eng

theorem RpnOk.loop {vars : String → Option Nat} : ∀ (ts : List MTok) {s : MddMgr.RpnSt}
    {vs : List (String × Nat)}, RpnOk s vs L → ∀ {out}, MddMgr.rpnLoop vars s ts = some out →
    LoopOk s.mgr.w.eng vs L out := by
  intro ts
  induction ts with
  | nil =>
    intro s vs h out ho
    simp only [MddMgr.rpnLoop, Option.some.injEq] at ho
    subst ho
    exact ⟨vs, List.prefix_rfl, h, Ext2.refl _⟩
  | cons t ts ih =>
    intro s vs h out ho
    simp only [MddMgr.rpnLoop] at ho
    split at ho
    · cases ho
    · simp only [Option.some.injEq] at ho
      subst ho
      exact ⟨vs, List.prefix_rfl, h.mok, Ext2.refl _⟩
    · rename_i s' hs'
      obtain ⟨h1, h2⟩ := h.tok hs'
      have := ih h1 ho
      cases out with
      | ok s'' =>
        obtain ⟨vs', a1, a2, a3⟩ := this
        exact ⟨vs', (tokVars_prefix _ _ _).trans a1, a2, Ext2.trans h2 a3⟩
      | error p =>
        obtain ⟨vs', a1, a2, a3⟩ := this
        exact ⟨vs', (tokVars_prefix _ _ _).trans a1, a2, Ext2.trans h2 a3⟩

theorem rpnOk_start {m : MddMgr} {vs : List (String × Nat)} (h : MMOK m vs L) :
    RpnOk { mgr := m, stack := [], cache := AMap.empty } vs L :=
  ⟨h, (by intro x hx; cases hx), (by intro id x hx; cases hx)⟩

/-- Any `rpn` call that returns. -/
theorem MMOK.rpn {m : MddMgr} {vs : List (String × Nat)} (h : MMOK m vs L) {vars : String → Option Nat}
    {ts : List MTok} {out : Except RpnErr MNode} {m' : MddMgr} (hr : m.rpn vars ts = some (out, m')) :
    ∃ vs', vs <+: vs' ∧ mI.KeepL L m.w.eng m'.w.eng ∧
      match out with
      | .error _ => MMOK m' vs' L
      | .ok x => MMOK m' vs' (x :: L) ∧ ∃ V, MDen m'.w.eng x V := by
  unfold MddMgr.rpn at hr
  cases hl : MddMgr.rpnLoop vars { mgr := m, stack := [], cache := AMap.empty } ts with
  | none => rw [hl] at hr; cases hr
  | some lo =>
    have hk := RpnOk.loop ts (rpnOk_start h) hl
    rw [hl] at hr
    cases lo with
    | error p =>
      obtain ⟨e, m1⟩ := p
      simp only [Option.some.injEq, Prod.mk.injEq] at hr
      obtain ⟨rfl, rfl⟩ := hr
      obtain ⟨vs', a1, a2, a3⟩ := hk
      exact ⟨vs', a1, fun k _ F hF => hF.ext h.inv a3, a2⟩
    | ok s =>
      obtain ⟨vs', a1, a2, a3⟩ := hk
      simp only at hr
      split at hr
      · rename_i x hx
        obtain ⟨r, m1, V, b1, b2, b3, b4, b5⟩ := a2.mok.wrap (MOk.ret a2.mok.inv (a2.stack x (by rw [hx]; simp)))
        rw [b1] at hr
        simp only [Option.some.injEq, Prod.mk.injEq] at hr
        obtain ⟨rfl, rfl⟩ := hr
        exact ⟨vs', a1, fun k hk F hF => b5 k hk F (hF.ext h.inv a3), b2, V, b3⟩
      · simp only [Option.some.injEq, Prod.mk.injEq] at hr
        obtain ⟨rfl, rfl⟩ := hr
        exact ⟨vs', a1, fun k _ F hF => hF.ext h.inv a3, a2.mok⟩

end rpn
end DD
