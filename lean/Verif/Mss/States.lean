import Verif.Mss.MssStep

/-!
# State vectors

Families are stored as distances from a baseline; here they are read as state vectors.
-/

set_option autoImplicit false
set_option linter.unusedSectionVars false
set_option linter.unusedVariables false

namespace DD
open Arena Zmdd

/-- A state vector over the variables `vs` (a state per level; 0 at levels without a variable). -/
def IsVec (vs : List (String × Nat)) (a : Nat → Nat) : Prop :=
  (∀ (l : Nat) (x : String) (s : Nat), vs[l]? = some (x, s) → a l < s) ∧ ∀ l, vs.length ≤ l → a l = 0

/-- More state never lowers the value. -/
def MonoS (vs : List (String × Nat)) (φ : (Nat → Nat) → Int) : Prop :=
  ∀ a b, IsVec vs a → IsVec vs b → (∀ l, a l ≤ b l) → φ a ≤ φ b

/-- `a` is a minimal element of `A`. -/
def MinIn (A : (Nat → Nat) → Prop) (a : Nat → Nat) : Prop := A a ∧ ∀ b, A b → (∀ l, b l ≤ a l) → b = a

/-- `a` is a maximal element of `A`. -/
def MaxIn (A : (Nat → Nat) → Prop) (a : Nat → Nat) : Prop := A a ∧ ∀ b, A b → (∀ l, a l ≤ b l) → b = a

/-- Forget the levels without a variable. -/
def trunc (vs : List (String × Nat)) (a : Nat → Nat) : Nat → Nat := fun l => if l < vs.length then a l else 0

/-- The state vector at distance `d` from the baseline: all-0, or with `rev` all-last. -/
def stVec (vs : List (String × Nat)) (rev : Bool) (d : Nat → Nat) : Nat → Nat := fun l =>
  match vs[l]? with
  | some p => Zma.stOf rev p.2 (d l)
  | none => 0

section
variable {vs : List (String × Nat)} {φ : (Nat → Nat) → Int}

theorem IsVec.valid {a : Nat → Nat} (h : IsVec vs a) : ValidV vs a := h.1

theorem trunc_vec {a : Nat → Nat} (h : ValidV vs a) : IsVec vs (trunc vs a) := by
  refine ⟨fun l x s hl => ?_, fun l hl => if_neg (by omega)⟩
  unfold trunc
  rw [if_pos (List.getElem?_eq_some_iff.1 hl).1]
  exact h l x s hl

theorem IsVec.trunc {a : Nat → Nat} (h : IsVec vs a) : trunc vs a = a := by
  funext l
  unfold DD.trunc
  split
  · rfl
  · exact (h.2 l (by omega)).symm

theorem trunc_trunc (a : Nat → Nat) : trunc vs (trunc vs a) = trunc vs a := by
  funext l; unfold trunc; split <;> simp_all

theorem trunc_le (a : Nat → Nat) (l : Nat) : trunc vs a l ≤ a l := by unfold trunc; split <;> omega

theorem trunc_mono {a b : Nat → Nat} (h : ∀ l, a l ≤ b l) (l : Nat) : trunc vs a l ≤ trunc vs b l := by
  unfold trunc; split
  · exact h l
  · omega

theorem IsVec.of_le {a b : Nat → Nat} (h : IsVec vs b) (hle : ∀ l, a l ≤ b l) : IsVec vs a :=
  ⟨fun l x s hl => Nat.lt_of_le_of_lt (hle l) (h.1 l x s hl), fun l hl => by have := h.2 l hl; have := hle l; omega⟩

theorem monoS_iff : MonoV vs (fun a => φ (trunc vs a)) ↔ MonoS vs φ := by
  constructor
  · intro h a b ha hb hle
    have : φ (trunc vs a) ≤ φ (trunc vs b) := h a b hb.1 hle
    rwa [ha.trunc, hb.trunc] at this
  · intro h a b hb hle
    exact h _ _ (trunc_vec (fun l x s hl => Nat.lt_of_le_of_lt (hle l) (hb l x s hl))) (trunc_vec hb) (trunc_mono hle)

theorem IsVec.le_last {a : Nat → Nat} (h : IsVec vs a) (l : Nat) : a l ≤ lastV vs l := by
  cases e : vs[l]? with
  | none =>
    rw [h.2 l (List.getElem?_eq_none_iff.1 e)]; omega
  | some p =>
    have := h.1 l p.1 p.2 e
    unfold lastV; rw [e]; simp only; omega

theorem stVec_false {d : Nat → Nat} (h : IsVec vs d) : stVec vs false d = d := by
  funext l
  unfold stVec
  cases e : vs[l]? with
  | none => exact (h.2 l (List.getElem?_eq_none_iff.1 e)).symm
  | some p => rfl

theorem stVec_true (d : Nat → Nat) : stVec vs true d = crd true (lastV vs) d := by
  funext l
  show _ = lastV vs l - d l
  unfold stVec lastV
  cases e : vs[l]? with
  | none => simp
  | some p => rfl

theorem stVec_vec {rev : Bool} {d : Nat → Nat} (hd : IsVec vs d) : IsVec vs (stVec vs rev d) := by
  refine ⟨fun l x s hl => ?_, fun l hl => ?_⟩
  · have := hd.1 l x s hl
    unfold stVec
    simp only [hl]
    unfold Zma.stOf
    split <;> omega
  · unfold stVec
    rw [List.getElem?_eq_none hl]

/-- Reading backwards. -/
theorem stVec_invol {rev : Bool} {d : Nat → Nat} (hd : IsVec vs d) : stVec vs rev (stVec vs rev d) = d := by
  funext l
  unfold stVec
  cases e : vs[l]? with
  | none => exact (hd.2 l (List.getElem?_eq_none_iff.1 e)).symm
  | some p =>
    have := hd.1 l p.1 p.2 e
    simp only
    unfold Zma.stOf
    split <;> omega

theorem stVec_inj {rev : Bool} {d d' : Nat → Nat} (hd : IsVec vs d) (hd' : IsVec vs d')
    (e : stVec vs rev d = stVec vs rev d') : d = d' := by
  rw [← stVec_invol (rev := rev) hd, e, stVec_invol hd']

/-- Closer to the baseline: less state, or with `rev` more. -/
theorem stVec_le {rev : Bool} {d d' : Nat → Nat} (hd : IsVec vs d) (hd' : IsVec vs d') :
    (∀ l, d l ≤ d' l) ↔ if rev then ∀ l, stVec vs rev d' l ≤ stVec vs rev d l
      else ∀ l, stVec vs rev d l ≤ stVec vs rev d' l := by
  cases rev with
  | false => rw [stVec_false hd, stVec_false hd']; simp
  | true =>
    rw [stVec_true, stVec_true]
    simp only [if_true]
    refine forall_congr' fun l => ?_
    have := hd.le_last l
    have := hd'.le_last l
    show _ ↔ lastV vs l - d' l ≤ lastV vs l - d l
    omega

theorem extreme_false {v : Int} {d : Nat → Nat} :
    Extreme false vs (fun a => φ (trunc vs a)) v d ↔ MinIn (fun a => IsVec vs a ∧ φ a = v) d := by
  constructor
  · rintro ⟨h1, h2, h3⟩
    have h2 : φ (trunc vs d) = v := h2
    have e : trunc vs d = d := h3 _ (trunc_le d) (by
      show φ (trunc vs (trunc vs d)) = v
      rw [trunc_trunc]; exact h2)
    have hv : IsVec vs d := by rw [← e]; exact trunc_vec h1
    refine ⟨⟨hv, by rw [e] at h2; exact h2⟩, fun b hb hle => h3 b hle ?_⟩
    show φ (trunc vs b) = v
    rw [hb.1.trunc]; exact hb.2
  · rintro ⟨⟨h1, h2⟩, h3⟩
    refine ⟨h1.1, ?_, fun b hle hb => ?_⟩
    · show φ (trunc vs d) = v
      rw [h1.trunc]; exact h2
    · have hv := h1.of_le hle
      have hb : φ (trunc vs b) = v := hb
      rw [hv.trunc] at hb
      exact h3 b ⟨hv, hb⟩ hle

theorem extreme_true {v : Int} {d : Nat → Nat} :
    Extreme true vs (fun a => φ (trunc vs a)) v d ↔ IsVec vs d ∧ MaxIn (fun a => IsVec vs a ∧ φ a = v) (stVec vs true d) := by
  have tc : ∀ d, trunc vs (crd true (lastV vs) d) = crd true (lastV vs) d := by
    intro d
    funext l
    unfold trunc crd
    split
    · rfl
    · simp [lastV_none (vs := vs) (l := l) (by omega)]
  constructor
  · rintro ⟨h1, h2, h3⟩
    simp only [tc] at h2 h3
    have e : trunc vs d = d := h3 _ (trunc_le d) (by
      rw [← h2]
      congr 1
      funext l
      unfold trunc crd
      simp only [if_true]
      split
      · rfl
      · rw [lastV_none (by omega)]; omega)
    have hv : IsVec vs d := by rw [← e]; exact trunc_vec h1
    refine ⟨hv, ⟨stVec_vec hv, by rw [stVec_true]; exact h2⟩, fun b hb hle => ?_⟩
    have hb' := stVec_vec (rev := true) hb.1
    have := h3 (stVec vs true b) ((stVec_le (rev := true) hb' hv).2 (by
      rw [stVec_invol hb.1]; exact hle)) (by rw [← stVec_true, stVec_invol hb.1]; exact hb.2)
    rw [← this, stVec_invol hb.1]
  · rintro ⟨hv, ⟨h1, h2⟩, h3⟩
    refine ⟨hv.1, ?_, fun b hle hb => ?_⟩
    · simp only [tc]; rw [← stVec_true]; exact h2
    · simp only [tc] at hb
      rw [← stVec_true] at hb
      have hb' := hv.of_le hle
      exact stVec_inj hb' hv (h3 _ ⟨stVec_vec hb', hb⟩ ((stVec_le (rev := true) hb' hv).1 hle))

end

theorem sum_lt_of_le_ne {n : Nat} {b a : Nat → Nat} (hle : ∀ l, b l ≤ a l) {k : Nat} (hk : k < n) (hne : b k ≠ a k) :
    ((List.range n).map b).sum < ((List.range n).map a).sum := by
  induction n with
  | zero => omega
  | succ n ih =>
    rw [List.range_succ, List.map_append, List.map_append, List.sum_append, List.sum_append]
    simp only [List.map_cons, List.map_nil, List.sum_cons, List.sum_nil, Nat.add_zero]
    have h1 := hle n
    have h2 : ((List.range n).map b).sum ≤ ((List.range n).map a).sum := by
      clear ih hk
      induction n with
      | zero => simp
      | succ n ih =>
        rw [List.range_succ, List.map_append, List.map_append, List.sum_append, List.sum_append]
        simp only [List.map_cons, List.map_nil, List.sum_cons, List.sum_nil, Nat.add_zero]
        have := hle n
        have := ih (hle n)
        omega
    by_cases hkn : k = n
    · subst hkn; omega
    · have := ih (by omega)
      omega

/-- Below every member of a set of state vectors is a minimal one. -/
theorem exists_minIn {vs : List (String × Nat)} {A : (Nat → Nat) → Prop} (hA : ∀ a, A a → IsVec vs a) :
    ∀ (n : Nat) {a : Nat → Nat}, ((List.range vs.length).map a).sum ≤ n → A a → ∃ c, (∀ l, c l ≤ a l) ∧ MinIn A c := by
  intro n
  induction n with
  | zero =>
    intro a hs ha
    refine ⟨a, fun _ => Nat.le_refl _, ha, fun b hb hle => Classical.byContradiction fun hne => ?_⟩
    obtain ⟨k, hk⟩ : ∃ k, b k ≠ a k := Classical.byContradiction fun hc =>
      hne (funext fun l => Classical.byContradiction fun h => hc ⟨l, h⟩)
    have hlt : k < vs.length := Classical.byContradiction fun hc =>
      hk (by rw [(hA b hb).2 k (by omega), (hA a ha).2 k (by omega)])
    have := sum_lt_of_le_ne hle hlt hk
    omega
  | succ n ih =>
    intro a hs ha
    by_cases hm : MinIn A a
    · exact ⟨a, fun _ => Nat.le_refl _, hm⟩
    · obtain ⟨b, hb, hle, hne⟩ : ∃ b, A b ∧ (∀ l, b l ≤ a l) ∧ b ≠ a := Classical.byContradiction fun hc =>
        hm ⟨ha, fun b hb hle => Classical.byContradiction fun hne => hc ⟨b, hb, hle, hne⟩⟩
      obtain ⟨k, hk⟩ : ∃ k, b k ≠ a k := Classical.byContradiction fun hc =>
        hne (funext fun l => Classical.byContradiction fun h => hc ⟨l, h⟩)
      have hlt : k < vs.length := Classical.byContradiction fun hc =>
        hk (by rw [(hA b hb).2 k (by omega), (hA a ha).2 k (by omega)])
      have := sum_lt_of_le_ne hle hlt hk
      obtain ⟨c, h1, h2⟩ := ih (a := b) (by omega) hb
      exact ⟨c, fun l => Nat.le_trans (h1 l) (hle l), h2⟩

/-- Above every member of a set of state vectors is a maximal one. -/
theorem exists_maxIn {vs : List (String × Nat)} {A : (Nat → Nat) → Prop} (hA : ∀ a, A a → IsVec vs a)
    {a : Nat → Nat} (ha : A a) : ∃ c, (∀ l, a l ≤ c l) ∧ MaxIn A c := by
  have hB : ∀ d, (IsVec vs d ∧ A (stVec vs true d)) → IsVec vs d := fun d h => h.1
  have hav := hA a ha
  have hd : IsVec vs (stVec vs true a) := stVec_vec hav
  obtain ⟨d, h1, ⟨h2, h3⟩, h4⟩ := exists_minIn hB _ (Nat.le_refl _) ⟨hd, by rw [stVec_invol hav]; exact ha⟩
  refine ⟨stVec vs true d, ?_, h3, fun b hb hle => ?_⟩
  · have := (stVec_le (rev := true) h2 hd).1 h1
    rw [stVec_invol hav] at this
    exact this
  · have hbv := hA b hb
    have hb' : IsVec vs (stVec vs true b) := stVec_vec hbv
    have := h4 (stVec vs true b) ⟨hb', by rw [stVec_invol hbv]; exact hb⟩ ((stVec_le (rev := true) hb' h2).2 (by
      rw [stVec_invol hbv]; exact hle))
    rw [← this, stVec_invol hbv]

/-- A function's value does not depend on levels without a variable. -/
theorem MDen.depends {e : Mtmdd2} {x : MNode} {F : MFun} {vs : List (String × Nat)} (hs : Mtmdd2.Inv e)
    (hh : e.mdd.arena.headers = mkH vs) (h : MDen e x F) {a : Nat → Nat} (ha : ValidV vs a) :
    F (trunc vs a) = F a := by
  have ht : ValidV vs (trunc vs a) := (trunc_vec ha).1
  have hd : ∀ hd ∈ e.mdd.arena.headers, trunc vs a hd.level = a hd.level := by
    intro hd hm
    obtain ⟨i, hi⟩ := List.mem_iff_getElem?.1 hm
    rw [hh, mkH_get] at hi
    obtain ⟨p, hp, rfl⟩ := hi
    exact if_pos (List.getElem?_eq_some_iff.1 hp).1
  refine h.read ((validA_iff hh).2 ha) ?_
  have h1 := h.val _ ((validA_iff hh).2 ht)
  cases x with
  | bool i =>
    cases e1 : F (trunc vs a) with
    | b t => rw [e1] at h1; exact Sol.eval_congr_hdr hd h1
    | v t => rw [e1] at h1; exact h1
  | value i =>
    cases e1 : F (trunc vs a) with
    | b t => rw [e1] at h1; exact h1
    | v t => rw [e1] at h1; exact Sol.eval_congr_hdr (by rw [← hs.hdr]; exact hd) h1

/-- Members of a handle's family are state vectors. -/
theorem ZMRel.member {w : ZMWorld} {vs : List (String × Nat)} (R : ZMRel w vs) {h : Nat} {z : ZNd} {P : ZFam}
    (hz : w.Has h z P) {d : Nat → Nat} {v : Int} (hd : P d v) : IsVec z.vars d :=
  ⟨(R.hok hz.1).inRange R.ok.inv.wf R.hdr R.pos ((hz.2.val d v).2 hd), R.below hz d v hd⟩

end DD
