import Verif.Core.SemZ

/-!
# What `intersect` computes, on sets of levels

`Zdd::intersect` returns the other operand when one operand is the terminal `One`
(bddcore/src/zdd_ops.rs:28-29), so it stops reading an operand at the first node that stands for `{∅}` alone.
-/

set_option autoImplicit false
set_option linter.unusedSectionVars false
set_option linter.unusedVariables false

namespace DD
open Arena

namespace Zdd

/-- The part of `a` at levels from `l` on. -/
def topL (l : Nat) (a : Nat → Nat) : Nat → Nat := fun x => if l ≤ x then a x else 0

/-- Reading `a` from the top, `F` has from some level on exactly one member to go on with: the part read. -/
def TA (F : (Nat → Nat) → Prop) (a : Nat → Nat) : Prop :=
  ∃ l, F (topL l a) ∧ ∀ b, F b → (∀ x, l ≤ x → b x = a x) → b = topL l a

/-- The family that `intersect` computes. -/
def Inter (F G : (Nat → Nat) → Prop) (a : Nat → Nat) : Prop := (G a ∧ TA F a) ∨ (F a ∧ TA G a)

theorem topL_agree {l : Nat} {a b : Nat → Nat} (h : ∀ x, l ≤ x → b x = a x) : topL l b = topL l a := by
  funext x; unfold topL; split
  · exact h x ‹_›
  · rfl

theorem topL_zero {l : Nat} {a : Nat → Nat} (h : ∀ x, l ≤ x → a x = 0) : topL l a = fun _ => 0 := by
  funext x; unfold topL; split
  · exact h x ‹_›
  · rfl

theorem ta_self {F : (Nat → Nat) → Prop} {a : Nat → Nat} (h : F a) : TA F a := by
  have e : topL 0 a = a := by funext x; simp [topL]
  exact ⟨0, by rw [e]; exact h, fun b _ hb => by rw [e]; funext x; exact hb x (Nat.zero_le _)⟩

theorem not_ta {F : (Nat → Nat) → Prop} (h : ∀ a, ¬ F a) (a : Nat → Nat) : ¬ TA F a :=
  fun ⟨_, h1, _⟩ => h _ h1

theorem inter_self {F : (Nat → Nat) → Prop} (a : Nat → Nat) : F a ↔ Inter F F a :=
  ⟨fun h => .inl ⟨h, ta_self h⟩, fun h => h.elim (·.1) (·.1)⟩

theorem inter_emptyL {F G : (Nat → Nat) → Prop} (h : ∀ a, ¬ F a) (a : Nat → Nat) : ¬ Inter F G a := by
  rintro (⟨_, h'⟩ | ⟨h', _⟩)
  · exact not_ta h _ h'
  · exact h _ h'

theorem inter_comm {F G : (Nat → Nat) → Prop} (a : Nat → Nat) : Inter F G a ↔ Inter G F a := or_comm

theorem inter_baseL {F G : (Nat → Nat) → Prop} (h : ∀ a, F a ↔ a = fun _ => 0) {n : Nat}
    (hG : ∀ a, G a → ∀ x, n ≤ x → a x = 0) (a : Nat → Nat) : G a ↔ Inter F G a := by
  constructor
  · intro ha
    refine .inl ⟨ha, n, (h _).2 (topL_zero (hG a ha)), fun b hb _ => ?_⟩
    rw [topL_zero (hG a ha)]; exact (h b).1 hb
  · rintro (⟨ha, _⟩ | ⟨ha, l, h1, _⟩)
    · exact ha
    · rw [(h a).1 ha] at h1 ⊢
      rw [topL_zero (fun _ _ => rfl)] at h1; exact h1

theorem topL_le (l : Nat) (a : Nat → Nat) (x : Nat) : topL l a x ≤ a x := by
  unfold topL; split <;> omega

section step
variable {l : Nat} {F F0 F1 : (Nat → Nat) → Prop}
  (s0 : ∀ a, F0 a → ∀ x, l ≤ x → a x = 0) (s1 : ∀ a, F1 a → ∀ x, l ≤ x → a x = 0)
  (sp : ∀ a, F a ↔ (a l = 0 ∧ F0 a) ∨ (a l = 1 ∧ F1 (upd a l 0)))
include s0 s1 sp

theorem supp_of_split {a : Nat → Nat} (h : F a) : ∀ x, l < x → a x = 0 := by
  intro x hx
  rcases (sp a).1 h with ⟨_, h⟩ | ⟨_, h⟩
  · exact s0 _ h x (by omega)
  · have := s1 _ h x (by omega)
    rwa [upd_ne _ _ (by omega)] at this

theorem lo_of_split {a : Nat → Nat} (h : F0 a) : F a := (sp a).2 (.inl ⟨s0 a h l (Nat.le_refl _), h⟩)

theorem hi_of_split {a : Nat → Nat} (h : F1 a) : F (upd a l 1) :=
  (sp _).2 (.inr ⟨upd_self _ _ _, by rw [upd_upd, upd_id (s1 a h l (Nat.le_refl _))]; exact h⟩)

theorem ta_lo {a : Nat → Nat} (ha : ∀ x, l ≤ x → a x = 0) : TA F a ↔ TA F0 a := by
  constructor
  · rintro ⟨k, h1, h2⟩
    have e : topL k a l = 0 := by have := topL_le k a l; have := ha l (Nat.le_refl _); omega
    refine ⟨k, ?_, fun b hb hab => h2 b (lo_of_split s0 s1 sp hb) hab⟩
    rcases (sp _).1 h1 with ⟨_, h⟩ | ⟨h, _⟩
    · exact h
    · omega
  · rintro ⟨k, h1, h2⟩
    have hk : topL (min k l) a = topL k a := by
      funext x; unfold topL
      by_cases h : k ≤ x
      · rw [if_pos (by omega), if_pos h]
      · by_cases h' : min k l ≤ x
        · rw [if_pos h', if_neg h, ha x (by omega)]
        · rw [if_neg h', if_neg h]
    refine ⟨min k l, by rw [hk]; exact lo_of_split s0 s1 sp h1, fun b hb hab => ?_⟩
    rw [hk]
    have hb0 : b l = 0 := (hab l (by omega)).trans (ha l (Nat.le_refl _))
    refine h2 b ?_ (fun x hx => hab x (by omega))
    rcases (sp _).1 hb with ⟨_, h⟩ | ⟨h, _⟩
    · exact h
    · omega

theorem ta_hi (ne : ∃ b, F b ∧ b ≠ fun _ => 0) {a : Nat → Nat} (h1 : a l = 1) (ha : ∀ x, l < x → a x = 0) :
    TA F a ↔ TA F1 (upd a l 0) := by
  have ha' : ∀ x, l ≤ x → upd a l 0 x = 0 := by
    intro x hx
    by_cases e : x = l
    · subst e; exact upd_self _ _ _
    · rw [upd_ne _ _ e]; exact ha x (by omega)
  have topu : ∀ k, k ≤ l → upd (topL k a) l 0 = topL k (upd a l 0) := by
    intro k hk
    funext x; unfold topL upd
    by_cases e : x = l <;> simp [e, hk]
  have topu1 : ∀ k, k ≤ l → upd (topL k (upd a l 0)) l 1 = topL k a := by
    intro k hk
    rw [← topu k hk, upd_upd]
    exact upd_id (by unfold topL; rw [if_pos hk]; exact h1)
  constructor
  · rintro ⟨k, g1, g2⟩
    have hk : k ≤ l := by
      refine Classical.byContradiction fun hk => ?_
      obtain ⟨b, hb, hb0⟩ := ne
      have sb := supp_of_split s0 s1 sp hb
      have := g2 b hb (fun x hx => by rw [sb x (by omega), ha x (by omega)])
      rw [topL_zero (fun x hx => ha x (by omega))] at this
      exact hb0 this
    have e : topL k a l = 1 := by unfold topL; rw [if_pos hk]; exact h1
    refine ⟨k, ?_, fun b hb hab => ?_⟩
    · rcases (sp _).1 g1 with ⟨h, _⟩ | ⟨_, h⟩
      · omega
      · rw [← topu k hk]; exact h
    · have hb0 := s1 b hb l (Nat.le_refl _)
      have := g2 _ (hi_of_split s0 s1 sp hb) (fun x hx => by
        by_cases e : x = l
        · subst e; rw [upd_self]; exact h1.symm
        · rw [upd_ne _ _ e, hab x hx, upd_ne _ _ e])
      rw [← topu k hk, ← this, upd_upd, upd_id hb0]
  · rintro ⟨k, g1, g2⟩
    have hk : topL (min k l) (upd a l 0) = topL k (upd a l 0) := by
      funext x; unfold topL
      by_cases h : k ≤ x
      · rw [if_pos (by omega), if_pos h]
      · by_cases h' : min k l ≤ x
        · rw [if_pos h', if_neg h, ha' x (by omega)]
        · rw [if_neg h', if_neg h]
    rw [← hk] at g1
    refine ⟨min k l, ?_, fun b hb hab => ?_⟩
    · rw [← topu1 _ (by omega)]; exact hi_of_split s0 s1 sp g1
    · have hbl : b l = 1 := (hab l (by omega)).trans h1
      have hb1 : F1 (upd b l 0) := by
        rcases (sp _).1 hb with ⟨h, _⟩ | ⟨_, h⟩
        · omega
        · exact h
      have := g2 _ hb1 (fun x hx => by
        by_cases e : x = l
        · subst e; rw [upd_self, upd_self]
        · rw [upd_ne _ _ e, upd_ne _ _ e]; exact hab x (by omega))
      rw [← topu1 _ (by omega), hk, ← this, upd_upd, upd_id hbl]

end step

/-- The recursion step: both operands read at level `l`. -/
theorem inter_step {l : Nat} {F F0 F1 G G0 G1 R R0 R1 : (Nat → Nat) → Prop}
    (f0 : ∀ a, F0 a → ∀ x, l ≤ x → a x = 0) (f1 : ∀ a, F1 a → ∀ x, l ≤ x → a x = 0)
    (fs : ∀ a, F a ↔ (a l = 0 ∧ F0 a) ∨ (a l = 1 ∧ F1 (upd a l 0)))
    (g0 : ∀ a, G0 a → ∀ x, l ≤ x → a x = 0) (g1 : ∀ a, G1 a → ∀ x, l ≤ x → a x = 0)
    (gs : ∀ a, G a ↔ (a l = 0 ∧ G0 a) ∨ (a l = 1 ∧ G1 (upd a l 0)))
    (rs : ∀ a, R a ↔ (a l = 0 ∧ R0 a) ∨ (a l = 1 ∧ R1 (upd a l 0)))
    (nf : ∃ b, F b ∧ b ≠ fun _ => 0) (ng : ∃ b, G b ∧ b ≠ fun _ => 0)
    (h0 : ∀ a, R0 a ↔ Inter F0 G0 a) (h1 : ∀ a, R1 a ↔ Inter F1 G1 a) (a : Nat → Nat) :
    R a ↔ Inter F G a := by
  have hF0 : ∀ a, a l = 0 → (F a ↔ F0 a) := fun a h => by rw [fs a]; simp [h]
  have hF1 : ∀ a, a l = 1 → (F a ↔ F1 (upd a l 0)) := fun a h => by rw [fs a]; simp [h]
  have hG0 : ∀ a, a l = 0 → (G a ↔ G0 a) := fun a h => by rw [gs a]; simp [h]
  have hG1 : ∀ a, a l = 1 → (G a ↔ G1 (upd a l 0)) := fun a h => by rw [gs a]; simp [h]
  rw [rs a, h0, h1]
  by_cases e0 : a l = 0
  · rw [show (a l = 0 ∧ Inter F0 G0 a ∨ a l = 1 ∧ Inter F1 G1 (upd a l 0)) ↔ Inter F0 G0 a by simp [e0]]
    refine or_congr ?_ ?_
    · rw [hG0 a e0]
      exact and_congr_right fun h => (ta_lo f0 f1 fs (g0 a h)).symm
    · rw [hF0 a e0]
      exact and_congr_right fun h => (ta_lo g0 g1 gs (f0 a h)).symm
  · by_cases e1 : a l = 1
    · rw [show (a l = 0 ∧ Inter F0 G0 a ∨ a l = 1 ∧ Inter F1 G1 (upd a l 0)) ↔ Inter F1 G1 (upd a l 0) by simp [e1]]
      refine or_congr ?_ ?_
      · rw [hG1 a e1]
        refine and_congr_right fun h => (ta_hi f0 f1 fs nf e1 ?_).symm
        exact supp_of_split g0 g1 gs ((hG1 a e1).2 h)
      · rw [hF1 a e1]
        refine and_congr_right fun h => (ta_hi g0 g1 gs ng e1 ?_).symm
        exact supp_of_split f0 f1 fs ((hF1 a e1).2 h)
    · simp only [e0, e1, false_and, or_self, false_iff]
      rintro (⟨h, _⟩ | ⟨h, _⟩)
      · rcases (gs a).1 h with ⟨h, _⟩ | ⟨h, _⟩
        · exact e0 h
        · exact e1 h
      · rcases (fs a).1 h with ⟨h, _⟩ | ⟨h, _⟩
        · exact e0 h
        · exact e1 h

/-! ## What `divide` computes -/

/-- Some member of `F` has level `l`. -/
def Uses (l : Nat) (F : (Nat → Nat) → Prop) : Prop := ∃ a, F a ∧ a l ≠ 0

/-- The members of `F` without level `l`. -/
def loF (l : Nat) (F : (Nat → Nat) → Prop) (a : Nat → Nat) : Prop := a l = 0 ∧ F a

/-- The members of `F` with level `l`, which is taken out. -/
def hiF (l : Nat) (F : (Nat → Nat) → Prop) (a : Nat → Nat) : Prop := a l = 0 ∧ F (upd a l 1)

/-- `intersect` on values of which one may be the terminal `Undet` (`none`): the other one
(/repo/bddcore/src/zdd_ops.rs:24-25). -/
def interO : Option ((Nat → Nat) → Prop) → Option ((Nat → Nat) → Prop) → Option ((Nat → Nat) → Prop)
  | none, r => r
  | some F, none => some F
  | some F, some G => some (Inter F G)

open Classical in
/-- The value of `divide` (/repo/bddcore/src/zdd_ops.rs:218-252) on families with levels below `n`; `none` is the
terminal `Undet`. -/
noncomputable def quo : Nat → ((Nat → Nat) → Prop) → ((Nat → Nat) → Prop) → Option ((Nat → Nat) → Prop)
  | 0, F, G => if ∀ a, ¬ G a then none else some F
  | l + 1, F, G =>
    if ∀ a, ¬ G a then none
    else if ∀ a, G a ↔ a = fun _ => 0 then some F
    else if ∀ a, ¬ F a then some F
    else if ∀ a, F a ↔ a = fun _ => 0 then some G
    else if Uses l F then
      if Uses l G then interO (quo l (loF l F) (loF l G)) (quo l (hiF l F) (hiF l G))
      else quo l (loF l F) G
    else if Uses l G then none
    else quo l F G

theorem quo_empty {F G : (Nat → Nat) → Prop} (h : ∀ a, ¬ G a) (n : Nat) : quo n F G = none := by
  cases n <;> simp only [quo, if_pos h]

theorem quo_base {F G : (Nat → Nat) → Prop} (h : ∀ a, G a ↔ a = fun _ => 0) (n : Nat) :
    quo n F G = some F := by
  have hn : ¬ ∀ a, ¬ G a := fun e => e _ ((h _).2 rfl)
  cases n <;> simp only [quo, if_neg hn, if_pos h]

theorem quo_zeroF {F G : (Nat → Nat) → Prop} (hg : ∃ b, G b ∧ b ≠ fun _ => 0) (h : ∀ a, ¬ F a) (n : Nat) :
    quo n F G = some F := by
  obtain ⟨b, hb, hb0⟩ := hg
  have hn : ¬ ∀ a, ¬ G a := fun e => e _ hb
  have hn' : ¬ ∀ a, G a ↔ a = fun _ => 0 := fun e => hb0 ((e b).1 hb)
  cases n with
  | zero => simp only [quo, if_neg hn]
  | succ n => simp only [quo, if_neg hn, if_neg hn', if_pos h]

theorem base_of_supp {G : (Nat → Nat) → Prop} (h : ∀ a, G a → ∀ x, 0 ≤ x → a x = 0) (hn : ¬ ∀ a, ¬ G a) :
    ∀ a, G a ↔ a = fun _ => 0 := by
  have h0 : ∀ a, G a → a = fun _ => 0 := fun a ha => funext fun x => h a ha x (Nat.zero_le _)
  intro a
  refine ⟨h0 a, ?_⟩
  rintro rfl
  refine Classical.byContradiction fun hc => hn fun b hb => hc ?_
  rw [← h0 b hb]; exact hb

theorem quo_oneF {F G : (Nat → Nat) → Prop} (hg : ∃ b, G b ∧ b ≠ fun _ => 0) (h : ∀ a, F a ↔ a = fun _ => 0)
    {n : Nat} (sg : ∀ a, G a → ∀ x, n ≤ x → a x = 0) : quo n F G = some G := by
  obtain ⟨b, hb, hb0⟩ := hg
  have hn : ¬ ∀ a, ¬ G a := fun e => e _ hb
  have hn' : ¬ ∀ a, G a ↔ a = fun _ => 0 := fun e => hb0 ((e b).1 hb)
  have hf : ¬ ∀ a, ¬ F a := fun e => e _ ((h _).2 rfl)
  cases n with
  | zero => exact absurd (base_of_supp sg hn) hn'
  | succ n => simp only [quo, if_neg hn, if_neg hn', if_neg hf, if_pos h]

/-- Both operands have members other than `∅`. -/
theorem quo_step {F G : (Nat → Nat) → Prop} (hf : ∃ b, F b ∧ b ≠ fun _ => 0) (hg : ∃ b, G b ∧ b ≠ fun _ => 0)
    (l : Nat) : quo (l + 1) F G =
      open Classical in
      if Uses l F then
        if Uses l G then interO (quo l (loF l F) (loF l G)) (quo l (hiF l F) (hiF l G))
        else quo l (loF l F) G
      else if Uses l G then none
      else quo l F G := by
  obtain ⟨b, hb, hb0⟩ := hg
  have hn : ¬ ∀ a, ¬ G a := fun e => e _ hb
  have hn' : ¬ ∀ a, G a ↔ a = fun _ => 0 := fun e => hb0 ((e b).1 hb)
  obtain ⟨c, hc, hc0⟩ := hf
  have hf : ¬ ∀ a, ¬ F a := fun e => e _ hc
  have hf' : ¬ ∀ a, F a ↔ a = fun _ => 0 := fun e => hc0 ((e c).1 hc)
  simp only [quo, if_neg hn, if_neg hn', if_neg hf, if_neg hf']

theorem cases3 {F : (Nat → Nat) → Prop} :
    (∀ a, ¬ F a) ∨ (∀ a, F a ↔ a = fun _ => 0) ∨ ∃ b, F b ∧ b ≠ fun _ => 0 := by
  by_cases h : ∃ b, F b ∧ b ≠ fun _ => 0
  · exact .inr (.inr h)
  · by_cases h0 : F (fun _ => 0)
    · refine .inr (.inl fun a => ⟨fun ha => ?_, ?_⟩)
      · exact Classical.byContradiction fun hc => h ⟨a, ha, hc⟩
      · rintro rfl; exact h0
    · refine .inl fun a ha => h ⟨a, ha, ?_⟩
      rintro rfl; exact h0 ha

theorem not_uses {F : (Nat → Nat) → Prop} {l : Nat} (h : ∀ a, F a → ∀ x, l ≤ x → a x = 0) : ¬ Uses l F :=
  fun ⟨a, ha, hn⟩ => hn (h a ha l (Nat.le_refl _))

/-- Levels that neither operand has do not matter. -/
theorem quo_up {F G : (Nat → Nat) → Prop} {k : Nat} (sf : ∀ a, F a → ∀ x, k ≤ x → a x = 0)
    (sg : ∀ a, G a → ∀ x, k ≤ x → a x = 0) : ∀ n, k ≤ n → quo n F G = quo k F G := by
  intro n
  induction n with
  | zero => intro h; rw [Nat.le_zero.1 h]
  | succ n ih =>
    intro h
    by_cases e : k = n + 1
    · rw [e]
    · have hk : k ≤ n := by omega
      have sf' : ∀ a, F a → ∀ x, n ≤ x → a x = 0 := fun a ha x hx => sf a ha x (by omega)
      have sg' : ∀ a, G a → ∀ x, n ≤ x → a x = 0 := fun a ha x hx => sg a ha x (by omega)
      rw [← ih hk]
      rcases cases3 (F := G) with hg | hg | hg
      · rw [quo_empty hg, quo_empty hg]
      · rw [quo_base hg, quo_base hg]
      · rcases cases3 (F := F) with hf | hf | hf
        · rw [quo_zeroF hg hf, quo_zeroF hg hf]
        · rw [quo_oneF hg hf sg', quo_oneF hg hf (fun a ha x hx => sg a ha x (by omega))]
        · rw [quo_step hf hg, if_neg (not_uses sf'), if_neg (not_uses sg')]

/-- What `r` is when `divide` has value `v`. -/
def IsQuo (R : (Nat → Nat) → Prop) (cl : Prop) (und : Prop) : Option ((Nat → Nat) → Prop) → Prop
  | none => und
  | some Q => cl ∧ R = Q

end Zdd
end DD
