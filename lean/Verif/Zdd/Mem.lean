import Verif.Zdd.Prod
import Mathlib.Data.Set.Insert

/-!
# Families of sets of labels
-/

set_option autoImplicit false
set_option linter.unusedSectionVars false
set_option linter.unusedVariables false

namespace DD
open Arena
namespace Zdd

/-- `Mem m t i S`: some path from node `i` to the terminal `t` takes the 1-edge exactly at the labels
in `S`.  With `t = .one` this says that `S` is a member of the family of `i`. -/
inductive Mem (m : Arena T3) (t : T3) : Nat → Set String → Prop
  | term {i : Nat} : m.nodes[i]? = some (.term t) → Mem m t i ∅
  | lo {i h lo hi : Nat} {S : Set String} : m.nodes[i]? = some (.nt h [lo, hi]) → Mem m t lo S →
      Mem m t i S
  | hi {i h lo hi : Nat} {hd : Header} {S : Set String} : m.nodes[i]? = some (.nt h [lo, hi]) →
      m.headers[h]? = some hd → Mem m t hi S → Mem m t i (insert hd.label S)

/-- Level `l` carries the name `names[l]`. -/
structure Lbl (m : Arena T3) (names : List String) : Prop where
  nodup : names.Nodup
  lab : ∀ hd ∈ m.headers, names[hd.level]? = some hd.label

/-- The set of names of the levels at 1. -/
def labS (names : List String) (a : Nat → Nat) : Set String := {s | ∃ l, names[l]? = some s ∧ a l = 1}

theorem labS_zero (names : List String) : labS names (fun _ => 0) = ∅ := by
  ext s; simp [labS]

theorem labS_upd {names : List String} {a : Nat → Nat} {l : Nat} {x : String} (hx : names[l]? = some x) :
    labS names (upd a l 1) = insert x (labS names a) ∨ a l = 1 := by
  by_cases ha : a l = 1
  · exact .inr ha
  · left
    ext s
    simp only [labS, Set.mem_ofPred_eq, Set.mem_insert_iff]
    constructor
    · rintro ⟨k, hk, hv⟩
      by_cases e : k = l
      · subst e; rw [hx] at hk; cases hk; exact .inl rfl
      · simp only [upd, e, if_false] at hv; exact .inr ⟨k, hk, hv⟩
    · rintro (rfl | ⟨k, hk, hv⟩)
      · exact ⟨l, hx, by simp [upd]⟩
      · have e : k ≠ l := fun e => ha (e ▸ hv)
        exact ⟨k, hk, by simp [upd, e, hv]⟩

section
variable {s : Zdd} {names : List String}

/-- Every state on a path is 0 or 1, and 1 only at named levels. -/
theorem lab_bit (hs : Inv s) (hn : Lbl s.arena names) {i : Nat} {a : Nat → Nat} {t : T3}
    (h : Lab s.arena i a t) (li : s.arena.Live i) :
    ∀ l, a l = 0 ∨ (a l = 1 ∧ ∃ x, names[l]? = some x) := by
  induction h with
  | term => intro l; exact .inl rfl
  | @nt i h ch hd k c a t hi hh hc _ ih =>
    intro l
    obtain ⟨hd', hh', hl, hr, _, _, hk⟩ := hs.wf.nt li hi
    rw [hh] at hh'; cases hh'
    obtain ⟨h1, h2⟩ := hk c (List.mem_of_getElem? hc)
    by_cases e : l = hd.level
    · subst e
      have hk2 : k < 2 := by
        have := (List.getElem?_eq_some_iff.1 hc).1
        rw [hl, hs.two hd (List.mem_of_getElem? hh)] at this
        exact this
      have hname := hn.lab hd (List.mem_of_getElem? hh)
      simp only [upd, if_true]
      match k, hk2 with
      | 0, _ => exact .inl rfl
      | 1, _ => exact .inr ⟨rfl, _, hname⟩
    · simp only [upd, e, if_false]
      exact ih h1 l

theorem labS_inj (hn : names.Nodup) {a b : Nat → Nat}
    (ha : ∀ l, a l = 0 ∨ (a l = 1 ∧ ∃ x, names[l]? = some x))
    (hb : ∀ l, b l = 0 ∨ (b l = 1 ∧ ∃ x, names[l]? = some x)) (h : labS names a = labS names b) : a = b := by
  have key : ∀ {a b : Nat → Nat}, labS names a = labS names b → ∀ l, a l = 1 → (∃ x, names[l]? = some x) →
      b l = 1 := by
    rintro a b h l ha ⟨x, hx⟩
    have : x ∈ labS names b := h ▸ ⟨l, hx, ha⟩
    obtain ⟨k, hk, hv⟩ := this
    have : k = l := (List.getElem?_inj (List.getElem?_eq_some_iff.1 hk).1 hn).1 (hk.trans hx.symm)
    rw [← this]; exact hv
  funext l
  rcases ha l with h1 | ⟨h1, hx⟩
  · rcases hb l with h2 | ⟨h2, hx⟩
    · rw [h1, h2]
    · have := key h.symm l h2 hx; omega
  · rw [h1, key h l h1 hx]

theorem labS_sup {a b : Nat → Nat} (ha : ∀ l, a l = 0 ∨ (a l = 1 ∧ ∃ x, names[l]? = some x))
    (hb : ∀ l, b l = 0 ∨ (b l = 1 ∧ ∃ x, names[l]? = some x)) :
    labS names (sup a b) = labS names a ∪ labS names b := by
  ext s
  simp only [labS, Set.mem_ofPred_eq, Set.mem_union, sup]
  constructor
  · rintro ⟨l, hl, hv⟩
    by_cases h1 : a l = 1
    · exact .inl ⟨l, hl, h1⟩
    · refine .inr ⟨l, hl, ?_⟩
      rcases ha l with h | h
      · omega
      · omega
  · rintro (⟨l, hl, hv⟩ | ⟨l, hl, hv⟩)
    · refine ⟨l, hl, ?_⟩
      rcases hb l with h | h <;> omega
    · refine ⟨l, hl, ?_⟩
      rcases ha l with h | h <;> omega

/-- Reading by labels and reading by levels agree. -/
theorem mem_iff (hs : Inv s) (hn : Lbl s.arena names) {i : Nat} (li : s.arena.Live i) {t : T3}
    {S : Set String} : Mem s.arena t i S ↔ ∃ a, Lab s.arena i a t ∧ S = labS names a := by
  constructor
  · intro h
    induction h with
    | term hi => exact ⟨_, .term hi, (labS_zero names).symm⟩
    | @lo i h lo hi S hi' _ ih =>
      obtain ⟨hd, hh, _, _, _, _, hk⟩ := hs.wf.nt li hi'
      have k0 := hk lo (by simp)
      obtain ⟨a, ha, rfl⟩ := ih k0.1
      have h0 := hs.wf.lab_supp ha k0.1 hd.level k0.2
      refine ⟨a, ?_, rfl⟩
      rw [← upd_id h0]
      exact .nt hi' hh (k := 0) (by simp) ha
    | @hi i h lo hi hd S hi' hh _ ih =>
      obtain ⟨hd', hh', _, _, _, _, hk⟩ := hs.wf.nt li hi'
      rw [hh] at hh'; cases hh'
      have k1 := hk hi (by simp)
      obtain ⟨a, ha, rfl⟩ := ih k1.1
      have h0 := hs.wf.lab_supp ha k1.1 hd.level k1.2
      refine ⟨upd a hd.level 1, .nt hi' hh (k := 1) (by simp) ha, ?_⟩
      rcases labS_upd (a := a) (hn.lab hd (List.mem_of_getElem? hh)) with h | h
      · exact h.symm
      · omega
  · rintro ⟨a, h, rfl⟩
    induction h with
    | term hi => rw [labS_zero]; exact .term hi
    | @nt i h ch hd k c a t hi' hh hc he ih =>
      obtain ⟨hd', hh', hl, hr, _, _, hk⟩ := hs.wf.nt li hi'
      rw [hh] at hh'; cases hh'
      obtain ⟨h1, h2⟩ := hk c (List.mem_of_getElem? hc)
      have h0 := hs.wf.lab_supp he h1 hd.level h2
      rw [hs.two hd (List.mem_of_getElem? hh)] at hl
      match ch, hl, k, hc with
      | [lo, hi], _, 0, hc =>
        simp at hc; subst hc
        rw [upd_id h0]
        exact .lo hi' (ih h1)
      | [lo, hi], _, 1, hc =>
        simp at hc; subst hc
        rcases labS_upd (a := a) (hn.lab hd (List.mem_of_getElem? hh)) with h | h
        · rw [h]; exact .hi hi' hh (ih h1)
        · omega

end
end Zdd
end DD
