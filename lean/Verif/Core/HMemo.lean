import Verif.Core.Memo

/-!
# Recursions memoised in a local hash map

`dual`, `minsol`, … carry a `HashMap` created per call.  The state of such a recursion is the
manager paired with the map.
-/

set_option autoImplicit false
set_option linter.unusedSectionVars false

namespace DD
open Arena

/-- `create_node` on the manager component. -/
def mknP {S C : Type} (mkn : S → Nat → List Nat → Option (Nat × S)) (p : S × C) (h : Nat)
    (ch : List Nat) : Option (Nat × (S × C)) :=
  match mkn p.1 h ch with
  | none => none
  | some (r, s) => some (r, (s, p.2))

/-- An engine together with a local map satisfying `COK`. -/
def Eng.pair {S U : Type} [DecidableEq U] [Fixed U] (E : Eng S U) (C : Type) (COK : S → C → Prop)
    (mono : ∀ s s' c, E.Inv s → E.St s s' → COK s c → COK s' c) : Eng (S × C) U where
  ar p := E.ar p.1
  Inv p := E.Inv p.1 ∧ COK p.1 p.2
  St p q := E.St p.1 q.1
  mkn := mknP E.mkn
  refl p := E.refl p.1
  trans p q r h h' := E.trans _ _ _ h h'
  toStep p q h := E.toStep _ _ h
  toWF p h := E.toWF _ h.1
  mkOK := by
    intro p h ch hp g
    obtain ⟨r, s', h1, h2, h3, h4⟩ := E.mkOK p.1 h ch hp.1 g
    exact ⟨r, (s', p.2), by simp only [mknP, h1], ⟨h2, mono _ _ _ hp.1 h3 hp.2⟩, h3, h4⟩

/-- Drop the local map from an outcome. -/
theorem Eng.pair_ok {S U : Type} [DecidableEq U] [Fixed U] {E : Eng S U} {C : Type}
    {COK : S → C → Prop} {mono : ∀ s s' c, E.Inv s → E.St s s' → COK s c → COK s' c}
    {p : S × C} {k : Nat} {Φ : (Nat → Nat) → U → Prop} {res : Option (Nat × (S × C))}
    (h : (E.pair C COK mono).Ok p k Φ res) :
    ∃ r s' c', res = some (r, (s', c')) ∧ E.Ok p.1 k Φ (some (r, s')) := by
  obtain ⟨r, ⟨s', c'⟩, h1, h2, h3, h4⟩ := h
  exact ⟨r, s', c', h1, r, s', rfl, h2.1, h3, h4⟩

end DD
