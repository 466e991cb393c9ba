import Verif.Core.Rec

/-!
# Three-valued terminals of BDD, ZDD and MDD
-/

set_option autoImplicit false

namespace DD

/-- Terminals `Zero`, `One`, `Undet` (/repo/bddcore/src/nodes.rs, /repo/mddcore/src/nodes.rs);
their slots are 0, 1, 2 (`new`, e.g. /repo/bddcore/src/bdd.rs:96-119). -/
inductive T3 where
  | zero
  | one
  | undet
deriving DecidableEq, Repr

/-- Slot of a terminal. -/
def T3.slot : T3 → Nat
  | .zero => 0
  | .one => 1
  | .undet => 2

instance : Fixed T3 where
  fix t := some t.slot
  slots := [0, 1, 2]
  slots_iff i := by
    constructor
    · intro h
      simp at h
      rcases h with rfl | rfl | rfl
      · exact ⟨.zero, rfl⟩
      · exact ⟨.one, rfl⟩
      · exact ⟨.undet, rfl⟩
    · rintro ⟨t, ht⟩
      cases t <;> simp [T3.slot] at ht <;> subst ht <;> decide

/-- The terminal for a truth value. -/
def T3.ofBool (b : Bool) : T3 := if b then .one else .zero

theorem T3.ofBool_inj {a b : Bool} (h : T3.ofBool a = T3.ofBool b) : a = b := by
  cases a <;> cases b <;> first | rfl | cases h

/-! Requirements on results: whenever the operands are determined, so is the result, with the
expected truth value. -/

/-- Unary connective. -/
def lift1 (op : Bool → Bool) (x z : T3) : Prop := ∀ b, x = .ofBool b → z = .ofBool (op b)

/-- Binary connective. -/
def lift2 (op : Bool → Bool → Bool) (x y z : T3) : Prop :=
  ∀ b c, x = .ofBool b → y = .ofBool c → z = .ofBool (op b c)

/-- if-then-else: only the selected branch matters. -/
def liftIte (x y w z : T3) : Prop :=
  (x = .one → z = y) ∧ (x = .zero → z = w) 

theorem lift2_comm {op : Bool → Bool → Bool} (h : ∀ a b, op a b = op b a) {x y z : T3}
    (hz : lift2 op y x z) : lift2 op x y z := fun b c hb hc => by
  rw [h]; exact hz c b hc hb

end DD
