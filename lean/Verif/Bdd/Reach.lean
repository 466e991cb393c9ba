import Verif.Bdd.Ops

/-!
# Reachable states of `bddcore::BddManager`
-/

set_option autoImplicit false
set_option linter.unusedSectionVars false

namespace DD
open Arena

/-- The connectives of `BddManager` (/repo/bddcore/src/bdd_ops.rs) applied to node ids. -/
inductive BddOp where
  | not (f : Nat)
  | and (f g : Nat)
  | or (f g : Nat)
  | xor (f g : Nat)
  | imp (f g : Nat)
  | nand (f g : Nat)
  | nor (f g : Nat)
  | xnor (f g : Nat)
  | ite (f g h : Nat)

namespace BddOp

/-- Operand ids. -/
def args : BddOp → List Nat
  | not f => [f]
  | and f g | or f g | xor f g | imp f g | nand f g | nor f g | xnor f g => [f, g]
  | ite f g h => [f, g, h]

/-- The call. -/
def run (s : Bdd) : BddOp → Option (Nat × Bdd)
  | not f => s.not f
  | and f g => s.and f g
  | or f g => s.or f g
  | xor f g => s.xor f g
  | imp f g => s.imp f g
  | nand f g => s.nand f g
  | nor f g => s.nor f g
  | xnor f g => s.xnor f g
  | ite f g h => s.ite f g h

end BddOp

namespace Bdd

/-- States a client of the core manager can reach: node ids passed in are not reclaimed ones,
`create_node` respects the variable order, and gc roots are not reclaimed ids. -/
inductive Reachable : Bdd → Prop
  | new : Reachable Bdd.new
  | header {s : Bdd} (level : Nat) (label : String) : Reachable s →
      Reachable (s.createHeader level label).2
  | node {s s' : Bdd} {h lo hi r : Nat} {hd : Header} : Reachable s →
      s.arena.headers[h]? = some hd → s.arena.Live lo → s.arena.Live hi →
      (∀ l, s.arena.level? lo = some l → l < hd.level) →
      (∀ l, s.arena.level? hi = some l → l < hd.level) →
      s.createNode h lo hi = some (r, s') → Reachable s'
  | op {s s' : Bdd} {r : Nat} (o : BddOp) : Reachable s → (∀ i ∈ o.args, s.arena.Live i) →
      o.run s = some (r, s') → Reachable s'
  | gc {s s' : Bdd} {n : Nat} (roots : List Nat) : Reachable s →
      (∀ r ∈ roots, r < s.arena.nodes.length → s.arena.Live r) →
      s.gc roots = some (n, s') → Reachable s'
  | clear {s : Bdd} : Reachable s → Reachable s.clearCache

theorem rank_le_of_level {T : Type} {m : Arena T} {i l : Nat}
    (h : ∀ x, m.level? i = some x → x < l) : m.rank i ≤ l := by
  unfold rank
  cases hx : m.level? i with
  | none => simp
  | some x => have := h x hx; simp; omega

theorem level_lt_of_rank {T : Type} {m : Arena T} {i l : Nat} (h : m.rank i ≤ l) :
    ∀ x, m.level? i = some x → x < l := by
  intro x hx
  unfold rank at h
  rw [hx] at h
  simp at h; omega

/-- The outcome of a connective in terms of the invariant. -/
theorem op_ok {s : Bdd} (hs : Inv s) (o : BddOp) (hl : ∀ i ∈ o.args, s.arena.Live i) :
    ∃ r s', o.run s = some (r, s') ∧ Inv s' ∧ Step s.arena s'.arena ∧ s'.arena.Live r ∧
      ∃ i ∈ o.args, s'.arena.rank r ≤ s.arena.rank i := by
  have two : ∀ {x f g : Nat}, x ≤ max (s.arena.rank f) (s.arena.rank g) →
      ∃ i ∈ [f, g], x ≤ s.arena.rank i := by
    intro x f g h
    by_cases h' : x ≤ s.arena.rank f
    · exact ⟨f, by simp, h'⟩
    · exact ⟨g, by simp, by omega⟩
  have bin : ∀ {f g : Nat} {Φ : (Nat → Nat) → T3 → Prop} {res : Option (Nat × Bdd)},
      eng.Ok s (max (s.arena.rank f) (s.arena.rank g)) Φ res →
      ∃ r s', res = some (r, s') ∧ Inv s' ∧ Step s.arena s'.arena ∧ s'.arena.Live r ∧
      ∃ i ∈ [f, g], s'.arena.rank r ≤ s.arena.rank i := by
    rintro f g Φ res ⟨r, s', h1, h2, h3, h4, h5, _⟩
    exact ⟨r, s', h1, h2, h3, h4, two h5⟩
  cases o with
  | not f =>
    obtain ⟨r, s', h1, h2, h3, h4, h5, _⟩ := not_ok hs (hl f (by simp [BddOp.args]))
    exact ⟨r, s', h1, h2, h3, h4, f, by simp [BddOp.args], h5⟩
  | and f g => exact bin (and_ok hs (hl f (by simp [BddOp.args])) (hl g (by simp [BddOp.args])))
  | or f g => exact bin (or_ok hs (hl f (by simp [BddOp.args])) (hl g (by simp [BddOp.args])))
  | xor f g => exact bin (xor_ok hs (hl f (by simp [BddOp.args])) (hl g (by simp [BddOp.args])))
  | imp f g => exact bin (imp_ok hs (hl f (by simp [BddOp.args])) (hl g (by simp [BddOp.args])))
  | nand f g => exact bin (nand_ok hs (hl f (by simp [BddOp.args])) (hl g (by simp [BddOp.args])))
  | nor f g => exact bin (nor_ok hs (hl f (by simp [BddOp.args])) (hl g (by simp [BddOp.args])))
  | xnor f g => exact bin (xnor_ok hs (hl f (by simp [BddOp.args])) (hl g (by simp [BddOp.args])))
  | ite f g h =>
    obtain ⟨r, s', h1, h2, h3, h4, h5, _⟩ := ite_ok hs (hl f (by simp [BddOp.args]))
      (hl g (by simp [BddOp.args])) (hl h (by simp [BddOp.args]))
    refine ⟨r, s', h1, h2, h3, h4, ?_⟩
    have h5 : s'.arena.rank r ≤ max (s.arena.rank f) (max (s.arena.rank g) (s.arena.rank h)) := h5
    by_cases e1 : s'.arena.rank r ≤ s.arena.rank f
    · exact ⟨f, by simp [BddOp.args], e1⟩
    · by_cases e2 : s'.arena.rank r ≤ s.arena.rank g
      · exact ⟨g, by simp [BddOp.args], e2⟩
      · exact ⟨h, by simp [BddOp.args], by omega⟩

theorem Reachable.inv {s : Bdd} (h : Reachable s) : Inv s := by
  induction h with
  | new => exact inv_new
  | header l lab _ ih => exact (createHeader_inv ih l lab).1
  | node _ hh hl hl' hr hr' he ih =>
    obtain ⟨r, s', h1, h2, _⟩ := createNode_ok ih hh hl (rank_le_of_level hr) hl' (rank_le_of_level hr')
    rw [he] at h1; cases h1
    exact h2
  | op o _ hl he ih =>
    obtain ⟨r, s', h1, h2, _⟩ := op_ok ih o hl
    rw [he] at h1; cases h1
    exact h2
  | gc roots _ hr he ih =>
    obtain ⟨n, s', h1, h2, _⟩ := gc_ok ih hr
    rw [he] at h1; cases h1
    exact h2
  | clear _ ih => exact clearCache_inv ih

end Bdd
end DD
