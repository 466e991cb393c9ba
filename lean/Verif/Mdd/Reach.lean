import Verif.Mdd.Ops
import Verif.Bdd.Reach

/-!
# Reachable states of `mddcore::MddManager`
-/

set_option autoImplicit false
set_option linter.unusedSectionVars false

namespace DD
open Arena

/-- The operations of `MddManager` (/repo/mddcore/src/mdd_ops.rs) applied to node ids. -/
inductive MddOp where
  | not (f : Nat)
  | and (f g : Nat)
  | or (f g : Nat)
  | xor (f g : Nat)
  | imp (f g : Nat)
  | nand (f g : Nat)
  | nor (f g : Nat)
  | xnor (f g : Nat)
  | ite (f g h : Nat)
  | replace (f g : Nat)

namespace MddOp

/-- Operand ids. -/
def args : MddOp → List Nat
  | not f => [f]
  | and f g | or f g | xor f g | imp f g | nand f g | nor f g | xnor f g | replace f g => [f, g]
  | ite f g h => [f, g, h]

/-- The call. -/
def run (s : Mdd) : MddOp → Option (Nat × Mdd)
  | not f => s.not f
  | and f g => s.and f g
  | or f g => s.or f g
  | xor f g => s.xor f g
  | imp f g => s.imp f g
  | nand f g => s.nand f g
  | nor f g => s.nor f g
  | xnor f g => s.xnor f g
  | ite f g h => s.ite f g h
  | replace f g => s.replace f g

/-- What the engine lemmas promise about a value read at the result. -/
def Req (m : Arena T3) : MddOp → (Nat → Nat) → T3 → Prop
  | not f => Op1 (lift1 (!·)) m f
  | and f g => Op2 (lift2 (· && ·)) m m f g
  | or f g => Op2 (lift2 (· || ·)) m m f g
  | xor f g => Op2 (lift2 (· ^^ ·)) m m f g
  | imp f g => Op2 (lift2 (fun a b => !a || b)) m m f g
  | nand f g => Op2 (lift2 (fun a b => !(a && b))) m m f g
  | nor f g => Op2 (lift2 (fun a b => !(a || b))) m m f g
  | xnor f g => Op2 (lift2 (fun a b => !(a ^^ b))) m m f g
  | ite f g h => Op3 liftIte m m m f g h
  | replace f g => Op2 Mdd.over m m f g

end MddOp

namespace Mdd

/-- States a client of the core manager can reach: node ids passed in are not reclaimed ones,
`create_node` gives one child per edge and respects the variable order, headers have at least one
edge and headers of the same level the same number of edges, and gc roots are not reclaimed ids. -/
inductive Reachable : Mdd → Prop
  | new : Reachable Mdd.new
  | header {s : Mdd} (level : Nat) (label : String) (e : Nat) : Reachable s → 0 < e →
      (∀ hd ∈ s.arena.headers, hd.level = level → hd.edgeNum = e) →
      Reachable (s.createHeader level label e).2
  | node {s s' : Mdd} {h r : Nat} {ch : List Nat} {hd : Header} : Reachable s →
      s.arena.headers[h]? = some hd → ch.length = hd.edgeNum →
      (∀ c ∈ ch, s.arena.Live c ∧ ∀ l, s.arena.level? c = some l → l < hd.level) →
      s.createNode h ch = some (r, s') → Reachable s'
  | op {s s' : Mdd} {r : Nat} (o : MddOp) : Reachable s → (∀ i ∈ o.args, s.arena.Live i) →
      o.run s = some (r, s') → Reachable s'
  | gc {s s' : Mdd} {n : Nat} (roots : List Nat) : Reachable s →
      (∀ r ∈ roots, r < s.arena.nodes.length → s.arena.Live r) →
      s.gc roots = some (n, s') → Reachable s'
  | clear {s : Mdd} : Reachable s → Reachable s.clearCache

/-- The outcome of an operation. -/
theorem op_ok {s : Mdd} (hs : Inv s) (o : MddOp) (hl : ∀ i ∈ o.args, s.arena.Live i) :
    ∃ r s', o.run s = some (r, s') ∧ Inv s' ∧ Step s.arena s'.arena ∧ s'.arena.Live r ∧
      s'.arena.Sound (o.Req s.arena) r := by
  have fin : ∀ {k : Nat} {Φ : (Nat → Nat) → T3 → Prop} {res : Option (Nat × Mdd)},
      eng.Ok s k Φ res → ∃ r s', res = some (r, s') ∧ Inv s' ∧ Step s.arena s'.arena ∧
        s'.arena.Live r ∧ s'.arena.Sound Φ r := by
    rintro k Φ res ⟨r, s', h1, h2, h3, h4, _, h6⟩
    exact ⟨r, s', h1, h2, h3, h4, h6⟩
  cases o with
  | not f => exact fin (not_ok hs (hl f (by simp [MddOp.args])))
  | and f g => exact fin (and_ok hs (hl f (by simp [MddOp.args])) (hl g (by simp [MddOp.args])))
  | or f g => exact fin (or_ok hs (hl f (by simp [MddOp.args])) (hl g (by simp [MddOp.args])))
  | xor f g => exact fin (xor_ok hs (hl f (by simp [MddOp.args])) (hl g (by simp [MddOp.args])))
  | imp f g => exact fin (imp_ok hs (hl f (by simp [MddOp.args])) (hl g (by simp [MddOp.args])))
  | nand f g => exact fin (nand_ok hs (hl f (by simp [MddOp.args])) (hl g (by simp [MddOp.args])))
  | nor f g => exact fin (nor_ok hs (hl f (by simp [MddOp.args])) (hl g (by simp [MddOp.args])))
  | xnor f g => exact fin (xnor_ok hs (hl f (by simp [MddOp.args])) (hl g (by simp [MddOp.args])))
  | replace f g =>
    exact fin (replace_ok hs (hl f (by simp [MddOp.args])) (hl g (by simp [MddOp.args])))
  | ite f g h =>
    exact fin (ite_ok hs (hl f (by simp [MddOp.args])) (hl g (by simp [MddOp.args]))
      (hl h (by simp [MddOp.args])))

theorem Reachable.inv {s : Mdd} (h : Reachable s) : Inv s := by
  induction h with
  | new => exact inv_new
  | header l lab e _ he hc ih => exact (createHeader_inv ih l lab e he hc).1
  | node _ hh hl hk he ih =>
    obtain ⟨r, s', h1, h2, _⟩ := createNode_ok ih hh hl
      (fun c hc => ⟨(hk c hc).1, Bdd.rank_le_of_level (hk c hc).2⟩)
    rw [he] at h1; cases h1
    exact h2
  | op o _ hl he ih =>
    obtain ⟨r, s', h1, h2, _⟩ := op_ok ih o hl
    rw [he] at h1; cases h1
    exact h2
  | gc roots _ hr he ih =>
    obtain ⟨n, s', h1, h2, _⟩ := gc_ok ih hr
    rw [he] at h1; cases h1
    exact h2
  | clear _ ih => exact clearCache_inv ih

end Mdd
end DD
