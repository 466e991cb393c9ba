import Verif.Mtmdd.Ops
import Verif.Bdd.Reach

/-!
# Reachable states of `mddcore::MtMddManager<V>`
-/

set_option autoImplicit false
set_option linter.unusedSectionVars false

namespace DD
open Arena

/-- The operations of `MtMddManager` (/repo/mddcore/src/mtmdd_ops.rs) applied to node ids. -/
inductive MtOp where
  | add (f g : Nat)
  | sub (f g : Nat)
  | mul (f g : Nat)
  | div (f g : Nat)
  | rem (f g : Nat)
  | min (f g : Nat)
  | max (f g : Nat)
  | replace (f g : Nat)

namespace MtOp

/-- Operand ids. -/
def args : MtOp → List Nat
  | add f g | sub f g | mul f g | div f g | rem f g | min f g | max f g | replace f g => [f, g]

/-- The call. -/
def run (s : Mtmdd) : MtOp → Option (Nat × Mtmdd)
  | add f g => s.add f g
  | sub f g => s.sub f g
  | mul f g => s.mul f g
  | div f g => s.div f g
  | rem f g => s.rem f g
  | min f g => s.min f g
  | max f g => s.max f g
  | replace f g => s.replace f g

/-- What the engine lemmas promise about a value read at the result. -/
def Req (m : Arena (Option Int)) : MtOp → (Nat → Nat) → Option Int → Prop
  | add f g => Op2 (Mtmdd.ptR (fun a b => some (a + b))) m m f g
  | sub f g => Op2 (Mtmdd.ptR (fun a b => some (a - b))) m m f g
  | mul f g => Op2 (Mtmdd.ptR (fun a b => some (a * b))) m m f g
  | div f g => Op2 (Mtmdd.ptR (fun a b => if b = 0 then none else some (a.tdiv b))) m m f g
  | rem f g => Op2 (Mtmdd.ptR (fun a b => if b = 0 then none else some (a.tmod b))) m m f g
  | min f g => Op2 (Mtmdd.ptR (fun a b => some (Min.min a b))) m m f g
  | max f g => Op2 (Mtmdd.ptR (fun a b => some (Max.max a b))) m m f g
  | replace f g => Op2 Mtmdd.over m m f g

end MtOp

namespace Mtmdd

/-- States a client of the core manager can reach (conditions as for `Mdd.Reachable`). -/
inductive Reachable : Mtmdd → Prop
  | new : Reachable Mtmdd.new
  | header {s : Mtmdd} (level : Nat) (label : String) (e : Nat) : Reachable s → 0 < e →
      (∀ hd ∈ s.arena.headers, hd.level = level → hd.edgeNum = e) →
      Reachable (s.createHeader level label e).2
  | value {s s' : Mtmdd} {r : Nat} (v : Int) : Reachable s → s.value v = some (r, s') → Reachable s'
  | node {s s' : Mtmdd} {h r : Nat} {ch : List Nat} {hd : Header} : Reachable s →
      s.arena.headers[h]? = some hd → ch.length = hd.edgeNum →
      (∀ c ∈ ch, s.arena.Live c ∧ ∀ l, s.arena.level? c = some l → l < hd.level) →
      s.createNode h ch = some (r, s') → Reachable s'
  | op {s s' : Mtmdd} {r : Nat} (o : MtOp) : Reachable s → (∀ i ∈ o.args, s.arena.Live i) →
      o.run s = some (r, s') → Reachable s'
  | gc {s s' : Mtmdd} {n : Nat} (roots : List Nat) : Reachable s →
      (∀ r ∈ roots, r < s.arena.nodes.length → s.arena.Live r) →
      s.gc roots = some (n, s') → Reachable s'
  | clear {s : Mtmdd} : Reachable s → Reachable s.clearCache

/-- The outcome of an operation. -/
theorem op_ok {s : Mtmdd} (hs : Inv s) (o : MtOp) (hl : ∀ i ∈ o.args, s.arena.Live i) :
    ∃ r s', o.run s = some (r, s') ∧ Inv s' ∧ Step s.arena s'.arena ∧ s'.arena.Live r ∧
      s'.arena.Sound (o.Req s.arena) r := by
  have fin : ∀ {k : Nat} {Φ : (Nat → Nat) → Option Int → Prop} {res : Option (Nat × Mtmdd)},
      eng.Ok s k Φ res → ∃ r s', res = some (r, s') ∧ Inv s' ∧ Step s.arena s'.arena ∧
        s'.arena.Live r ∧ s'.arena.Sound Φ r := by
    rintro k Φ res ⟨r, s', h1, h2, h3, h4, _, h6⟩
    exact ⟨r, s', h1, h2, h3, h4, h6⟩
  cases o with
  | add f g => exact fin (add_ok hs (hl f (by simp [MtOp.args])) (hl g (by simp [MtOp.args])))
  | sub f g => exact fin (sub_ok hs (hl f (by simp [MtOp.args])) (hl g (by simp [MtOp.args])))
  | mul f g => exact fin (mul_ok hs (hl f (by simp [MtOp.args])) (hl g (by simp [MtOp.args])))
  | div f g => exact fin (div_ok hs (hl f (by simp [MtOp.args])) (hl g (by simp [MtOp.args])))
  | rem f g => exact fin (rem_ok hs (hl f (by simp [MtOp.args])) (hl g (by simp [MtOp.args])))
  | min f g => exact fin (min_ok hs (hl f (by simp [MtOp.args])) (hl g (by simp [MtOp.args])))
  | max f g => exact fin (max_ok hs (hl f (by simp [MtOp.args])) (hl g (by simp [MtOp.args])))
  | replace f g =>
    exact fin (replace_ok hs (hl f (by simp [MtOp.args])) (hl g (by simp [MtOp.args])))

theorem Reachable.inv {s : Mtmdd} (h : Reachable s) : Inv s := by
  induction h with
  | new => exact inv_new
  | header l lab e _ he hc ih => exact (createHeader_inv ih l lab e he hc).1
  | value v _ he ih =>
    obtain ⟨r, s', h1, h2, _⟩ := value_raw ih v
    rw [he] at h1; cases h1
    exact h2
  | node _ hh hl hk he ih =>
    obtain ⟨r, s', h1, h2, _⟩ := createNode_ok ih hh hl
      (fun c hc => ⟨(hk c hc).1, Bdd.rank_le_of_level (hk c hc).2⟩)
    rw [he] at h1; cases h1
    exact h2
  | op o _ hl he ih =>
    obtain ⟨r, s', h1, h2, _⟩ := op_ok ih o hl
    rw [he] at h1; cases h1
    exact h2
  | gc roots _ hr he ih =>
    obtain ⟨n, s', h1, h2, _⟩ := gc_ok ih hr
    rw [he] at h1; cases h1
    exact h2
  | clear _ ih => exact clearCache_inv ih

end Mtmdd
end DD
