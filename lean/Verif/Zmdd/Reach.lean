import Verif.Zmdd.Ops
import Verif.Bdd.Reach

/-!
# Reachable states of `mddcore::ZmddManager<V>`
-/

set_option autoImplicit false
set_option linter.unusedSectionVars false

namespace DD
open Arena

/-- The operations of `ZmddManager` (/repo/mddcore/src/zmdd_ops.rs, /repo/mddcore/src/zmdd.rs:195)
applied to node ids. -/
inductive ZmOp where
  | intersect (f g : Nat)
  | setdiff (f g : Nat)
  | setBaseline (f : Nat) (v : Int)

namespace ZmOp

/-- Operand ids. -/
def args : ZmOp → List Nat
  | intersect f g | setdiff f g => [f, g]
  | setBaseline f _ => [f]

/-- The call. -/
def run (s : Zmdd) : ZmOp → Option (Nat × Zmdd)
  | intersect f g => s.intersect f g
  | setdiff f g => s.setdiff f g
  | setBaseline f v => s.setBaseline f v

/-- What the engine lemmas promise: the labelled members of the result. -/
def Req (m : Arena (Option Int)) : ZmOp → (Nat → Nat) → Int → Prop
  | intersect f g => fun a v => Lab m f a (some v) ∧ Lab m g a (some v)
  | setdiff f g => fun a v => Lab m f a (some v) ∧ ¬ Lab m g a (some v)
  | setBaseline f v => Zmdd.Based m f v

end ZmOp

namespace Zmdd

/-- States a client of the core manager can reach (conditions as for `Mdd.Reachable`: positive ranges,
one range per level, children below their parent, live operands and roots). -/
inductive Reachable : Zmdd → Prop
  | new : Reachable Zmdd.new
  | header {s : Zmdd} (level : Nat) (label : String) (e : Nat) : Reachable s → 0 < e →
      (∀ hd ∈ s.arena.headers, hd.level = level → hd.edgeNum = e) →
      Reachable (s.createHeader level label e).2
  | value {s s' : Zmdd} {r : Nat} (v : Int) : Reachable s → s.value v = some (r, s') → Reachable s'
  | node {s s' : Zmdd} {h r : Nat} {ch : List Nat} {hd : Header} : Reachable s →
      s.arena.headers[h]? = some hd → ch.length = hd.edgeNum →
      (∀ c ∈ ch, s.arena.Live c ∧ ∀ l, s.arena.level? c = some l → l < hd.level) →
      s.createNode h ch = some (r, s') → Reachable s'
  | op {s s' : Zmdd} {r : Nat} (o : ZmOp) : Reachable s → (∀ i ∈ o.args, s.arena.Live i) →
      o.run s = some (r, s') → Reachable s'
  | gc {s s' : Zmdd} {n : Nat} (roots : List Nat) : Reachable s →
      (∀ r ∈ roots, r < s.arena.nodes.length → s.arena.Live r) →
      s.gc roots = some (n, s') → Reachable s'
  | clear {s : Zmdd} : Reachable s → Reachable s.clearCache

/-- The outcome of an operation. -/
theorem op_ok {s : Zmdd} (hs : Inv s) (o : ZmOp) (hl : ∀ i ∈ o.args, s.arena.Live i) :
    ∃ r s', o.run s = some (r, s') ∧ Inv s' ∧ Step s.arena s'.arena ∧ s'.arena.Live r ∧
      ∀ a v, Lab s'.arena r a (some v) ↔ o.Req s.arena a v := by
  have fin : ∀ {k : Nat} {P : (Nat → Nat) → Int → Prop} {res : Option (Nat × Zmdd)},
      Ok s k P res → ∃ r s', res = some (r, s') ∧ Inv s' ∧ Step s.arena s'.arena ∧
        s'.arena.Live r ∧ ∀ a v, Lab s'.arena r a (some v) ↔ P a v := by
    rintro k P res ⟨r, s', h1, h2, h3, h4, _, h6⟩
    exact ⟨r, s', h1, h2, h3, h4, h6⟩
  cases o with
  | intersect f g => exact fin (intersect_ok hs (hl f (by simp [ZmOp.args])) (hl g (by simp [ZmOp.args])))
  | setdiff f g => exact fin (setdiff_ok hs (hl f (by simp [ZmOp.args])) (hl g (by simp [ZmOp.args])))
  | setBaseline f v => exact fin (setBaseline_ok hs (hl f (by simp [ZmOp.args])) v)

theorem Reachable.inv {s : Zmdd} (h : Reachable s) : Inv s := by
  induction h with
  | new => exact inv_new
  | header l lab e _ he hc ih => exact (createHeader_inv ih l lab e he hc).1
  | value v _ he ih =>
    obtain ⟨r, s', h1, h2, _⟩ := value_raw ih v
    rw [he] at h1; cases h1
    exact h2
  | node _ hh hl hk he ih =>
    obtain ⟨r, s', h1, h2, _⟩ := createNode_ok ih hh hl
      (fun c hc => ⟨(hk c hc).1, Bdd.rank_le_of_level (hk c hc).2⟩)
    rw [he] at h1; cases h1
    exact h2
  | op o _ hl he ih =>
    obtain ⟨r, s', h1, h2, _⟩ := op_ok ih o hl
    rw [he] at h1; cases h1
    exact h2
  | gc roots _ hr he ih =>
    obtain ⟨n, s', h1, h2, _⟩ := gc_ok ih hr
    rw [he] at h1; cases h1
    exact h2
  | clear _ ih => exact clearCache_inv ih

end Zmdd
end DD
