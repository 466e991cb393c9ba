import Verif.Core.Support
import Mathlib.Tactic.Choose
import Mathlib.Data.List.Forall2
import Mathlib.Algebra.BigOperators.Group.List.Basic
import Mathlib.Data.List.Nodup
import Mathlib.Data.List.Perm.Subperm

/-!
# The result of an apply has at most as many nodes as there are tuples of operand nodes

Every node of a reduced diagram is a restriction of the function of its root to one choice for the levels
from some level upwards.  The same restriction takes every operand to a node of its own diagram; so if the
function of the root is computed pointwise from the operands, a node of the result is determined by a tuple of
operand nodes.
-/

set_option autoImplicit false
set_option linter.unusedSectionVars false
set_option linter.unusedVariables false

namespace DD

/-- `a` below level `k`, `b` from there on. -/
def mix (k : Nat) (a b : Nat → Nat) : Nat → Nat := fun l => if l < k then a l else b l

theorem mix_lt {k : Nat} {a b : Nat → Nat} {l : Nat} (h : l < k) : mix k a b l = a l := if_pos h
theorem mix_ge {k : Nat} {a b : Nat → Nat} {l : Nat} (h : k ≤ l) : mix k a b l = b l := if_neg (by omega)

/-- `L` holds every restriction of the object `root` by a choice for the levels from some level upwards. -/
def Trail {I X : Type} (V : (Nat → Nat) → Prop) (ev : I → (Nat → Nat) → X → Prop) (root : I) (L : List I) : Prop :=
  ∀ k b, V b → ∃ i ∈ L, ∀ a, V a → ∀ x, ev i a x ↔ ev root (mix k a b) x

/-- The lists with one entry from each of the given lists. -/
def tuples {α : Type} : List (List α) → List (List α)
  | [] => [[]]
  | L :: Ls => L.flatMap fun x => (tuples Ls).map (x :: ·)

theorem length_tuples {α : Type} : ∀ Ls : List (List α), (tuples Ls).length = (Ls.map List.length).prod
  | [] => rfl
  | L :: Ls => by
    simp only [tuples, List.length_flatMap, List.length_map, List.map_const', List.sum_replicate, List.map_cons,
      List.prod_cons, length_tuples Ls]
    rfl

/-- Reading a list of objects at the same assignment. -/
def evs {I X : Type} (ev : I → (Nat → Nat) → X → Prop) (is : List I) (a : Nat → Nat) (xs : List X) : Prop :=
  List.Forall₂ (fun i x => ev i a x) is xs

theorem Trail.list {I X : Type} {V : (Nat → Nat) → Prop} {ev : I → (Nat → Nat) → X → Prop} {is : List I}
    {Ls : List (List I)} (h : List.Forall₂ (fun i L => Trail V ev i L) is Ls) : Trail V (evs ev) is (tuples Ls) := by
  induction h with
  | nil => exact fun k b _ => ⟨[], List.mem_singleton.2 rfl, fun a _ xs => ⟨fun h => by cases h; exact .nil, fun h => by cases h; exact .nil⟩⟩
  | @cons i L is Ls h1 _ ih =>
    intro k b hb
    obtain ⟨i1, m1, e1⟩ := h1 k b hb
    obtain ⟨js, m2, e2⟩ := ih k b hb
    refine ⟨i1 :: js, List.mem_flatMap.2 ⟨i1, m1, List.mem_map.2 ⟨js, m2, rfl⟩⟩, fun a ha xs => ?_⟩
    unfold evs at e2 ⊢
    cases xs with
    | nil => exact ⟨fun h => (by cases h), fun h => (by cases h)⟩
    | cons x xs => rw [List.forall₂_cons, List.forall₂_cons, e1 a ha, e2 a ha]

theorem Trail.mono {I X : Type} {V V' : (Nat → Nat) → Prop} {ev : I → (Nat → Nat) → X → Prop} {i : I} {L : List I}
    (h : Trail V ev i L) (hV : ∀ a, V' a → V a) : Trail V' ev i L := by
  intro k b hb
  obtain ⟨i1, m1, e1⟩ := h k b (hV b hb)
  exact ⟨i1, m1, fun a ha => e1 a (hV a ha)⟩

namespace Arena
variable {T : Type} [DecidableEq T] [Fixed T] {R' : List Nat → Prop} {m m' : Arena T}

theorem ValidA.mix {a b : Nat → Nat} (ha : m.ValidA a) (hb : m.ValidA b) (k : Nat) : m.ValidA (mix k a b) := by
  intro hd h
  unfold DD.mix
  split
  · exact ha hd h
  · exact hb hd h

/-- Following the choices `b` from the root down to level `k` ends at a node of the diagram. -/
theorem WF.trail (wf : WF R' m) : ∀ (n i k : Nat), m.rank i ≤ n → m.Live i → ∀ b, m.ValidA b →
    ∃ j, Reach m i j ∧ m.rank j ≤ k ∧ ∀ a, m.ValidA a → ∀ t, Eval m a j t ↔ Eval m (mix k a b) i t := by
  intro n
  induction n with
  | zero =>
    intro i k hr hi b hb
    refine ⟨i, .refl _, by omega, fun a ha t => wf.eval_congr_iff hi fun l hl => by omega⟩
  | succ n ih =>
    intro i k hr hi b hb
    by_cases hk : m.rank i ≤ k
    · exact ⟨i, .refl _, hk, fun a ha t => wf.eval_congr_iff hi fun l hl => (mix_lt (by omega)).symm⟩
    · obtain ⟨nd, hn⟩ := hi.node
      cases nd with
      | term t => rw [rank_term hn] at hk; omega
      | nt h ch =>
        obtain ⟨hd, h1, h2, h3, _, _, h5⟩ := wf.nt hi hn
        have hlt : b hd.level < ch.length := by rw [h2]; exact hb hd (List.mem_of_getElem? h1)
        have hc : ch[b hd.level]? = some ch[b hd.level] := List.getElem?_eq_getElem hlt
        have hm : ch[b hd.level] ∈ ch := List.getElem_mem hlt
        obtain ⟨lc, rc⟩ := h5 _ hm
        obtain ⟨j, j1, j2, j3⟩ := ih _ k (by omega) lc b hb
        refine ⟨j, ((Reach.refl i).step hn hm).trans j1, j2, fun a ha t => ?_⟩
        rw [j3 a ha, eval_nt_iff hn h1, mix_ge (k := k) (by omega), hc]
        simp only [Option.some.injEq, exists_eq_left']

/-- The nodes of a diagram contain every restriction of its function. -/
theorem WF.trails (wf : WF R' m) {i : Nat} (hi : m.Live i) {L : List Nat} (hL : ∀ j, Reach m i j → j ∈ L) :
    Trail m.ValidA (fun j a t => Eval m a j t) i L := by
  intro k b hb
  obtain ⟨j, h1, _, h3⟩ := wf.trail _ i k Nat.le.refl hi b hb
  exact ⟨j, hL j h1, h3⟩

/-- A reduced diagram whose function is computed from a tuple of objects has at most as many nodes as there
are restrictions of the tuple. -/
theorem WF.size_le (wf : WF RFull m) (inj : m.LevInj) {r : Nat} (lr : m.Live r) {Lr : List Nat} (nd : Lr.Nodup)
    (hLr : ∀ j ∈ Lr, Reach m r j) {I X : Type} {ev : I → (Nat → Nat) → X → Prop} {root : I} {L : List I}
    (F : Trail m.ValidA ev root L) (tot : ∀ a, m.ValidA a → ∃ x, ev root a x)
    (det : ∀ a a' z z' x, m.ValidA a → m.ValidA a' → ev root a x → ev root a' x → Eval m a r z → Eval m a' r z' →
      z = z') : Lr.length ≤ L.length := by
  have hz := wf.valid_zero
  have key : ∀ j, j ∈ Lr → ∃ i, i ∈ L ∧ ∃ b, m.ValidA b ∧
      (∀ a, m.ValidA a → ∀ x, ev i a x ↔ ev root (mix (m.rank j) a b) x) ∧
      ∀ a, m.ValidA a → ∀ z, Eval m a j z ↔ Eval m (mix (m.rank j) a b) r z := by
    intro j hj
    have rj := hLr j hj
    have lj := wf.reach_live rj lr
    obtain ⟨b, b1, _, b3⟩ := wf.reach_dir _ r j Nat.le.refl lr rj _ hz
    obtain ⟨i, i1, i2⟩ := F (m.rank j) b b1
    refine ⟨i, i1, b, b1, i2, fun a ha z => ?_⟩
    rw [b3 _ (fun l hl _ => mix_ge hl)]
    exact wf.eval_congr_iff lj fun l hl => (mix_lt hl).symm
  classical
  have : Nonempty I := ⟨root⟩
  choose! φ hφ using key
  have hinj : ∀ j ∈ Lr, ∀ j' ∈ Lr, φ j = φ j' → j = j' := by
    intro j hj j' hj' e
    obtain ⟨_, b, vb, b1, b2⟩ := hφ j hj
    obtain ⟨_, b', vb', b1', b2'⟩ := hφ j' hj'
    have lj := wf.reach_live (hLr j hj) lr
    have lj' := wf.reach_live (hLr j' hj') lr
    refine wf.canon inj lj lj' fun a ha t => ?_
    obtain ⟨x, hx⟩ := tot _ (ha.mix vb (m.rank j))
    have hx' : ev root (mix (m.rank j') a b') x := by rw [← b1' a ha, ← e, b1 a ha]; exact hx
    obtain ⟨z, h1⟩ := wf.eval_total ha lj
    obtain ⟨z', h1'⟩ := wf.eval_total ha lj'
    have := det _ _ z z' x (ha.mix vb _) (ha.mix vb' _) hx hx' ((b2 a ha z).1 h1) ((b2' a ha z').1 h1')
    subst this
    exact ⟨fun h => by rw [h.det h1]; exact h1', fun h => by rw [h.det h1']; exact h1⟩
  have hn : (Lr.map φ).Nodup := List.Nodup.map_on (fun x hx y hy => hinj x hx y hy) nd
  have hs : Lr.map φ ⊆ L := by
    intro i hi
    obtain ⟨j, hj, rfl⟩ := List.mem_map.1 hi
    exact (hφ j hj).1
  simpa using (List.subperm_of_subset hn hs).length_le

end Arena
end DD
