import Verif.Bss.Session

/-!
# Reachable BDD sessions
-/

set_option autoImplicit false
set_option linter.unusedSectionVars false
set_option linter.unusedVariables false

namespace DD
open Arena Bdd

namespace World

/-- Handle `h` is held and its node reads as the Boolean function `F` of the variables' truth values
(indexed by level). -/
def Denotes (w : World) (h : Nat) (F : BFun) : Prop :=
  ∃ i, w.held.get h = some i ∧ ∀ a, Eval w.mgr.bdd.arena (bl a) i (T3.ofBool (F a))

/-- `create_node` is only called with the variable above those of its operands. -/
def Ordered (w : World) : Cmd → Prop
  | .createNode h f g => h < w.mgr.bdd.arena.headers.length ∧
      ∀ F, (w.Denotes f F ∨ w.Denotes g F) → DependsBelow h F
  | _ => True

/-- Worlds reachable from a new manager by public calls. -/
inductive Reachable : World → Prop
  | new : Reachable World.new
  | step {w w' : World} {o : Out} (c : Cmd) : Reachable w → w.Ordered c →
      w.step c = some (o, w') → Reachable w'

/-- Operand handles of a call. -/
def operands : Cmd → List Nat
  | .not f | .dual f | .clone f | .drop f | .children f | .isZero f | .isOne f | .isUndet f
  | .level f | .minsol f => [f]
  | .and f g | .or f g | .xor f g | .eq f g => [f, g]
  | .ite f g h => [f, g, h]
  | .createNode _ f g => [f, g]
  | .andList fs | .orList fs | .kofn _ fs | .gc fs => fs
  | .const _ | .defvar _ | .setThreshold _ | .clearCache | .varorder | .rpn _ => []

end World

namespace Rel
variable {w : World} {A : Abs}

theorem denotes_iff (R : Rel w A) {h : Nat} {F : BFun} : w.Denotes h F ↔ A.held h = some F := by
  constructor
  · rintro ⟨i, h1, h2⟩
    obtain ⟨G, h3, h4⟩ := R.heldS h i h1
    have : Den w.mgr.bdd.arena i F := ⟨h4.live, h2⟩
    rw [h3, h4.fun_eq this]
  · intro hF
    obtain ⟨i, h1, h2⟩ := R.get hF
    exact ⟨i, h1, h2.val⟩

theorem isSome_iff (R : Rel w A) {h : Nat} : (A.held h).isSome ↔ ∃ i, w.held.get h = some i := by
  constructor
  · intro hs
    obtain ⟨F, i, _, h2, _⟩ := R.getS hs
    exact ⟨i, h2⟩
  · rintro ⟨i, hi⟩
    obtain ⟨F, h1, _⟩ := R.heldS h i hi
    rw [h1]; rfl

theorem funs_isSome (R : Rel w A) (fs : List Nat) :
    (∀ f ∈ fs, (A.held f).isSome) ↔ (A.funs fs).isSome := by
  induction fs with
  | nil => simp [Abs.funs]
  | cons f fs ih =>
    simp only [List.mem_cons, forall_eq_or_imp, ih]
    simp only [Abs.funs]
    cases A.held f <;> cases A.funs fs <;> simp

theorem nodes_isSome (fs : List Nat) :
    (∀ f ∈ fs, ∃ i, w.held.get f = some i) ↔ (w.nodes fs).isSome := by
  induction fs with
  | nil => simp [World.nodes]
  | cons f fs ih =>
    simp only [List.mem_cons, forall_eq_or_imp, ih]
    simp only [World.nodes]
    cases w.held.get f <;> cases w.nodes fs <;> simp

/-- Legality in terms of the world. -/
theorem legal_of (R : Rel w A) {c : Cmd} (ho : w.Ordered c)
    (hh : ∀ f ∈ World.operands c, ∃ i, w.held.get f = some i)
    (hrpn : ∀ ts, c = .rpn ts → (arpn A.names ts).isSome) : A.Legal c := by
  have hs : ∀ f ∈ World.operands c, (A.held f).isSome := fun f hf => R.isSome_iff.2 (hh f hf)
  cases c with
  | const | defvar | setThreshold | clearCache | varorder => trivial
  | not | dual | clone | drop | children | isZero | isOne | isUndet | level | minsol =>
    exact hs _ (by simp [World.operands])
  | and | or | xor | eq =>
    exact ⟨hs _ (by simp [World.operands]), hs _ (by simp [World.operands])⟩
  | ite =>
    exact ⟨hs _ (by simp [World.operands]), hs _ (by simp [World.operands]),
      hs _ (by simp [World.operands])⟩
  | createNode h f g =>
    obtain ⟨F, hF⟩ := Option.isSome_iff_exists.1 (hs f (by simp [World.operands]))
    obtain ⟨G, hG⟩ := Option.isSome_iff_exists.1 (hs g (by simp [World.operands]))
    refine ⟨?_, F, G, hF, hG, ho.2 F (.inl (R.denotes_iff.2 hF)),
      ho.2 G (.inr (R.denotes_iff.2 hG))⟩
    have := ho.1
    rw [R.mok.hdrs] at this
    simpa [mkHeaders] using this
  | andList fs => exact (R.funs_isSome fs).1 hs
  | orList fs => exact (R.funs_isSome fs).1 hs
  | kofn k fs => exact (R.funs_isSome fs).1 hs
  | gc fs => exact (R.funs_isSome fs).1 hs
  | rpn ts => exact hrpn ts rfl

/-- A call that returns was legal. -/
theorem legal_of_step (R : Rel w A) {c : Cmd} (ho : w.Ordered c) {o : Out} {w' : World}
    (h : w.step c = some (o, w')) : A.Legal c := by
  refine R.legal_of ho ?_ ?_
  · have single : ∀ {f : Nat} {x : Option (Out × World)}, x = some (o, w') →
        (w.held.get f = none → x = none) → ∀ f' ∈ [f], ∃ i, w.held.get f' = some i := by
      intro f x hx hn f' hf'
      simp at hf'; subst hf'
      cases hg : w.held.get f' with
      | none => rw [hn hg] at hx; cases hx
      | some i => exact ⟨i, rfl⟩
    have lists : ∀ {fs : List Nat} {x : Option (Out × World)}, x = some (o, w') →
        (w.nodes fs = none → x = none) → ∀ f' ∈ fs, ∃ i, w.held.get f' = some i := by
      intro fs x hx hn
      rw [nodes_isSome]
      cases hg : w.nodes fs with
      | none => rw [hn hg] at hx; cases hx
      | some i => rfl
    have two : ∀ {f g : Nat} {x : Option (Out × World)}, x = some (o, w') →
        (w.held.get f = none → x = none) → (w.held.get g = none → x = none) →
        ∀ f' ∈ [f, g], ∃ i, w.held.get f' = some i := by
      intro f g x hx h1 h2 f' hf'
      simp at hf'
      rcases hf' with rfl | rfl
      · exact single hx h1 _ (by simp)
      · exact single hx h2 _ (by simp)
    cases c with
    | const | defvar | setThreshold | clearCache | varorder | rpn =>
      intro f hf; simp [World.operands] at hf
    | not f | dual f | clone f | drop f | children f | isZero f | isOne f | isUndet f | level f | minsol f =>
      exact single h (fun hn => by simp only [World.step, hn])
    | and f g | or f g | xor f g | eq f g | createNode _ f g =>
      refine two h (fun hn => ?_) (fun hn => ?_) <;> simp only [World.step, hn] <;>
        cases w.held.get f <;> rfl
    | ite f g k =>
      intro f' hf'
      simp only [World.operands, List.mem_cons, List.not_mem_nil, or_false] at hf'
      rcases hf' with e | e | e <;> subst e
      · exact single (f := f') h (fun hn => by simp only [World.step, hn]) _ (by simp)
      · exact single (f := f') h (fun hn => by
          simp only [World.step, hn]; cases w.held.get f <;> rfl) _ (by simp)
      · exact single (f := f') h (fun hn => by
          simp only [World.step, hn]; cases w.held.get f <;> cases w.held.get g <;> rfl) _ (by simp)
    | andList fs | orList fs | kofn _ fs | gc fs =>
      exact lists (fs := fs) h (fun hn => by simp only [World.step, hn])
  · rintro ts rfl
    cases ha : arpn A.names ts with
    | none => rw [(R.rpn_none ts).2 ha] at h; cases h
    | some r => rfl

/-- One call that returns. -/
theorem of_step (R : Rel w A) {c : Cmd} (ho : w.Ordered c) {o : Out} {w' : World}
    (h : w.step c = some (o, w')) : ∃ A', A.Post c o A' ∧ Rel w' A' := by
  obtain ⟨o', w'', A', h1, h2, h3⟩ := R.step (R.legal_of_step ho h)
  rw [h] at h1; cases h1
  exact ⟨A', h2, h3⟩

end Rel

theorem World.Reachable.rel {w : World} (h : w.Reachable) : ∃ A, Rel w A := by
  induction h with
  | new => exact ⟨_, Rel.new⟩
  | step c _ ho hst ih =>
    obtain ⟨A, R⟩ := ih
    obtain ⟨A', _, R'⟩ := R.of_step ho hst
    exact ⟨A', R'⟩

end DD
