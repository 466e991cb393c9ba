import Verif.Core.Support

/-!
# Following an assignment from the top of a diagram down to a level
-/

set_option autoImplicit false
set_option linter.unusedSectionVars false
set_option linter.unusedVariables false

namespace DD
namespace Arena
variable {T : Type} [DecidableEq T] [Fixed T] {R' : List Nat → Prop} {m : Arena T}

/-- With the levels from `k` on fixed as in `b`, the diagram of `i` is that of some node below it. -/
theorem WF.follow (wf : WF R' m) {b : Nat → Nat} (hb : m.ValidA b) (k : Nat) : ∀ (n i : Nat), m.rank i ≤ n → m.Live i →
    ∃ j, Reach m i j ∧ m.rank j ≤ k ∧ ∀ c, (∀ l, k ≤ l → c l = b l) → ∀ t, Eval m c i t ↔ Eval m c j t := by
  intro n
  induction n with
  | zero => intro i hr hi; exact ⟨i, .refl i, by omega, fun _ _ _ => Iff.rfl⟩
  | succ n ih =>
    intro i hr hi
    by_cases hk : m.rank i ≤ k
    · exact ⟨i, .refl i, hk, fun _ _ _ => Iff.rfl⟩
    · obtain ⟨nd, hn⟩ := hi.node
      cases nd with
      | term t => simp [rank, level?, hn] at hk
      | nt h ch =>
        obtain ⟨hd, h1, h2, h3, _, _, h5⟩ := wf.nt hi hn
        have hlt : b hd.level < ch.length := by
          have := hb hd (List.mem_of_getElem? h1)
          omega
        have hc : ch[b hd.level]? = some ch[b hd.level] := List.getElem?_eq_getElem hlt
        obtain ⟨lc, rc⟩ := h5 _ (List.mem_of_getElem? hc)
        obtain ⟨j, j1, j2, j3⟩ := ih _ (by omega) lc
        refine ⟨j, (Reach.step (.refl i) hn (List.mem_of_getElem? hc)).trans j1, j2, fun c hcb t => ?_⟩
        rw [eval_nt_iff hn h1, hcb hd.level (by omega), hc]
        simp only [Option.some.injEq, exists_eq_left']
        exact j3 c hcb t

end Arena
end DD
