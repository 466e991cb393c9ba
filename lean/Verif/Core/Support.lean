import Verif.Core.Fold

/-!
# Levels on which a node depends are the levels of its reachable nodes
-/

set_option autoImplicit false
set_option linter.unusedSectionVars false
set_option linter.unusedVariables false

namespace DD
namespace Arena
variable {T : Type} [DecidableEq T] [Fixed T] {m : Arena T} {R' : List Nat → Prop}

/-- An assignment leads from `i` to the node `j` reachable from it. -/
theorem WF.reach_dir (wf : WF R' m) : ∀ (n i j : Nat), m.rank i ≤ n → m.Live i → Reach m i j → ∀ a, m.ValidA a →
    ∃ b, m.ValidA b ∧ (∀ l, l < m.rank j → b l = a l) ∧
      ∀ b', (∀ l, m.rank j ≤ l → l < m.rank i → b' l = b l) → ∀ t, Eval m b' i t ↔ Eval m b' j t := by
  intro n
  induction n with
  | zero =>
    intro i j hr hi h a ha
    rcases h.cases_head with rfl | ⟨hh, ch, c, hn, hc, _⟩
    · exact ⟨a, ha, fun _ _ => rfl, fun _ _ _ => Iff.rfl⟩
    · obtain ⟨hd, _, _, hrk, _⟩ := wf.nt hi hn
      omega
  | succ n ih =>
    intro i j hr hi h a ha
    rcases h.cases_head with rfl | ⟨hh, ch, c, hn, hc, hcj⟩
    · exact ⟨a, ha, fun _ _ => rfl, fun _ _ _ => Iff.rfl⟩
    · obtain ⟨hd, h1, h2, h3, _, _, h5⟩ := wf.nt hi hn
      obtain ⟨lc, rc⟩ := h5 c hc
      obtain ⟨b, b1, b2, b3⟩ := ih c j (by omega) lc hcj a ha
      obtain ⟨k, hk⟩ := List.mem_iff_getElem?.1 hc
      have hkl := (List.getElem?_eq_some_iff.1 hk).1
      have hrj : m.rank j ≤ m.rank c := wf.reach_rank_le lc hcj
      refine ⟨upd b hd.level k, wf.valid_upd b1 (List.mem_of_getElem? h1) (by omega), fun l hl => ?_, fun b' hb' t => ?_⟩
      · rw [upd_ne _ _ (by omega)]; exact b2 l hl
      · have e : b' hd.level = k := by rw [hb' hd.level (by omega) (by omega), upd_self]
        rw [eval_nt_iff hn h1, e, hk]
        simp only [Option.some.injEq, exists_eq_left']
        exact b3 b' (fun l h1 h2 => by rw [hb' l h1 (by omega), upd_ne _ _ (by omega)]) t

/-- Without a reachable node of level `l`, level `l` does not matter. -/
theorem WF.indep (wf : WF R' m) {l : Nat} : ∀ (n i : Nat), m.rank i ≤ n → m.Live i →
    (∀ j h ch hd, Reach m i j → m.nodes[j]? = some (.nt h ch) → m.headers[h]? = some hd → hd.level ≠ l) →
    ∀ a b, (∀ x, x ≠ l → a x = b x) → ∀ t, Eval m a i t ↔ Eval m b i t := by
  intro n
  induction n with
  | zero =>
    intro i hr hi hno a b hab t
    obtain ⟨nd, hn⟩ := hi.node
    cases nd with
    | term t => rw [eval_term_iff hn, eval_term_iff hn]
    | nt h ch => obtain ⟨hd, _, _, hrk, _⟩ := wf.nt hi hn; omega
  | succ n ih =>
    intro i hr hi hno a b hab t
    obtain ⟨nd, hn⟩ := hi.node
    cases nd with
    | term t => rw [eval_term_iff hn, eval_term_iff hn]
    | nt h ch =>
      obtain ⟨hd, h1, h2, h3, _, _, h5⟩ := wf.nt hi hn
      rw [eval_nt_iff hn h1, eval_nt_iff hn h1, hab hd.level (hno i h ch hd (.refl i) hn h1)]
      constructor
      · rintro ⟨c, c1, c2⟩
        obtain ⟨lc, rc⟩ := h5 c (List.mem_of_getElem? c1)
        exact ⟨c, c1, (ih c (by omega) lc (fun j h' ch' hd' hr' => hno j h' ch' hd'
          ((Reach.step (.refl i) hn (List.mem_of_getElem? c1)).trans hr')) a b hab t).1 c2⟩
      · rintro ⟨c, c1, c2⟩
        obtain ⟨lc, rc⟩ := h5 c (List.mem_of_getElem? c1)
        exact ⟨c, c1, (ih c (by omega) lc (fun j h' ch' hd' hr' => hno j h' ch' hd'
          ((Reach.step (.refl i) hn (List.mem_of_getElem? c1)).trans hr')) a b hab t).2 c2⟩

end Arena
end DD
