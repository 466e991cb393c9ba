import Verif.Bdd.Clean
import Verif.Bdd.Bool
import Verif.Core.Product
import Verif.Wrap.Pace

/-!
# Sizes of BDDs computed pointwise from others
-/

set_option autoImplicit false
set_option linter.unusedSectionVars false
set_option linter.unusedVariables false

namespace DD

namespace Arena
variable {T : Type} [DecidableEq T] [Fixed T] {R R' : List Nat → Prop} {m m' : Arena T}

/-- The number of slots in use grows by at most the number of nodes that are new. -/
theorem WF.count_le (wf : WF R m) (wf' : WF R' m') {L : List Nat} (h : ∀ j, m'.Live j → m.Live j ∨ j ∈ L) :
    m'.liveNodeCount ≤ m.liveNodeCount + L.length := by
  rw [wf.occupied_eq, wf'.occupied_eq]
  unfold occupied
  rw [← List.length_append]
  have nd : ((List.range m'.nodes.length).filter fun i => decide (i ∉ m'.free)).Nodup := List.nodup_range.filter _
  refine (nd.subperm fun i hi => ?_).length_le
  obtain ⟨h1, h2⟩ := List.mem_filter.1 hi
  rcases h i ⟨List.mem_range.1 h1, by simpa using h2⟩ with hl | hl
  · exact List.mem_append_left _ (List.mem_filter.2 ⟨List.mem_range.2 hl.1, by simpa using hl.2⟩)
  · exact List.mem_append_right _ hl

theorem Clean.trans_left {m m1 m2 : Arena T} {r r' : Nat} (h : Clean m m1 r) (h' : ∀ j, m2.Live j → m1.Live j)
    (hn : m2.nodes = m1.nodes) : Clean m m2 r := by
  have key : ∀ {i j}, Reach m1 i j → Reach m2 i j := by
    intro i j hr
    induction hr with
    | refl => exact .refl _
    | step h1 hn' hc ih => exact .step ih (by rw [hn]; exact hn') hc
  intro j hj
  rcases h j (h' j hj) with k | k
  · exact .inl k
  · exact .inr (key k)

end Arena

namespace Bdd
open Arena

/-- The nodes of a function computed pointwise from others are at most as many as tuples of their nodes. -/
theorem reach_le {s : Bdd} (hs : Inv s) (inj : s.arena.LevInj) {r : Nat} {F : BFun} (hr : Den s.arena r F)
    {gs : List Nat} {Gs : List BFun} (hg : List.Forall₂ (Den s.arena) gs Gs)
    (hdet : ∀ a b, (∀ G ∈ Gs, G a = G b) → F a = F b) {Lr : List Nat} (nd : Lr.Nodup)
    (hLr : ∀ j ∈ Lr, Reach s.arena r j) {Ls : List (List Nat)}
    (hL : List.Forall₂ (fun g L => ∀ j, Reach s.arena g j → j ∈ L) gs Ls) :
    Lr.length ≤ (Ls.map List.length).prod := by
  rw [← length_tuples]
  have hlive : ∀ g ∈ gs, s.arena.Live g := by
    intro g hm
    obtain ⟨k, hk⟩ := List.mem_iff_getElem?.1 hm
    clear hL hdet
    induction hg generalizing k with
    | nil => cases hm
    | cons h1 _ ih =>
      cases k with
      | zero => cases hk; exact h1.live
      | succ k => exact ih (List.mem_of_getElem? (i := k) hk) k hk
  have F1 : List.Forall₂ (fun g L => Trail s.arena.ValidA (fun j a t => Eval s.arena a j t) g L) gs Ls := by
    clear hg hdet
    induction hL with
    | nil => exact .nil
    | cons h1 _ ih =>
      exact .cons (hs.wf.trails (hlive _ List.mem_cons_self) h1)
        (ih fun g hm => hlive g (List.mem_cons_of_mem _ hm))
  refine hs.wf.size_le inj hr.live nd hLr (Trail.list F1) ?_ ?_
  · intro a ha
    clear hg hL F1 hdet
    induction gs with
    | nil => exact ⟨[], .nil⟩
    | cons g gs ih =>
      obtain ⟨x, hx⟩ := hs.wf.eval_total ha (hlive g List.mem_cons_self)
      obtain ⟨xs, hxs⟩ := ih fun g hm => hlive g (List.mem_cons_of_mem _ hm)
      exact ⟨x :: xs, .cons hx hxs⟩
  · intro a a' z z' xs ha ha' h1 h2 e1 e2
    rw [eval_bool_iff hs ha] at e1
    rw [eval_bool_iff hs ha'] at e2
    rw [e1.det (hr.val _), e2.det (hr.val _)]
    congr 1
    refine hdet _ _ ?_
    clear hL F1 hdet hlive
    unfold evs at h1 h2
    induction hg generalizing xs with
    | nil => intro G h; cases h
    | cons d1 _ ih =>
      cases h1 with
      | cons x1 y1 =>
        cases h2 with
        | cons x2 y2 =>
          intro G hG
          rcases List.mem_cons.1 hG with rfl | hG
          · rw [eval_bool_iff hs ha] at x1
            rw [eval_bool_iff hs ha'] at x2
            exact T3.ofBool_inj ((d1.val _).det x1 |>.trans ((d1.val _).det x2).symm)
          · exact ih _ y1 y2 G hG

end Bdd
end DD
