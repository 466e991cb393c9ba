import Verif.Bss.Refine

/-!
# Shape of a live BDD node in terms of its function
-/

set_option autoImplicit false
set_option linter.unusedSectionVars false
set_option linter.unusedVariables false

namespace DD
open Arena Bdd

namespace Bdd

/-- What a live node looks like in terms of the function it denotes. -/
inductive DenCase (s : Bdd) (i : Nat) (F : BFun) : Prop
  | const (b : Bool) : s.arena.node? i = some (.term (.ofBool b)) → i = (T3.ofBool b).slot →
      (∀ a, F a = b) → DenCase s i F
  | node (h lo hi : Nat) (hd : Header) : s.arena.node? i = some (.nt h [lo, hi]) →
      s.arena.headers[h]? = some hd → s.arena.level? i = some hd.level →
      Den s.arena lo (F.cof hd.level false) → Den s.arena hi (F.cof hd.level true) →
      IsTop F (some hd.level) → DenCase s i F

theorem den_cases {s : Bdd} (hs : Inv s) (inj : s.arena.LevInj) {i : Nat} {F : BFun}
    (h : Den s.arena i F) : DenCase s i F := by
  obtain ⟨n, hn⟩ := h.live.node
  cases n with
  | term t =>
    have h0 := h.val (fun _ => false)
    have ht : ∀ a, T3.ofBool (F a) = t := fun a => (eval_term_iff hn).1 (h.val a)
    have hb := ht (fun _ => false)
    have hc : ∀ a, F a = F (fun _ => false) := fun a => T3.ofBool_inj ((ht a).trans hb.symm)
    refine .const (F fun _ => false) (by rw [hb]; exact hn) ?_ hc
    exact canon hs inj (h.congr hc) (Den_const hs _)
  | nt hh ch =>
    obtain ⟨hd, h1, h2⟩ := hs.wf.nt h.live hn
    have h3 := hs.two hd (List.mem_of_getElem? h1)
    have hlen := h2.1
    rw [h3] at hlen
    match ch, hlen with
    | [lo, hi], _ =>
      have k0 := h2.2.2.2.2 lo (by simp)
      have k1 := h2.2.2.2.2 hi (by simp)
      have d0 : Den s.arena lo (F.cof hd.level false) := by
        refine ⟨k0.1, fun a => ?_⟩
        have := h.val (fun x => if x = hd.level then false else a x)
        obtain ⟨c, hc, he⟩ := (eval_nt_iff hn h1).1 this
        simp [bl] at hc
        subst hc
        refine hs.wf.eval_congr k0.1 (fun l hl => ?_) he
        have : l ≠ hd.level := by have := k0.2; omega
        simp [bl, this]
      have d1 : Den s.arena hi (F.cof hd.level true) := by
        refine ⟨k1.1, fun a => ?_⟩
        have := h.val (fun x => if x = hd.level then true else a x)
        obtain ⟨c, hc, he⟩ := (eval_nt_iff hn h1).1 this
        simp [bl] at hc
        subst hc
        refine hs.wf.eval_congr k1.1 (fun l hl => ?_) he
        have : l ≠ hd.level := by have := k1.2; omega
        simp [bl, this]
      refine .node hh lo hi hd hn h1 (level?_nt hn h1) d0 d1 ⟨?_, ?_⟩
      · intro a b hab
        refine den_congr hs h (fun l hl => hab l ?_)
        rw [rank_nt hn h1] at hl
        exact hl
      · by_cases hex : ∃ a, F.cof hd.level false a ≠ F.cof hd.level true a
        · exact hex
        · exfalso
          have he : ∀ a, F.cof hd.level false a = F.cof hd.level true a := fun a =>
            Decidable.byContradiction fun hne => hex ⟨a, hne⟩
          have := canon hs inj (d0.congr he) d1
          have hred := hs.wf.red _ _ _ h.live hn
          subst this
          exact hred ⟨lo, by simp⟩

end Bdd

end DD
