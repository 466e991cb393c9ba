import Verif.Bdd.Ops

/-!
# BDD nodes as Boolean functions

`Den m i F`: node `i` is live and reads as the Boolean function `F` of the variables' truth values
(indexed by level).
-/

set_option autoImplicit false
set_option linter.unusedSectionVars false

namespace DD
open Arena

/-- A Boolean function of the variables, indexed by level. -/
abbrev BFun := (Nat → Bool) → Bool

/-- Truth values as edge numbers. -/
def bl (a : Nat → Bool) : Nat → Nat := fun l => (a l).toNat

/-- Node `i` is live and denotes `F`. -/
structure Den (m : Arena T3) (i : Nat) (F : BFun) : Prop where
  live : m.Live i
  val : ∀ a, Eval m (bl a) i (T3.ofBool (F a))

theorem Arena.eval_congr_hdr {T : Type} {m : Arena T} {a b : Nat → Nat}
    (h : ∀ hd ∈ m.headers, a hd.level = b hd.level) {i : Nat} {t : T} (he : Eval m a i t) :
    Eval m b i t := by
  induction he with
  | term hn => exact .term hn
  | nt hn hh hc _ ih =>
    refine .nt hn hh ?_ ih
    rw [← h _ (List.mem_of_getElem? hh)]
    exact hc

theorem bl_lt (a : Nat → Bool) (l : Nat) : bl a l < 2 := by
  unfold bl; cases a l <;> decide

namespace Bdd

theorem valid_bl {s : Bdd} (hs : Inv s) (a : Nat → Bool) : s.arena.ValidA (bl a) := by
  intro hd hm
  rw [hs.two hd hm]
  exact bl_lt a _

theorem Den_const {s : Bdd} (hs : Inv s) (b : Bool) : Den s.arena (T3.ofBool b).slot (fun _ => b) :=
  ⟨(fixed hs _).1, fun _ => .term (fixed hs _).2⟩

end Bdd

theorem Den.ext {R : List Nat → Prop} {m m' : Arena T3} (wf : WF R m) (e : Ext m m') {i : Nat}
    {F : BFun} (h : Den m i F) : Den m' i F :=
  ⟨(e.keep i h.live).1, fun a => (wf.eval_ext e h.live).2 (h.val a)⟩

theorem Den.fun_eq {m : Arena T3} {i : Nat} {F G : BFun} (h : Den m i F) (h' : Den m i G) :
    F = G := by
  funext a
  exact T3.ofBool_inj ((h.val a).det (h'.val a))

theorem Den.congr {m : Arena T3} {i : Nat} {F G : BFun} (h : Den m i F) (e : ∀ a, F a = G a) :
    Den m i G := ⟨h.live, fun a => by rw [← e]; exact h.val a⟩

/-- Going back to a smaller arena that still has the node. -/
theorem Den.back {R : List Nat → Prop} {m m' : Arena T3} (wf : WF R m) (e : Ext m m') {i : Nat}
    {F : BFun} (hl : m.Live i) (h : Den m' i F) : Den m i F :=
  ⟨hl, fun a => (wf.eval_ext e hl).1 (h.val a)⟩

namespace Bdd

theorem eval_bool_iff {s : Bdd} (hs : Inv s) {a : Nat → Nat} (ha : s.arena.ValidA a) {i : Nat}
    {t : T3} : Eval s.arena a i t ↔ Eval s.arena (bl (fun l => decide (a l = 1))) i t := by
  have : ∀ hd ∈ s.arena.headers, a hd.level = bl (fun l => decide (a l = 1)) hd.level := by
    intro hd hm
    have h1 := ha hd hm
    rw [hs.two hd hm] at h1
    unfold bl
    have : a hd.level = 0 ∨ a hd.level = 1 := by omega
    rcases this with h | h <;> simp [h]
  exact ⟨eval_congr_hdr this, eval_congr_hdr (fun hd hm => (this hd hm).symm)⟩

theorem canon {s : Bdd} (hs : Inv s) (inj : s.arena.LevInj) {i j : Nat} {F : BFun}
    (h : Den s.arena i F) (h' : Den s.arena j F) : i = j := by
  apply hs.wf.canon inj h.live h'.live
  intro a ha t
  rw [eval_bool_iff hs ha, eval_bool_iff hs ha]
  constructor
  · intro he; rw [he.det (h.val _)]; exact h'.val _
  · intro he; rw [he.det (h'.val _)]; exact h.val _

/-- Outcome of a computation that must produce a node denoting `F`. -/
def BOk (s : Bdd) (F : BFun) (res : Option (Nat × Bdd)) : Prop :=
  ∃ r s', res = some (r, s') ∧ Inv s' ∧ Step s.arena s'.arena ∧ Den s'.arena r F

theorem BOk.ret {s : Bdd} (hs : Inv s) {r : Nat} {F : BFun} (h : Den s.arena r F) :
    BOk s F (some (r, s)) := ⟨r, s, rfl, hs, Step.refl _, h⟩

theorem BOk.of_ok {s : Bdd} {k : Nat} {Φ : (Nat → Nat) → T3 → Prop} {F : BFun}
    {res : Option (Nat × Bdd)} (h : eng.Ok s k Φ res) (hF : ∀ a z, Φ (bl a) z → z = T3.ofBool (F a)) :
    BOk s F res := by
  obtain ⟨r, s', h1, h2, h3, h4, h5, h6⟩ := h
  have hs' : Inv s' := h2
  refine ⟨r, s', h1, h2, h3, h4, fun a => ?_⟩
  have hv := valid_bl hs' a
  obtain ⟨t, ht⟩ := hs'.wf.eval_total hv h4
  have ht' := hF a t (h6 _ hv t ht)
  rw [ht'] at ht
  exact ht

theorem and_den {s : Bdd} (hs : Inv s) {f g : Nat} {F G : BFun} (hf : Den s.arena f F)
    (hg : Den s.arena g G) : BOk s (fun a => F a && G a) (s.and f g) :=
  .of_ok (and_ok hs hf.live hg.live) (fun a z h => h _ _ (hf.val a) (hg.val a) _ _ rfl rfl)

theorem or_den {s : Bdd} (hs : Inv s) {f g : Nat} {F G : BFun} (hf : Den s.arena f F)
    (hg : Den s.arena g G) : BOk s (fun a => F a || G a) (s.or f g) :=
  .of_ok (or_ok hs hf.live hg.live) (fun a z h => h _ _ (hf.val a) (hg.val a) _ _ rfl rfl)

theorem xor_den {s : Bdd} (hs : Inv s) {f g : Nat} {F G : BFun} (hf : Den s.arena f F)
    (hg : Den s.arena g G) : BOk s (fun a => F a ^^ G a) (s.xor f g) :=
  .of_ok (xor_ok hs hf.live hg.live) (fun a z h => h _ _ (hf.val a) (hg.val a) _ _ rfl rfl)

theorem not_den {s : Bdd} (hs : Inv s) {f : Nat} {F : BFun} (hf : Den s.arena f F) :
    BOk s (fun a => !F a) (s.not f) :=
  .of_ok (not_ok hs hf.live) (fun a z h => h _ (hf.val a) _ rfl)

theorem ite_den {s : Bdd} (hs : Inv s) {f g h : Nat} {F G H : BFun} (hf : Den s.arena f F)
    (hg : Den s.arena g G) (hh : Den s.arena h H) :
    BOk s (fun a => if F a then G a else H a) (s.ite f g h) := by
  refine .of_ok (ite_ok hs hf.live hg.live hh.live) (fun a z hz => ?_)
  have := hz _ _ _ (hf.val a) (hg.val a) (hh.val a)
  cases hFa : F a with
  | true => rw [hFa] at this; exact this.1 rfl
  | false => rw [hFa] at this; exact this.2 rfl

/-- The rank of a node bounds the variables its function depends on. -/
theorem den_congr {s : Bdd} (hs : Inv s) {f : Nat} {F : BFun} (hf : Den s.arena f F)
    {a b : Nat → Bool} (h : ∀ l, l < s.arena.rank f → a l = b l) : F a = F b := by
  have := hs.wf.eval_congr (b := bl b) hf.live (fun l hl => by unfold bl; rw [h l hl]) (hf.val a)
  exact T3.ofBool_inj (this.det (hf.val b))

/-- A function that ignores the levels from `n` on is denoted by a node of rank at most `n`. -/
theorem rank_le_of_indep {s : Bdd} (hs : Inv s) (inj : s.arena.LevInj) {f : Nat} {F : BFun}
    (hf : Den s.arena f F) {n : Nat} (h : ∀ a b, (∀ l, l < n → a l = b l) → F a = F b) :
    s.arena.rank f ≤ n := by
  obtain ⟨nd, hn⟩ := hf.live.node
  cases nd with
  | term t => rw [rank_term hn]; omega
  | nt hid ch =>
    obtain ⟨hd, hh, hl, hr, -, -, hk⟩ := hs.wf.nt hf.live hn
    apply Decidable.byContradiction
    intro hgt
    rw [hs.two hd (List.mem_of_getElem? hh)] at hl
    match ch, hl with
    | [lo, hi], _ =>
      obtain ⟨l1, r1⟩ := hk lo (by simp)
      obtain ⟨l2, r2⟩ := hk hi (by simp)
      have hlo : Den s.arena lo F := by
        refine ⟨l1, fun a => ?_⟩
        have := hf.val (fun l => if l = hd.level then false else a l)
        rw [h _ a (fun l hl => by simp; omega)] at this
        rw [eval_child (j := 0) (c := lo) hn hh (by simp [bl]) rfl] at this
        exact hs.wf.eval_congr l1 (fun l hl => by
          have : l ≠ hd.level := by omega
          simp [bl, this]) this
      have hhi : Den s.arena hi F := by
        refine ⟨l2, fun a => ?_⟩
        have := hf.val (fun l => if l = hd.level then true else a l)
        rw [h _ a (fun l hl => by simp; omega)] at this
        rw [eval_child (j := 1) (c := hi) hn hh (by simp [bl]) rfl] at this
        exact hs.wf.eval_congr l2 (fun l hl => by
          have : l ≠ hd.level := by omega
          simp [bl, this]) this
      have := canon hs inj hlo hhi
      subst this
      exact hs.wf.red f hid _ hf.live hn ⟨lo, by simp⟩

theorem createNode_den {s : Bdd} (hs : Inv s) {h low high : Nat} {hd : Header} {F G : BFun}
    (hh : s.arena.headers[h]? = some hd) (hl : Den s.arena low F) (hr : s.arena.rank low ≤ hd.level)
    (hl' : Den s.arena high G) (hr' : s.arena.rank high ≤ hd.level) :
    BOk s (fun a => if a hd.level then G a else F a) (s.createNode h low high) := by
  obtain ⟨r, s', h1, h2, h3, h4, -, h6⟩ := createNode_ok hs hh hl.live hr hl'.live hr'
  refine ⟨r, s', h1, h2, h3, h4, fun a => ?_⟩
  rw [h6 (bl a) _ (valid_bl h2 a)]
  have e1 := (hl.ext hs.wf h3.toExt).val a
  have e2 := (hl'.ext hs.wf h3.toExt).val a
  unfold bl at *
  cases a hd.level <;> simpa

end Bdd
end DD
