import Verif.Core.Memo

/-!
# Recursions that may panic at the terminals

The lemmas of `Verif/Core/Rec.lean` for operations whose terminal case can fail (overflow of the value type): the
outcome is correct, or the call panics and some assignment reads a pair of values on which the terminal case fails.
-/

set_option autoImplicit false
set_option linter.unusedSectionVars false

namespace DD
open Arena

theorem mapS_pspec {S α β : Type} {f : S → α → Option (β × S)} {Inv : S → Prop}
    {P : S → S → Prop} (Prefl : ∀ s, P s s) (Ptrans : ∀ a b c, P a b → P b c → P a c)
    {Q : S → α → β → Prop} (Qst : ∀ s s' x r, Inv s → P s s' → Q s x r → Q s' x r) {B : α → Prop} :
    ∀ (l : List α) (s : S), Inv s →
      (∀ s1 x, Inv s1 → P s s1 → x ∈ l →
        (f s1 x = none ∧ B x) ∨ ∃ r s2, f s1 x = some (r, s2) ∧ Inv s2 ∧ P s1 s2 ∧ Q s2 x r) →
      (mapS f s l = none ∧ ∃ x ∈ l, B x) ∨
      ∃ rs s', mapS f s l = some (rs, s') ∧ Inv s' ∧ P s s' ∧ rs.length = l.length ∧
        ∀ (j : Nat) (x : α) (r : β), l[j]? = some x → rs[j]? = some r → Q s' x r := by
  intro l
  induction l with
  | nil =>
    intro s hs _
    exact .inr ⟨[], s, rfl, hs, Prefl s, rfl, by intro j x r h; simp at h⟩
  | cons x xs ih =>
    intro s hs hf
    rcases hf s x hs (Prefl s) List.mem_cons_self with ⟨h1, h2⟩ | ⟨r, s1, h1, h2, h3, h4⟩
    · exact .inl ⟨by simp [mapS, h1], x, List.mem_cons_self, h2⟩
    rcases ih s1 h2 (fun s2 y i2 p2 hy => hf s2 y i2 (Ptrans _ _ _ h3 p2) (List.mem_cons_of_mem _ hy)) with
      ⟨h5, y, hy, hb⟩ | ⟨rs, s', h5, h6, h7, h8, h9⟩
    · exact .inl ⟨by simp [mapS, h1, h5], y, List.mem_cons_of_mem _ hy, hb⟩
    refine .inr ⟨r :: rs, s', ?_, h6, Ptrans _ _ _ h3 h7, by simp [h8], ?_⟩
    · simp [mapS, h1, h5]
    · intro j y q hj hq
      cases j with
      | zero =>
        simp at hj hq
        subst hj hq
        exact Qst _ _ _ _ h2 h7 h4
      | succ j =>
        simp at hj hq
        exact h9 j y q hj hq

namespace Eng

variable {S U : Type} [DecidableEq U] [Fixed U] (E : Eng S U)

/-- Correct outcome, or a panic for the reason `B`. -/
def POk (s : S) (k : Nat) (Φ : (Nat → Nat) → U → Prop) (B : Prop) (res : Option (Nat × S)) : Prop :=
  (res = none ∧ B) ∨ E.Ok s k Φ res

variable {E}

theorem Ok.pok {s : S} {k : Nat} {Φ : (Nat → Nat) → U → Prop} {B : Prop} {res : Option (Nat × S)}
    (h : E.Ok s k Φ res) : E.POk s k Φ B res := .inr h

theorem POk.mono {s : S} {k k' : Nat} {Φ Ψ : (Nat → Nat) → U → Prop} {B C : Prop} {res : Option (Nat × S)}
    (h : E.POk s k Φ B res) (hk : k ≤ k') (hΦ : ∀ a, (E.ar s).ValidA a → ∀ z, Φ a z → Ψ a z) (hB : B → C) :
    E.POk s k' Ψ C res := by
  rcases h with ⟨h, b⟩ | h
  · exact .inl ⟨h, hB b⟩
  · exact .inr (h.mono hk hΦ)

/-- Shannon expansion. -/
theorem branch_pok {α : Type} {rec : S → α → Option (Nat × S)} {s : S} (hs : E.Inv s)
    {h : Nat} {hd : Header} (hh : (E.ar s).headers[h]? = some hd) {args : List α}
    (hlen : args.length = hd.edgeNum) {Φ : α → (Nat → Nat) → U → Prop}
    {Ψ : (Nat → Nat) → U → Prop} {B : α → Prop} {C : Prop}
    (ih : ∀ s1 x, E.Inv s1 → E.St s s1 → x ∈ args → E.POk s1 hd.level (Φ x) (B x) (rec s1 x))
    (hΨ : ∀ (j : Nat) (x : α) a z, args[j]? = some x → (E.ar s).ValidA a → a hd.level = j →
      Φ x a z → Ψ a z) (hC : ∀ (j : Nat) (x : α), args[j]? = some x → B x → C) :
    E.POk s (hd.level + 1) Ψ C (branchS E.mkn rec s h args) := by
  rcases mapS_pspec (f := rec) (Inv := E.Inv) (P := E.St)
    E.refl E.trans
    (Q := fun s x r => (E.ar s).Live r ∧ (E.ar s).rank r ≤ hd.level ∧ (E.ar s).Sound (Φ x) r) (B := B)
    (by
      rintro s s' x r hi hp ⟨q1, q2, q3⟩
      have e := E.toStep _ _ hp
      have wf := E.toWF _ hi
      exact ⟨(e.keep r q1).1, by rw [wf.rank_ext e.toExt q1]; exact q2,
        wf.sound_ext e.toExt q1 q3⟩)
    args s hs
    (by
      intro s1 x i1 p1 hx
      rcases ih s1 x i1 p1 hx with hn | ⟨r, s2, g1, g2, g3, g4, g5, g6⟩
      · exact .inl hn
      · exact .inr ⟨r, s2, g1, g2, g3, g4, g5, g6⟩) with ⟨hn, x, hx, hb⟩ | ⟨rs, s1, h1, h2, h3, h4, h5⟩
  · obtain ⟨j, hj⟩ := List.mem_iff_getElem?.1 hx
    exact .inl ⟨by simp [branchS, hn], hC j x hj hb⟩
  right
  have st1 := E.toStep _ _ h3
  have hh1 : (E.ar s1).headers[h]? = some hd := st1.hdr _ _ hh
  have hkids : ∀ c ∈ rs, (E.ar s1).Live c ∧ (E.ar s1).rank c ≤ hd.level := by
    intro c hc
    obtain ⟨j, hj⟩ := List.mem_iff_getElem?.1 hc
    have hjl : j < args.length := by rw [← h4]; exact (List.getElem?_eq_some_iff.1 hj).1
    have := h5 j _ c (List.getElem?_eq_getElem hjl) hj
    exact ⟨this.1, this.2.1⟩
  have hlen' : rs.length = hd.edgeNum := by rw [h4, hlen]
  obtain ⟨r, s2, g1, g2, g3, g4⟩ := E.mkOK s1 h rs h2 ⟨hd, hh1, hlen', hkids⟩
  obtain ⟨r', m', k1, k2, k3, k4, k5, k6⟩ := createFull_spec (E.toWF _ h2) hh1 hlen' hkids
  rw [g4] at k1
  cases k1
  refine ⟨r, s2, ?_, g2, E.trans _ _ _ h3 g3, k4, k5, ?_⟩
  · simp [branchS, h1, g1]
  · intro a ha z hz
    obtain ⟨c, hc, he⟩ := (k6 a z ha).1 hz
    have hcm := List.mem_of_getElem? hc
    have he1 : Eval (E.ar s1) a c z := ((E.toWF _ h2).eval_ext k3.toExt (hkids c hcm).1).1 he
    have hjl : a hd.level < args.length := by
      rw [← h4]; exact (List.getElem?_eq_some_iff.1 hc).1
    have hx := List.getElem?_eq_getElem hjl
    have hv1 : (E.ar s1).ValidA a := (ValidA.step k3).1 ha
    have := (h5 _ _ c hx hc).2.2 a hv1 z he1
    exact hΨ _ _ a z hx ((ValidA.step st1).1 hv1) rfl this

/-- A memoised computation. -/
theorem memo_pok {s : S} (hs : E.Inv s) {k : Nat} {Φ : (Nat → Nat) → U → Prop} {B : Prop}
    {get : S → Option Nat} {put : S → Nat → S} {body : S → Option (Nat × S)}
    (hget : ∀ x, get s = some x → (E.ar s).Live x ∧ (E.ar s).rank x ≤ k ∧ (E.ar s).Sound Φ x)
    (hb : E.POk s k Φ B (body s))
    (hput : ∀ s' r, E.Inv s' → E.St s s' → (E.ar s').Live r → (E.ar s').rank r ≤ k →
      (E.ar s').Sound Φ r → E.Inv (put s' r) ∧ E.ar (put s' r) = E.ar s' ∧ E.St s' (put s' r)) :
    E.POk s k Φ B (memo get put body s) := by
  rcases hb with ⟨hn, b⟩ | hb
  · cases hg : get s with
    | none => exact .inl ⟨by simp [memo, hg, hn], b⟩
    | some x =>
      obtain ⟨h1, h2, h3⟩ := hget x hg
      exact .inr (by simp only [memo, hg]; exact Ok.ret hs h1 h2 h3)
  · exact .inr (memo_ok hs hget hb hput)

end Eng

/-- Some valid assignment reads a pair of values in `B`. -/
def Arena.Hits {T : Type} (m : Arena T) (B : T → T → Prop) (f g : Nat) : Prop :=
  ∃ a x y, m.ValidA a ∧ Eval m a f x ∧ Eval m a g y ∧ B x y

namespace Arena

variable {T : Type} [DecidableEq T] [Fixed T] {R : List Nat → Prop} {m m' : Arena T}

theorem Hits.symm {B : T → T → Prop} (hB : ∀ x y, B x y → B y x) {f g : Nat} (h : m.Hits B f g) : m.Hits B g f := by
  obtain ⟨a, x, y, ha, hx, hy, hb⟩ := h
  exact ⟨a, y, x, ha, hy, hx, hB _ _ hb⟩

theorem Hits.back (wf : WF R m) (e : Step m m') {B : T → T → Prop} {f g : Nat} (lf : m.Live f) (lg : m.Live g)
    (h : m'.Hits B f g) : m.Hits B f g := by
  obtain ⟨a, x, y, ha, hx, hy, hb⟩ := h
  exact ⟨a, x, y, (ValidA.step e).1 ha, (wf.eval_ext e.toExt lf).1 hx, (wf.eval_ext e.toExt lg).1 hy, hb⟩

/-- Changing a valid assignment at the level of a header. -/
theorem ValidA.update (har : ∀ h1 ∈ m.headers, ∀ h2 ∈ m.headers, h1.level = h2.level → h1.edgeNum = h2.edgeNum)
    {a : Nat → Nat} (ha : m.ValidA a) {hd : Header} (hh : hd ∈ m.headers) {j : Nat} (hj : j < hd.edgeNum) :
    m.ValidA (fun l => if l = hd.level then j else a l) := by
  intro hd' hh'
  show (if hd'.level = hd.level then j else a hd'.level) < _
  split
  · rename_i e
    rw [har _ hh' _ hh e]
    exact hj
  · exact ha _ hh'

end Arena

namespace View

variable {S U T : Type} [DecidableEq U] [Fixed U] [DecidableEq T] [Fixed T] {E : Eng S U}

/-- Specification of the recursive calls of a binary operation below rank sum `n`. -/
def PRec2 (v : View E T) (R : T → T → U → Prop) (B : T → T → Prop)
    (rec : S → Nat × Nat → Option (Nat × S)) (n : Nat) : Prop :=
  ∀ s f g, E.Inv s → (v.ar s).Live f → (v.ar s).Live g → Max.max ((v.ar s).rank f) ((v.ar s).rank g) < n →
    E.POk s (max ((v.ar s).rank f) ((v.ar s).rank g)) (Op2 R (v.ar s) (v.ar s) f g) ((v.ar s).Hits B f g)
      (rec s (f, g))

variable {v : View E T} {R : T → T → U → Prop} {B : T → T → Prop}
  {rec : S → Nat × Nat → Option (Nat × S)} {n : Nat}

/-- Arm that splits the left operand only. -/
theorem armL_pok (ih : PRec2 v R B rec n)
    {s : S} (hs : E.Inv s) {f g hf : Nat} {cf : List Nat} (lf : (v.ar s).Live f)
    (lg : (v.ar s).Live g) (nf : (v.ar s).nodes[f]? = some (.nt hf cf))
    (hlt : (v.ar s).rank g < (v.ar s).rank f)
    (hn : Max.max ((v.ar s).rank f) ((v.ar s).rank g) ≤ n) :
    E.POk s (max ((v.ar s).rank f) ((v.ar s).rank g)) (Op2 R (v.ar s) (v.ar s) f g) ((v.ar s).Hits B f g)
      (branchS E.mkn rec s hf (cf.map (fun x => (x, g)))) := by
  have wf := v.toWF s hs
  obtain ⟨hd, hh, hl, hr, -, -, hk⟩ := wf.nt lf nf
  have hh' : (E.ar s).headers[hf]? = some hd := by rw [← v.hdrs s hs]; exact hh
  have hmax : max ((v.ar s).rank f) ((v.ar s).rank g) = hd.level + 1 := by omega
  rw [hmax]
  refine Eng.branch_pok hs hh' (by simpa using hl)
    (Φ := fun p => Op2 R (v.ar s) (v.ar s) p.1 p.2) (B := fun p => (v.ar s).Hits B p.1 p.2) ?_ ?_ ?_
  · rintro s1 ⟨c, g'⟩ i1 p1 hc
    obtain ⟨c', hc', he⟩ := List.mem_map.1 hc
    cases he
    obtain ⟨h1, h2⟩ := hk c hc'
    have r1 := v.rank_st hs p1 h1
    have r2 := v.rank_st hs p1 lg
    have := ih s1 c g i1 (v.live_st p1 h1) (v.live_st p1 lg) (by omega)
    rw [r1, r2] at this
    exact this.mono (by omega) (fun a _ z hz => (v.op2_st v hs p1 h1 lg).1 hz)
      (fun h => h.back wf (v.toStep _ _ p1) h1 lg)
  · rintro j ⟨c, g'⟩ a z hc ha hj hz x y hx hy
    rw [List.getElem?_map] at hc
    cases hcj : cf[j]? with
    | none => rw [hcj] at hc; cases hc
    | some c' =>
      rw [hcj] at hc
      cases hc
      exact hz x y ((eval_child nf hh hj hcj).1 hx) hy
  · rintro j ⟨c, g'⟩ hc ⟨a, x, y, ha, hx, hy, hb⟩
    rw [List.getElem?_map] at hc
    cases hcj : cf[j]? with
    | none => rw [hcj] at hc; cases hc
    | some c' =>
      rw [hcj] at hc
      cases hc
      have hj : j < hd.edgeNum := by rw [← hl]; exact (List.getElem?_eq_some_iff.1 hcj).1
      obtain ⟨l1, r1⟩ := hk c (List.mem_of_getElem? hcj)
      refine ⟨_, x, y, ValidA.update wf.arity ha (List.mem_of_getElem? hh) hj, ?_, ?_, hb⟩
      · rw [eval_child nf hh (j := j) (by simp) hcj]
        exact wf.eval_congr l1 (fun l hl => by rw [if_neg (by omega)]) hx
      · exact wf.eval_congr lg (fun l hl => by rw [if_neg (by omega)]) hy

/-- Arm that splits the right operand only. -/
theorem armR_pok (ih : PRec2 v R B rec n)
    {s : S} (hs : E.Inv s) {f g hg : Nat} {cg : List Nat} (lf : (v.ar s).Live f)
    (lg : (v.ar s).Live g) (ng : (v.ar s).nodes[g]? = some (.nt hg cg))
    (hlt : (v.ar s).rank f < (v.ar s).rank g)
    (hn : Max.max ((v.ar s).rank f) ((v.ar s).rank g) ≤ n) :
    E.POk s (max ((v.ar s).rank f) ((v.ar s).rank g)) (Op2 R (v.ar s) (v.ar s) f g) ((v.ar s).Hits B f g)
      (branchS E.mkn rec s hg (cg.map (fun y => (f, y)))) := by
  have wf := v.toWF s hs
  obtain ⟨hd, hh, hl, hr, -, -, hk⟩ := wf.nt lg ng
  have hh' : (E.ar s).headers[hg]? = some hd := by rw [← v.hdrs s hs]; exact hh
  have hmax : max ((v.ar s).rank f) ((v.ar s).rank g) = hd.level + 1 := by omega
  rw [hmax]
  refine Eng.branch_pok hs hh' (by simpa using hl)
    (Φ := fun p => Op2 R (v.ar s) (v.ar s) p.1 p.2) (B := fun p => (v.ar s).Hits B p.1 p.2) ?_ ?_ ?_
  · rintro s1 ⟨f', c⟩ i1 p1 hc
    obtain ⟨c', hc', he⟩ := List.mem_map.1 hc
    cases he
    obtain ⟨h1, h2⟩ := hk c hc'
    have r1 := v.rank_st hs p1 lf
    have r2 := v.rank_st hs p1 h1
    have := ih s1 f c i1 (v.live_st p1 lf) (v.live_st p1 h1) (by omega)
    rw [r1, r2] at this
    exact this.mono (by omega) (fun a _ z hz => (v.op2_st v hs p1 lf h1).1 hz)
      (fun h => h.back wf (v.toStep _ _ p1) lf h1)
  · rintro j ⟨f', c⟩ a z hc ha hj hz x y hx hy
    rw [List.getElem?_map] at hc
    cases hcj : cg[j]? with
    | none => rw [hcj] at hc; cases hc
    | some c' =>
      rw [hcj] at hc
      cases hc
      exact hz x y hx ((eval_child ng hh hj hcj).1 hy)
  · rintro j ⟨f', c⟩ hc ⟨a, x, y, ha, hx, hy, hb⟩
    rw [List.getElem?_map] at hc
    cases hcj : cg[j]? with
    | none => rw [hcj] at hc; cases hc
    | some c' =>
      rw [hcj] at hc
      cases hc
      have hj : j < hd.edgeNum := by rw [← hl]; exact (List.getElem?_eq_some_iff.1 hcj).1
      obtain ⟨l1, r1⟩ := hk c (List.mem_of_getElem? hcj)
      refine ⟨_, x, y, ValidA.update wf.arity ha (List.mem_of_getElem? hh) hj, ?_, ?_, hb⟩
      · exact wf.eval_congr lf (fun l hl => by rw [if_neg (by omega)]) hx
      · rw [eval_child ng hh (j := j) (by simp) hcj]
        exact wf.eval_congr l1 (fun l hl => by rw [if_neg (by omega)]) hy

/-- Arm for equal levels. -/
theorem armE_pok (ih : PRec2 v R B rec n)
    {s : S} (hs : E.Inv s) {f g hf hg hx : Nat} {cf cg : List Nat} (lf : (v.ar s).Live f)
    (lg : (v.ar s).Live g) (nf : (v.ar s).nodes[f]? = some (.nt hf cf))
    (ng : (v.ar s).nodes[g]? = some (.nt hg cg)) (hhx : hx = hf ∨ hx = hg)
    (heq : (v.ar s).rank f = (v.ar s).rank g)
    (hn : Max.max ((v.ar s).rank f) ((v.ar s).rank g) ≤ n) :
    E.POk s (max ((v.ar s).rank f) ((v.ar s).rank g)) (Op2 R (v.ar s) (v.ar s) f g) ((v.ar s).Hits B f g)
      (branchS E.mkn rec s hx (cf.zip cg)) := by
  have wf := v.toWF s hs
  obtain ⟨hd, hh, hl, hr, -, -, hk⟩ := wf.nt lf nf
  obtain ⟨hd', hh', hl', hr', -, -, hk'⟩ := wf.nt lg ng
  have hlev : hd'.level = hd.level := by omega
  have hh1 : (E.ar s).headers[hf]? = some hd := by rw [← v.hdrs s hs]; exact hh
  have hh1' : (E.ar s).headers[hg]? = some hd' := by rw [← v.hdrs s hs]; exact hh'
  have har : hd'.edgeNum = hd.edgeNum := (E.toWF s hs).arity _ (List.mem_of_getElem? hh1') _
    (List.mem_of_getElem? hh1) hlev
  obtain ⟨hdx, hhx', hxl, hxe⟩ : ∃ hdx, (E.ar s).headers[hx]? = some hdx ∧ hdx.level = hd.level ∧
      hdx.edgeNum = hd.edgeNum := by
    rcases hhx with rfl | rfl
    · exact ⟨hd, hh1, rfl, rfl⟩
    · exact ⟨hd', hh1', hlev, har⟩
  have hmax : max ((v.ar s).rank f) ((v.ar s).rank g) = hdx.level + 1 := by omega
  rw [hmax]
  refine Eng.branch_pok hs hhx' (by rw [List.length_zip]; omega)
    (Φ := fun p => Op2 R (v.ar s) (v.ar s) p.1 p.2) (B := fun p => (v.ar s).Hits B p.1 p.2) ?_ ?_ ?_
  · rintro s1 ⟨c, d⟩ i1 p1 hc
    obtain ⟨hc1, hc2⟩ := List.of_mem_zip hc
    obtain ⟨h1, h2⟩ := hk c hc1
    obtain ⟨h3, h4⟩ := hk' d hc2
    have r1 := v.rank_st hs p1 h1
    have r2 := v.rank_st hs p1 h3
    have := ih s1 c d i1 (v.live_st p1 h1) (v.live_st p1 h3) (by omega)
    rw [r1, r2] at this
    exact this.mono (by omega) (fun a _ z hz => (v.op2_st v hs p1 h1 h3).1 hz)
      (fun h => h.back wf (v.toStep _ _ p1) h1 h3)
  · rintro j ⟨c, d⟩ a z hc ha hj hz x y hx hy
    rw [List.getElem?_zip_eq_some] at hc
    exact hz x y ((eval_child nf hh (by rw [← hxl]; exact hj) hc.1).1 hx)
      ((eval_child ng hh' (by rw [hlev, ← hxl]; exact hj) hc.2).1 hy)
  · rintro j ⟨c, d⟩ hc ⟨a, x, y, ha, hx, hy, hb⟩
    rw [List.getElem?_zip_eq_some] at hc
    have hj : j < hd.edgeNum := by rw [← hl]; exact (List.getElem?_eq_some_iff.1 hc.1).1
    obtain ⟨l1, r1⟩ := hk c (List.mem_of_getElem? hc.1)
    obtain ⟨l2, r2⟩ := hk' d (List.mem_of_getElem? hc.2)
    refine ⟨_, x, y, ValidA.update wf.arity ha (List.mem_of_getElem? hh) hj, ?_, ?_, hb⟩
    · rw [eval_child nf hh (j := j) (by simp) hc.1]
      exact wf.eval_congr l1 (fun l hl => by rw [if_neg (by omega)]) hx
    · rw [eval_child ng hh' (j := j) (by simp [hlev]) hc.2]
      exact wf.eval_congr l2 (fun l hl => by rw [if_neg (by omega)]) hy

/-- The three level arms. -/
theorem arms2_pok (ih : PRec2 v R B rec n)
    {s : S} (hs : E.Inv s) {f g hf hg hx : Nat} {cf cg : List Nat} (lf : (v.ar s).Live f)
    (lg : (v.ar s).Live g) (nf : (v.ar s).nodes[f]? = some (.nt hf cf))
    (ng : (v.ar s).nodes[g]? = some (.nt hg cg)) (hhx : hx = hf ∨ hx = hg)
    (hn : Max.max ((v.ar s).rank f) ((v.ar s).rank g) ≤ n) :
    E.POk s (max ((v.ar s).rank f) ((v.ar s).rank g)) (Op2 R (v.ar s) (v.ar s) f g) ((v.ar s).Hits B f g)
      (arms2 E.mkn rec s ((v.ar s).level? f) ((v.ar s).level? g) hx f hf cf g hg cg) := by
  obtain ⟨hd, hh, hl, hr, hlv, -, hk⟩ := (v.toWF s hs).nt lf nf
  obtain ⟨hd', hh', hl', hr', hlv', -, hk'⟩ := (v.toWF s hs).nt lg ng
  rw [hlv, hlv']
  unfold arms2
  simp only
  split
  · exact armL_pok ih hs lf lg nf (by omega) hn
  · split
    · exact armR_pok ih hs lf lg ng (by omega) hn
    · exact armE_pok ih hs lf lg nf ng hhx (by omega) hn

end View

end DD
