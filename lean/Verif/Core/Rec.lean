import Verif.Core.Sem

/-!
# Recursion over children

The apply-style operations of the fully reduced engines share one shape: split the operands on
their top level, recurse on the cofactors from left to right (threading the manager), and call
`create_node` on the results.  `mapS`, `branchS` and `arms2` model that shape; the engine files use
them for the corresponding match arms and cite the lines.
-/

set_option autoImplicit false
set_option linter.unusedSectionVars false

namespace DD

/-- `xs.iter().map(|x| self.op(x)).collect()` with the state threaded; `none` = panic. -/
def mapS {S α β : Type} (f : S → α → Option (β × S)) : S → List α → Option (List β × S)
  | s, [] => some ([], s)
  | s, x :: xs =>
    match f s x with
    | none => none
    | some (r, s1) =>
      match mapS f s1 xs with
      | none => none
      | some (rs, s2) => some (r :: rs, s2)

/-- Recurse on a list of argument tuples, then build a node with header `h`. -/
def branchS {S α : Type} (mk : S → Nat → List Nat → Option (Nat × S))
    (rec : S → α → Option (Nat × S)) (s : S) (h : Nat) (args : List α) : Option (Nat × S) :=
  match mapS rec s args with
  | none => none
  | some (rs, s1) => mk s1 h rs

/-- The three non-terminal/non-terminal arms of a binary operation: `level(f) > level(g)`,
`level(f) < level(g)`, equal levels (where `heq` is the header the code picks). -/
def arms2 {S : Type} (mk : S → Nat → List Nat → Option (Nat × S))
    (rec : S → Nat × Nat → Option (Nat × S)) (s : S) (lf lg : Option Nat) (heq : Nat)
    (f hf : Nat) (cf : List Nat) (g hg : Nat) (cg : List Nat) : Option (Nat × S) :=
  match lf, lg with
  | some lf, some lg =>
    if lf > lg then branchS mk rec s hf (cf.map (fun x => (x, g)))
    else if lf < lg then branchS mk rec s hg (cg.map (fun y => (f, y)))
    else branchS mk rec s heq (cf.zip cg)
  | _, _ => none

theorem mapS_spec {S α β : Type} {f : S → α → Option (β × S)} {Inv : S → Prop}
    {P : S → S → Prop} (Prefl : ∀ s, P s s) (Ptrans : ∀ a b c, P a b → P b c → P a c)
    {Q : S → α → β → Prop} (Qst : ∀ s s' x r, Inv s → P s s' → Q s x r → Q s' x r) :
    ∀ (l : List α) (s : S), Inv s →
      (∀ s1 x, Inv s1 → P s s1 → x ∈ l →
        ∃ r s2, f s1 x = some (r, s2) ∧ Inv s2 ∧ P s1 s2 ∧ Q s2 x r) →
      ∃ rs s', mapS f s l = some (rs, s') ∧ Inv s' ∧ P s s' ∧ rs.length = l.length ∧
        ∀ (j : Nat) (x : α) (r : β), l[j]? = some x → rs[j]? = some r → Q s' x r := by
  intro l
  induction l with
  | nil =>
    intro s hs _
    exact ⟨[], s, rfl, hs, Prefl s, rfl, by intro j x r h; simp at h⟩
  | cons x xs ih =>
    intro s hs hf
    obtain ⟨r, s1, h1, h2, h3, h4⟩ := hf s x hs (Prefl s) List.mem_cons_self
    obtain ⟨rs, s', h5, h6, h7, h8, h9⟩ := ih s1 h2 (fun s2 y i2 p2 hy =>
      hf s2 y i2 (Ptrans _ _ _ h3 p2) (List.mem_cons_of_mem _ hy))
    refine ⟨r :: rs, s', ?_, h6, Ptrans _ _ _ h3 h7, by simp [h8], ?_⟩
    · simp [mapS, h1, h5]
    · intro j y q hj hq
      cases j with
      | zero =>
        simp at hj hq
        subst hj hq
        exact Qst _ _ _ _ h2 h7 h4
      | succ j =>
        simp at hj hq
        exact h9 j y q hj hq

open Arena

/-- What the proofs need to know about an engine whose results live in a fully reduced forest. -/
structure Eng (S U : Type) [DecidableEq U] [Fixed U] where
  ar : S → Arena U
  Inv : S → Prop
  St : S → S → Prop
  mkn : S → Nat → List Nat → Option (Nat × S)
  refl : ∀ s, St s s
  trans : ∀ a b c, St a b → St b c → St a c
  toStep : ∀ a b, St a b → Step (ar a) (ar b)
  toWF : ∀ s, Inv s → WF RFull (ar s)
  mkOK : ∀ s h ch, Inv s → GoodKids (ar s) h ch →
    ∃ r s', mkn s h ch = some (r, s') ∧ Inv s' ∧ St s s' ∧
      (ar s).createFull h ch = some (r, ar s')

namespace Eng

variable {S U : Type} [DecidableEq U] [Fixed U] (E : Eng S U)

/-- Outcome of a computation that must produce a live node of rank at most `k` satisfying `Φ`. -/
def Ok (s : S) (k : Nat) (Φ : (Nat → Nat) → U → Prop) (res : Option (Nat × S)) : Prop :=
  ∃ r s', res = some (r, s') ∧ E.Inv s' ∧ E.St s s' ∧ (E.ar s').Live r ∧ (E.ar s').rank r ≤ k ∧
    (E.ar s').Sound Φ r

variable {E}

theorem Ok.mono {s : S} {k k' : Nat} {Φ Ψ : (Nat → Nat) → U → Prop} {res : Option (Nat × S)}
    (h : E.Ok s k Φ res) (hk : k ≤ k')
    (hΦ : ∀ a, (E.ar s).ValidA a → ∀ z, Φ a z → Ψ a z) : E.Ok s k' Ψ res := by
  obtain ⟨r, s', h1, h2, h3, h4, h5, h6⟩ := h
  refine ⟨r, s', h1, h2, h3, h4, by omega, fun a ha z hz => ?_⟩
  exact hΦ a ((ValidA.step (E.toStep _ _ h3)).1 ha) z (h6 a ha z hz)

/-- A node already present is an outcome. -/
theorem Ok.ret {s : S} (hs : E.Inv s) {k r : Nat} {Φ : (Nat → Nat) → U → Prop}
    (hl : (E.ar s).Live r) (hr : (E.ar s).rank r ≤ k) (h : (E.ar s).Sound Φ r) :
    E.Ok s k Φ (some (r, s)) := ⟨r, s, rfl, hs, E.refl s, hl, hr, h⟩

/-- Shannon expansion: results for the cofactors give a result for the node. -/
theorem branch_ok {α : Type} {rec : S → α → Option (Nat × S)} {s : S} (hs : E.Inv s)
    {h : Nat} {hd : Header} (hh : (E.ar s).headers[h]? = some hd) {args : List α}
    (hlen : args.length = hd.edgeNum) {Φ : α → (Nat → Nat) → U → Prop}
    {Ψ : (Nat → Nat) → U → Prop}
    (ih : ∀ s1 x, E.Inv s1 → E.St s s1 → x ∈ args → E.Ok s1 hd.level (Φ x) (rec s1 x))
    (hΨ : ∀ (j : Nat) (x : α) a z, args[j]? = some x → (E.ar s).ValidA a → a hd.level = j →
      Φ x a z → Ψ a z) :
    E.Ok s (hd.level + 1) Ψ (branchS E.mkn rec s h args) := by
  obtain ⟨rs, s1, h1, h2, h3, h4, h5⟩ := mapS_spec (f := rec) (Inv := E.Inv) (P := E.St)
    E.refl E.trans
    (Q := fun s x r => (E.ar s).Live r ∧ (E.ar s).rank r ≤ hd.level ∧ (E.ar s).Sound (Φ x) r)
    (by
      rintro s s' x r hi hp ⟨q1, q2, q3⟩
      have e := E.toStep _ _ hp
      have wf := E.toWF _ hi
      exact ⟨(e.keep r q1).1, by rw [wf.rank_ext e.toExt q1]; exact q2,
        wf.sound_ext e.toExt q1 q3⟩)
    args s hs
    (by
      intro s1 x i1 p1 hx
      obtain ⟨r, s2, g1, g2, g3, g4, g5, g6⟩ := ih s1 x i1 p1 hx
      exact ⟨r, s2, g1, g2, g3, g4, g5, g6⟩)
  have st1 := E.toStep _ _ h3
  have hh1 : (E.ar s1).headers[h]? = some hd := st1.hdr _ _ hh
  have hkids : ∀ c ∈ rs, (E.ar s1).Live c ∧ (E.ar s1).rank c ≤ hd.level := by
    intro c hc
    obtain ⟨j, hj⟩ := List.mem_iff_getElem?.1 hc
    have hjl : j < args.length := by rw [← h4]; exact (List.getElem?_eq_some_iff.1 hj).1
    have := h5 j _ c (List.getElem?_eq_getElem hjl) hj
    exact ⟨this.1, this.2.1⟩
  have hlen' : rs.length = hd.edgeNum := by rw [h4, hlen]
  obtain ⟨r, s2, g1, g2, g3, g4⟩ := E.mkOK s1 h rs h2 ⟨hd, hh1, hlen', hkids⟩
  obtain ⟨r', m', k1, k2, k3, k4, k5, k6⟩ := createFull_spec (E.toWF _ h2) hh1 hlen' hkids
  rw [g4] at k1
  cases k1
  refine ⟨r, s2, ?_, g2, E.trans _ _ _ h3 g3, k4, k5, ?_⟩
  · simp [branchS, h1, g1]
  · intro a ha z hz
    obtain ⟨c, hc, he⟩ := (k6 a z ha).1 hz
    have hcm := List.mem_of_getElem? hc
    have he1 : Eval (E.ar s1) a c z := ((E.toWF _ h2).eval_ext k3.toExt (hkids c hcm).1).1 he
    have hjl : a hd.level < args.length := by
      rw [← h4]; exact (List.getElem?_eq_some_iff.1 hc).1
    have hx := List.getElem?_eq_getElem hjl
    have hv1 : (E.ar s1).ValidA a := (ValidA.step k3).1 ha
    have := (h5 _ _ c hx hc).2.2 a hv1 z he1
    exact hΨ _ _ a z hx ((ValidA.step st1).1 hv1) rfl this

end Eng

/-! ## Cofactors -/

namespace Arena

variable {T : Type} [DecidableEq T] [Fixed T] {R : List Nat → Prop} {m : Arena T}

/-- Reading through a non-terminal at its own level. -/
theorem eval_child {i h : Nat} {ch : List Nat} {hd : Header} {a : Nat → Nat} {j c : Nat} {z : T}
    (hn : m.nodes[i]? = some (.nt h ch)) (hh : m.headers[h]? = some hd)
    (hj : a hd.level = j) (hc : ch[j]? = some c) : Eval m a i z ↔ Eval m a c z := by
  rw [eval_nt_iff hn hh, hj]
  constructor
  · rintro ⟨c', hc', he⟩; rw [hc] at hc'; cases hc'; exact he
  · intro he; exact ⟨c, hc, he⟩

end Arena

/-- Requirement on the result of a binary operation: relation `R` between the values read. -/
def Op2 {T1 T2 U : Type} (R : T1 → T2 → U → Prop) (m1 : Arena T1) (m2 : Arena T2) (f g : Nat)
    (a : Nat → Nat) (z : U) : Prop :=
  ∀ x y, Eval m1 a f x → Eval m2 a g y → R x y z

/-- Requirement on the result of a unary operation. -/
def Op1 {T1 U : Type} (R : T1 → U → Prop) (m1 : Arena T1) (f : Nat)
    (a : Nat → Nat) (z : U) : Prop :=
  ∀ x, Eval m1 a f x → R x z

/-- Requirement on the result of a ternary operation. -/
def Op3 {T1 T2 T3 U : Type} (R : T1 → T2 → T3 → U → Prop) (m1 : Arena T1) (m2 : Arena T2)
    (m3 : Arena T3) (f g h : Nat) (a : Nat → Nat) (z : U) : Prop :=
  ∀ x y w, Eval m1 a f x → Eval m2 a g y → Eval m3 a h w → R x y w z


/-- A forest in which operands live, seen from the engine `E`. -/
structure View {S U : Type} [DecidableEq U] [Fixed U] (E : Eng S U) (T : Type) [DecidableEq T]
    [Fixed T] where
  ar : S → Arena T
  R : List Nat → Prop
  toStep : ∀ a b, E.St a b → Step (ar a) (ar b)
  toWF : ∀ s, E.Inv s → WF R (ar s)
  hdrs : ∀ s, E.Inv s → (ar s).headers = (E.ar s).headers

/-- The result forest as operand forest. -/
def Eng.self {S U : Type} [DecidableEq U] [Fixed U] (E : Eng S U) : View E U where
  ar := E.ar
  R := RFull
  toStep := E.toStep
  toWF := E.toWF
  hdrs _ _ := rfl

namespace View

variable {S U T1 T2 : Type} [DecidableEq U] [Fixed U] [DecidableEq T1] [Fixed T1]
  [DecidableEq T2] [Fixed T2] {E : Eng S U}

theorem live_st (v : View E T1) {s s' : S} (h : E.St s s') {i : Nat} (hl : (v.ar s).Live i) :
    (v.ar s').Live i := ((v.toStep _ _ h).keep i hl).1

theorem rank_st (v : View E T1) {s s' : S} (hs : E.Inv s) (h : E.St s s') {i : Nat}
    (hl : (v.ar s).Live i) : (v.ar s').rank i = (v.ar s).rank i :=
  (v.toWF s hs).rank_ext (v.toStep _ _ h).toExt hl

theorem eval_st (v : View E T1) {s s' : S} (hs : E.Inv s) (h : E.St s s') {i : Nat}
    (hl : (v.ar s).Live i) {a : Nat → Nat} {z : T1} :
    Eval (v.ar s') a i z ↔ Eval (v.ar s) a i z :=
  (v.toWF s hs).eval_ext (v.toStep _ _ h).toExt hl

theorem op1_st (v : View E T1) {s s' : S} (hs : E.Inv s) (h : E.St s s')
    {R : T1 → U → Prop} {f : Nat} (hf : (v.ar s).Live f)
    {a : Nat → Nat} {z : U} :
    Op1 R (v.ar s') f a z ↔ Op1 R (v.ar s) f a z := by
  unfold Op1
  simp only [v.eval_st hs h hf]

theorem op2_st (v : View E T1) (w : View E T2) {s s' : S} (hs : E.Inv s) (h : E.St s s')
    {R : T1 → T2 → U → Prop} {f g : Nat} (hf : (v.ar s).Live f) (hg : (w.ar s).Live g)
    {a : Nat → Nat} {z : U} :
    Op2 R (v.ar s') (w.ar s') f g a z ↔ Op2 R (v.ar s) (w.ar s) f g a z := by
  unfold Op2
  simp only [v.eval_st hs h hf, w.eval_st hs h hg]

/-- Change the start state of an outcome. -/
theorem ok_st {s s1 : S} {k : Nat} {Φ : (Nat → Nat) → U → Prop} {res : Option (Nat × S)}
    (h : E.St s s1) (ok : E.Ok s1 k Φ res) : E.Ok s k Φ res := by
  obtain ⟨r, s', h1, h2, h3, h4⟩ := ok
  exact ⟨r, s', h1, h2, E.trans _ _ _ h h3, h4⟩

/-- Specification of the recursive calls of a unary operation below rank `n`. -/
def Rec1 (v : View E T1) (R : T1 → U → Prop)
    (rec : S → Nat → Option (Nat × S)) (n : Nat) : Prop :=
  ∀ s f, E.Inv s → (v.ar s).Live f → (v.ar s).rank f < n →
    E.Ok s ((v.ar s).rank f) (Op1 R (v.ar s) f) (rec s f)

/-- Specification of the recursive calls of a binary operation below rank sum `n`. -/
def Rec2 (v : View E T1) (w : View E T2) (R : T1 → T2 → U → Prop)
    (rec : S → Nat × Nat → Option (Nat × S)) (n : Nat) : Prop :=
  ∀ s f g, E.Inv s → (v.ar s).Live f → (w.ar s).Live g → Max.max ((v.ar s).rank f) ((w.ar s).rank g) < n →
    E.Ok s (max ((v.ar s).rank f) ((w.ar s).rank g)) (Op2 R (v.ar s) (w.ar s) f g) (rec s (f, g))

/-- Unary operation, non-terminal arm. -/
theorem arm1_ok (v : View E T1) {R : T1 → U → Prop} {rec : S → Nat → Option (Nat × S)} {n : Nat}
    (ih : Rec1 v R rec n) {s : S} (hs : E.Inv s) {f hf : Nat} {cf : List Nat}
    (lf : (v.ar s).Live f) (nf : (v.ar s).nodes[f]? = some (.nt hf cf))
    (hn : (v.ar s).rank f ≤ n) :
    E.Ok s ((v.ar s).rank f) (Op1 R (v.ar s) f) (branchS E.mkn rec s hf cf) := by
  obtain ⟨hd, hh, hl, hr, -, -, hk⟩ := (v.toWF s hs).nt lf nf
  have hh' : (E.ar s).headers[hf]? = some hd := by rw [← v.hdrs s hs]; exact hh
  rw [hr]
  refine Eng.branch_ok hs hh' hl (Φ := fun c => Op1 R (v.ar s) c) ?_ ?_
  · intro s1 c i1 p1 hc
    obtain ⟨h1, h2⟩ := hk c hc
    have := ih s1 c i1 (v.live_st p1 h1) (by rw [v.rank_st hs p1 h1]; omega)
    rw [v.rank_st hs p1 h1] at this
    exact this.mono h2 (fun a _ z hz => (v.op1_st hs p1 h1).1 hz)
  · intro j c a z hc ha hj hz x hx
    exact hz x ((eval_child nf hh hj hc).1 hx)

/-- Binary operation, arm that splits the left operand only. -/
theorem armL_ok (v : View E T1) (w : View E T2) {R : T1 → T2 → U → Prop}
    {rec : S → Nat × Nat → Option (Nat × S)} {n : Nat} (ih : Rec2 v w R rec n)
    {s : S} (hs : E.Inv s) {f g hf : Nat} {cf : List Nat} (lf : (v.ar s).Live f)
    (lg : (w.ar s).Live g) (nf : (v.ar s).nodes[f]? = some (.nt hf cf))
    (hlt : (w.ar s).rank g < (v.ar s).rank f)
    (hn : Max.max ((v.ar s).rank f) ((w.ar s).rank g) ≤ n) :
    E.Ok s (max ((v.ar s).rank f) ((w.ar s).rank g)) (Op2 R (v.ar s) (w.ar s) f g)
      (branchS E.mkn rec s hf (cf.map (fun x => (x, g)))) := by
  obtain ⟨hd, hh, hl, hr, -, -, hk⟩ := (v.toWF s hs).nt lf nf
  have hh' : (E.ar s).headers[hf]? = some hd := by rw [← v.hdrs s hs]; exact hh
  have hmax : max ((v.ar s).rank f) ((w.ar s).rank g) = hd.level + 1 := by omega
  rw [hmax]
  refine Eng.branch_ok hs hh' (by simpa using hl)
    (Φ := fun p => Op2 R (v.ar s) (w.ar s) p.1 p.2) ?_ ?_
  · rintro s1 ⟨c, g'⟩ i1 p1 hc
    obtain ⟨c', hc', he⟩ := List.mem_map.1 hc
    cases he
    obtain ⟨h1, h2⟩ := hk c hc'
    have r1 := v.rank_st hs p1 h1
    have r2 := w.rank_st hs p1 lg
    have := ih s1 c g i1 (v.live_st p1 h1) (w.live_st p1 lg) (by omega)
    rw [r1, r2] at this
    exact this.mono (by omega) (fun a _ z hz => (v.op2_st w hs p1 h1 lg).1 hz)
  · rintro j ⟨c, g'⟩ a z hc ha hj hz x y hx hy
    rw [List.getElem?_map] at hc
    cases hcj : cf[j]? with
    | none => rw [hcj] at hc; cases hc
    | some c' =>
      rw [hcj] at hc
      cases hc
      exact hz x y ((eval_child nf hh hj hcj).1 hx) hy

/-- Binary operation, arm that splits the right operand only. -/
theorem armR_ok (v : View E T1) (w : View E T2) {R : T1 → T2 → U → Prop}
    {rec : S → Nat × Nat → Option (Nat × S)} {n : Nat} (ih : Rec2 v w R rec n)
    {s : S} (hs : E.Inv s) {f g hg : Nat} {cg : List Nat} (lf : (v.ar s).Live f)
    (lg : (w.ar s).Live g) (ng : (w.ar s).nodes[g]? = some (.nt hg cg))
    (hlt : (v.ar s).rank f < (w.ar s).rank g)
    (hn : Max.max ((v.ar s).rank f) ((w.ar s).rank g) ≤ n) :
    E.Ok s (max ((v.ar s).rank f) ((w.ar s).rank g)) (Op2 R (v.ar s) (w.ar s) f g)
      (branchS E.mkn rec s hg (cg.map (fun y => (f, y)))) := by
  obtain ⟨hd, hh, hl, hr, -, -, hk⟩ := (w.toWF s hs).nt lg ng
  have hh' : (E.ar s).headers[hg]? = some hd := by rw [← w.hdrs s hs]; exact hh
  have hmax : max ((v.ar s).rank f) ((w.ar s).rank g) = hd.level + 1 := by omega
  rw [hmax]
  refine Eng.branch_ok hs hh' (by simpa using hl)
    (Φ := fun p => Op2 R (v.ar s) (w.ar s) p.1 p.2) ?_ ?_
  · rintro s1 ⟨f', c⟩ i1 p1 hc
    obtain ⟨c', hc', he⟩ := List.mem_map.1 hc
    cases he
    obtain ⟨h1, h2⟩ := hk c hc'
    have r1 := v.rank_st hs p1 lf
    have r2 := w.rank_st hs p1 h1
    have := ih s1 f c i1 (v.live_st p1 lf) (w.live_st p1 h1) (by omega)
    rw [r1, r2] at this
    exact this.mono (by omega) (fun a _ z hz => (v.op2_st w hs p1 lf h1).1 hz)
  · rintro j ⟨f', c⟩ a z hc ha hj hz x y hx hy
    rw [List.getElem?_map] at hc
    cases hcj : cg[j]? with
    | none => rw [hcj] at hc; cases hc
    | some c' =>
      rw [hcj] at hc
      cases hc
      exact hz x y hx ((eval_child ng hh hj hcj).1 hy)

/-- Binary operation, arm for equal levels. -/
theorem armE_ok (v : View E T1) (w : View E T2) {R : T1 → T2 → U → Prop}
    {rec : S → Nat × Nat → Option (Nat × S)} {n : Nat} (ih : Rec2 v w R rec n)
    {s : S} (hs : E.Inv s) {f g hf hg hx : Nat} {cf cg : List Nat} (lf : (v.ar s).Live f)
    (lg : (w.ar s).Live g) (nf : (v.ar s).nodes[f]? = some (.nt hf cf))
    (ng : (w.ar s).nodes[g]? = some (.nt hg cg)) (hhx : hx = hf ∨ hx = hg)
    (heq : (v.ar s).rank f = (w.ar s).rank g)
    (hn : Max.max ((v.ar s).rank f) ((w.ar s).rank g) ≤ n) :
    E.Ok s (max ((v.ar s).rank f) ((w.ar s).rank g)) (Op2 R (v.ar s) (w.ar s) f g)
      (branchS E.mkn rec s hx (cf.zip cg)) := by
  obtain ⟨hd, hh, hl, hr, -, -, hk⟩ := (v.toWF s hs).nt lf nf
  obtain ⟨hd', hh', hl', hr', -, -, hk'⟩ := (w.toWF s hs).nt lg ng
  have hlev : hd'.level = hd.level := by omega
  have hh1 : (E.ar s).headers[hf]? = some hd := by rw [← v.hdrs s hs]; exact hh
  have hh1' : (E.ar s).headers[hg]? = some hd' := by rw [← w.hdrs s hs]; exact hh'
  have har : hd'.edgeNum = hd.edgeNum := (E.toWF s hs).arity _ (List.mem_of_getElem? hh1') _
    (List.mem_of_getElem? hh1) hlev
  obtain ⟨hdx, hhx', hxl, hxe⟩ : ∃ hdx, (E.ar s).headers[hx]? = some hdx ∧ hdx.level = hd.level ∧
      hdx.edgeNum = hd.edgeNum := by
    rcases hhx with rfl | rfl
    · exact ⟨hd, hh1, rfl, rfl⟩
    · exact ⟨hd', hh1', hlev, har⟩
  have hmax : max ((v.ar s).rank f) ((w.ar s).rank g) = hdx.level + 1 := by omega
  rw [hmax]
  refine Eng.branch_ok hs hhx' (by rw [List.length_zip]; omega)
    (Φ := fun p => Op2 R (v.ar s) (w.ar s) p.1 p.2) ?_ ?_
  · rintro s1 ⟨c, d⟩ i1 p1 hc
    obtain ⟨hc1, hc2⟩ := List.of_mem_zip hc
    obtain ⟨h1, h2⟩ := hk c hc1
    obtain ⟨h3, h4⟩ := hk' d hc2
    have r1 := v.rank_st hs p1 h1
    have r2 := w.rank_st hs p1 h3
    have := ih s1 c d i1 (v.live_st p1 h1) (w.live_st p1 h3) (by omega)
    rw [r1, r2] at this
    exact this.mono (by omega) (fun a _ z hz => (v.op2_st w hs p1 h1 h3).1 hz)
  · rintro j ⟨c, d⟩ a z hc ha hj hz x y hx hy
    rw [List.getElem?_zip_eq_some] at hc
    exact hz x y ((eval_child nf hh (by rw [← hxl]; exact hj) hc.1).1 hx)
      ((eval_child ng hh' (by rw [hlev, ← hxl]; exact hj) hc.2).1 hy)

/-- The three level arms of a binary operation. -/
theorem arms2_ok (v : View E T1) (w : View E T2) {R : T1 → T2 → U → Prop}
    {rec : S → Nat × Nat → Option (Nat × S)} {n : Nat} (ih : Rec2 v w R rec n)
    {s : S} (hs : E.Inv s) {f g hf hg hx : Nat} {cf cg : List Nat} (lf : (v.ar s).Live f)
    (lg : (w.ar s).Live g) (nf : (v.ar s).nodes[f]? = some (.nt hf cf))
    (ng : (w.ar s).nodes[g]? = some (.nt hg cg)) (hhx : hx = hf ∨ hx = hg)
    (hn : Max.max ((v.ar s).rank f) ((w.ar s).rank g) ≤ n) :
    E.Ok s (max ((v.ar s).rank f) ((w.ar s).rank g)) (Op2 R (v.ar s) (w.ar s) f g)
      (arms2 E.mkn rec s ((v.ar s).level? f) ((w.ar s).level? g) hx f hf cf g hg cg) := by
  obtain ⟨hd, hh, hl, hr, hlv, -, hk⟩ := (v.toWF s hs).nt lf nf
  obtain ⟨hd', hh', hl', hr', hlv', -, hk'⟩ := (w.toWF s hs).nt lg ng
  rw [hlv, hlv']
  unfold arms2
  simp only
  split
  · exact armL_ok v w ih hs lf lg nf (by omega) hn
  · split
    · exact armR_ok v w ih hs lf lg ng (by omega) hn
    · exact armE_ok v w ih hs lf lg nf ng hhx (by omega) hn

end View

end DD
