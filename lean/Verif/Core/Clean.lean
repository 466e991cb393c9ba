import Verif.Core.PRec
import Verif.Core.Gc

/-!
# Operations leave no garbage

`Clean m m' r`: every node of `m'` was a node of `m` or belongs to the diagram of `r`.
-/

set_option autoImplicit false
set_option linter.unusedSectionVars false
set_option linter.unusedVariables false

namespace DD
namespace Arena
variable {T : Type} [DecidableEq T] [Fixed T] {R : List Nat → Prop} {m m' : Arena T}

/-- Every slot in use in `m'` was in use in `m` or belongs to the diagram of `r`. -/
def Clean (m m' : Arena T) (r : Nat) : Prop := ∀ j, m'.Live j → m.Live j ∨ Reach m' r j

omit [DecidableEq T] [Fixed T] in
theorem Clean.refl (m : Arena T) (r : Nat) : Clean m m r := fun _ h => .inl h

theorem WF.reach_ext (wf : WF R m) (e : Ext m m') {i j : Nat} (hi : m.Live i) (h : Reach m i j) : Reach m' i j := by
  induction h with
  | refl => exact .refl _
  | step h1 hn hc ih =>
    exact .step ih (by rw [(e.keep _ (wf.reach_live h1 hi)).2]; exact hn) hc

theorem WF.reach_back (wf : WF R m) (e : Ext m m') {i j : Nat} (hi : m.Live i) (h : Reach m' i j) : Reach m i j := by
  induction h with
  | refl => exact .refl _
  | step h1 hn hc ih =>
    exact .step ih (by rw [← (e.keep _ (wf.reach_live ih hi)).2]; exact hn) hc

/-- Node creation adds at most the node that it returns. -/
theorem WF.mkNode_new (wf : WF R m) {k : Node T} {i : Nat} (h : m.mkNode k = some (i, m')) :
    ∀ j, m'.Live j → m.Live j ∨ j = i := by
  intro j hj
  unfold mkNode at h
  split at h
  · cases h; exact .inl hj
  · obtain ⟨i1, m1, h1, _, _, _, _, _, _, _, h2⟩ := alloc_spec wf.free_lt wf.free_nodup k
    rw [h1] at h
    cases h
    by_cases e : j = i
    · exact .inr e
    · exact .inl ((h2 j e).1.1 hj)

theorem WF.createFull_new (wf : WF R m) {h : Nat} {ch : List Nat} {i : Nat} (hc : m.createFull h ch = some (i, m')) :
    ∀ j, m'.Live j → m.Live j ∨ j = i := by
  unfold createFull at hc
  split at hc
  · exact wf.mkNode_new hc
  · split at hc
    · cases hc; exact fun j hj => .inl hj
    · exact wf.mkNode_new hc

end Arena

namespace Eng
open Arena
variable {S U : Type} [DecidableEq U] [Fixed U] {E : Eng S U}

/-- What is known about a recursive call that returned. -/
structure Ret (E : Eng S U) (s : S) (k r : Nat) (s' : S) : Prop where
  inv : E.Inv s'
  st : E.St s s'
  live : (E.ar s').Live r
  rank : (E.ar s').rank r ≤ k
  clean : Clean (E.ar s) (E.ar s') r

theorem Ok.facts {s : S} {k : Nat} {Φ : (Nat → Nat) → U → Prop} {res : Option (Nat × S)} (h : E.Ok s k Φ res)
    {r : Nat} {s' : S} (hr : res = some (r, s')) : E.Inv s' ∧ E.St s s' ∧ (E.ar s').Live r ∧ (E.ar s').rank r ≤ k := by
  obtain ⟨r1, s1, h1, h2, h3, h4, h5, _⟩ := h
  rw [h1] at hr
  cases hr
  exact ⟨h2, h3, h4, h5⟩

theorem POk.facts {s : S} {k : Nat} {Φ : (Nat → Nat) → U → Prop} {B : Prop} {res : Option (Nat × S)}
    (h : E.POk s k Φ B res) {r : Nat} {s' : S} (hr : res = some (r, s')) :
    E.Inv s' ∧ E.St s s' ∧ (E.ar s').Live r ∧ (E.ar s').rank r ≤ k := by
  rcases h with ⟨h, _⟩ | h
  · rw [h] at hr; cases hr
  · exact h.facts hr

theorem mapS_clean {α : Type} {rec : S → α → Option (Nat × S)} {k : Nat} : ∀ (l : List α) (s : S), E.Inv s →
    (∀ s1 x r s2, E.Inv s1 → E.St s s1 → x ∈ l → rec s1 x = some (r, s2) → E.Ret s1 k r s2) →
    ∀ rs s', mapS rec s l = some (rs, s') → E.Inv s' ∧ E.St s s' ∧ rs.length = l.length ∧
      (∀ c ∈ rs, (E.ar s').Live c ∧ (E.ar s').rank c ≤ k) ∧
      ∀ j, (E.ar s').Live j → (E.ar s).Live j ∨ ∃ c ∈ rs, Reach (E.ar s') c j := by
  intro l
  induction l with
  | nil =>
    intro s hs _ rs s' h
    cases h
    exact ⟨hs, E.refl s, rfl, by simp, fun j hj => .inl hj⟩
  | cons x xs ih =>
    intro s hs hrec rs s' h
    unfold mapS at h
    split at h
    · cases h
    · rename_i r s1 h1
      have q := hrec s x r s1 hs (E.refl s) List.mem_cons_self h1
      split at h
      · cases h
      · rename_i rs' s2 h2
        cases h
        obtain ⟨a1, a2, a3, a4, a5⟩ := ih s1 q.inv
          (fun s3 y r3 s4 i3 p3 hy => hrec s3 y r3 s4 i3 (E.trans _ _ _ q.st p3) (List.mem_cons_of_mem _ hy)) rs' s' h2
        have e := (E.toStep _ _ a2).toExt
        have wf := E.toWF _ q.inv
        refine ⟨a1, E.trans _ _ _ q.st a2, by simp [a3], ?_, ?_⟩
        · intro c hc
          rcases List.mem_cons.1 hc with rfl | hc
          · exact ⟨(e.keep _ q.live).1, by rw [wf.rank_ext e q.live]; exact q.rank⟩
          · exact a4 c hc
        · intro j hj
          rcases a5 j hj with hj | ⟨c, hc, hj⟩
          · rcases q.clean j hj with hj | hj
            · exact .inl hj
            · exact .inr ⟨r, List.mem_cons_self, wf.reach_ext e q.live hj⟩
          · exact .inr ⟨c, List.mem_cons_of_mem _ hc, hj⟩

theorem branch_clean {α : Type} {rec : S → α → Option (Nat × S)} {s : S} (hs : E.Inv s) {h : Nat} {hd : Header}
    (hh : (E.ar s).headers[h]? = some hd) {args : List α} (hlen : args.length = hd.edgeNum)
    (ih : ∀ s1 x r s2, E.Inv s1 → E.St s s1 → x ∈ args → rec s1 x = some (r, s2) → E.Ret s1 hd.level r s2)
    {r : Nat} {s' : S} (hr : branchS E.mkn rec s h args = some (r, s')) : Clean (E.ar s) (E.ar s') r := by
  unfold branchS at hr
  split at hr
  · cases hr
  · rename_i rs s1 h1
    obtain ⟨a1, a2, a3, a4, a5⟩ := mapS_clean args s hs ih rs s1 h1
    have hh1 : (E.ar s1).headers[h]? = some hd := (E.toStep _ _ a2).hdr _ _ hh
    have g : GoodKids (E.ar s1) h rs := ⟨hd, hh1, by rw [a3, hlen], a4⟩
    obtain ⟨r', s2, b1, b2, b3, b4⟩ := E.mkOK s1 h rs a1 g
    rw [hr] at b1
    cases b1
    have wf := E.toWF _ a1
    obtain ⟨r', m', c1, c2, c3, c4, c5, _⟩ := createFull_raw wf g
    rw [b4] at c1
    cases c1
    intro j hj
    rcases wf.createFull_new b4 j hj with hj | rfl
    · rcases a5 j hj with hj | ⟨c, hc, hj⟩
      · exact .inl hj
      · right
        have hj' := wf.reach_ext c3.toExt (a4 c hc).1 hj
        rcases c5 with ⟨e1, _, _⟩ | ⟨_, e2⟩
        · rw [← e1 c hc]; exact hj'
        · exact ((Reach.refl r).step e2 hc).trans hj'
    · exact .inr (.refl _)

theorem memo_clean {get : S → Option Nat} {put : S → Nat → S} {body : S → Option (Nat × S)} {s s' : S} {r : Nat}
    (hr : memo get put body s = some (r, s')) (hput : ∀ s r, E.ar (put s r) = E.ar s)
    (hb : ∀ r s', body s = some (r, s') → Clean (E.ar s) (E.ar s') r) : Clean (E.ar s) (E.ar s') r := by
  unfold memo at hr
  split at hr
  · cases hr; exact Clean.refl _ _
  · split at hr
    · cases hr
    · rename_i x s1 h1
      cases hr
      rw [hput]
      exact hb _ _ h1

end Eng

namespace View
open Arena
variable {S U T1 T2 T3 : Type} [DecidableEq U] [Fixed U] [DecidableEq T1] [Fixed T1]
  [DecidableEq T2] [Fixed T2] [DecidableEq T3] [Fixed T3] {E : Eng S U}

/-- The recursive calls of a unary operation that return. -/
def Cl1 (v : View E T1) (rec : S → Nat → Option (Nat × S)) (n : Nat) : Prop :=
  ∀ s f r s', E.Inv s → (v.ar s).Live f → (v.ar s).rank f < n → rec s f = some (r, s') →
    E.Ret s ((v.ar s).rank f) r s'

/-- The recursive calls of a binary operation that return. -/
def Cl2 (v : View E T1) (w : View E T2) (rec : S → Nat × Nat → Option (Nat × S)) (n : Nat) : Prop :=
  ∀ s f g r s', E.Inv s → (v.ar s).Live f → (w.ar s).Live g → Max.max ((v.ar s).rank f) ((w.ar s).rank g) < n →
    rec s (f, g) = some (r, s') → E.Ret s (max ((v.ar s).rank f) ((w.ar s).rank g)) r s'

/-- The recursive calls of a ternary operation that return. -/
def Cl3 (v : View E T1) (w : View E T2) (u : View E T3) (rec : S → Nat × Nat × Nat → Option (Nat × S)) (n : Nat) :
    Prop :=
  ∀ s f g h r s', E.Inv s → (v.ar s).Live f → (w.ar s).Live g → (u.ar s).Live h →
    Max.max ((v.ar s).rank f) (Max.max ((w.ar s).rank g) ((u.ar s).rank h)) < n → rec s (f, g, h) = some (r, s') →
    E.Ret s (max ((v.ar s).rank f) (max ((w.ar s).rank g) ((u.ar s).rank h))) r s'

theorem Ret.mono {s s' : S} {k k' r : Nat} (h : E.Ret s k r s') (hk : k ≤ k') : E.Ret s k' r s' :=
  ⟨h.inv, h.st, h.live, Nat.le_trans h.rank hk, h.clean⟩

theorem arm1_clean (v : View E T1) {rec : S → Nat → Option (Nat × S)} {n : Nat} (ih : Cl1 v rec n) {s : S}
    (hs : E.Inv s) {f hf : Nat} {cf : List Nat} (lf : (v.ar s).Live f) (nf : (v.ar s).nodes[f]? = some (.nt hf cf))
    (hn : (v.ar s).rank f ≤ n) {r : Nat} {s' : S} (hr : branchS E.mkn rec s hf cf = some (r, s')) :
    Clean (E.ar s) (E.ar s') r := by
  obtain ⟨hd, hh, hl, hrk, -, -, hk⟩ := (v.toWF s hs).nt lf nf
  have hh' : (E.ar s).headers[hf]? = some hd := by rw [← v.hdrs s hs]; exact hh
  refine Eng.branch_clean hs hh' hl ?_ hr
  intro s1 c r s2 i1 p1 hc h2
  obtain ⟨h1, h2'⟩ := hk c hc
  have e := v.rank_st hs p1 h1
  exact Ret.mono (ih s1 c r s2 i1 (v.live_st p1 h1) (by omega) h2) (by omega)

theorem armL_clean (v : View E T1) (w : View E T2) {rec : S → Nat × Nat → Option (Nat × S)} {n : Nat}
    (ih : Cl2 v w rec n) {s : S} (hs : E.Inv s) {f g hf : Nat} {cf : List Nat} (lf : (v.ar s).Live f)
    (lg : (w.ar s).Live g) (nf : (v.ar s).nodes[f]? = some (.nt hf cf)) (hlt : (w.ar s).rank g < (v.ar s).rank f)
    (hn : Max.max ((v.ar s).rank f) ((w.ar s).rank g) ≤ n) {r : Nat} {s' : S}
    (hr : branchS E.mkn rec s hf (cf.map (fun x => (x, g))) = some (r, s')) : Clean (E.ar s) (E.ar s') r := by
  obtain ⟨hd, hh, hl, hrk, -, -, hk⟩ := (v.toWF s hs).nt lf nf
  have hh' : (E.ar s).headers[hf]? = some hd := by rw [← v.hdrs s hs]; exact hh
  refine Eng.branch_clean hs hh' (by simpa using hl) ?_ hr
  rintro s1 ⟨c, g'⟩ r s2 i1 p1 hc h2
  obtain ⟨c', hc', he⟩ := List.mem_map.1 hc
  cases he
  obtain ⟨h1, h2'⟩ := hk c hc'
  have e := v.rank_st hs p1 h1
  have e' := w.rank_st hs p1 lg
  exact Ret.mono (ih s1 c g r s2 i1 (v.live_st p1 h1) (w.live_st p1 lg) (by omega) h2) (by omega)

theorem armR_clean (v : View E T1) (w : View E T2) {rec : S → Nat × Nat → Option (Nat × S)} {n : Nat}
    (ih : Cl2 v w rec n) {s : S} (hs : E.Inv s) {f g hg : Nat} {cg : List Nat} (lf : (v.ar s).Live f)
    (lg : (w.ar s).Live g) (ng : (w.ar s).nodes[g]? = some (.nt hg cg)) (hlt : (v.ar s).rank f < (w.ar s).rank g)
    (hn : Max.max ((v.ar s).rank f) ((w.ar s).rank g) ≤ n) {r : Nat} {s' : S}
    (hr : branchS E.mkn rec s hg (cg.map (fun y => (f, y))) = some (r, s')) : Clean (E.ar s) (E.ar s') r := by
  obtain ⟨hd, hh, hl, hrk, -, -, hk⟩ := (w.toWF s hs).nt lg ng
  have hh' : (E.ar s).headers[hg]? = some hd := by rw [← w.hdrs s hs]; exact hh
  refine Eng.branch_clean hs hh' (by simpa using hl) ?_ hr
  rintro s1 ⟨f', c⟩ r s2 i1 p1 hc h2
  obtain ⟨c', hc', he⟩ := List.mem_map.1 hc
  cases he
  obtain ⟨h1, h2'⟩ := hk c hc'
  have e := v.rank_st hs p1 lf
  have e' := w.rank_st hs p1 h1
  exact Ret.mono (ih s1 f c r s2 i1 (v.live_st p1 lf) (w.live_st p1 h1) (by omega) h2) (by omega)

theorem armE_clean (v : View E T1) (w : View E T2) {rec : S → Nat × Nat → Option (Nat × S)} {n : Nat}
    (ih : Cl2 v w rec n) {s : S} (hs : E.Inv s) {f g hf hg he : Nat} {cf cg : List Nat} (lf : (v.ar s).Live f)
    (lg : (w.ar s).Live g) (nf : (v.ar s).nodes[f]? = some (.nt hf cf)) (ng : (w.ar s).nodes[g]? = some (.nt hg cg))
    (heq : (v.ar s).rank f = (w.ar s).rank g) (hhe : he = hf ∨ he = hg)
    (hn : Max.max ((v.ar s).rank f) ((w.ar s).rank g) ≤ n) {r : Nat} {s' : S}
    (hr : branchS E.mkn rec s he (cf.zip cg) = some (r, s')) : Clean (E.ar s) (E.ar s') r := by
  obtain ⟨hd, hh, hl, hrk, -, -, hk⟩ := (v.toWF s hs).nt lf nf
  obtain ⟨hd2, hh2, hl2, hrk2, -, -, hk2⟩ := (w.toWF s hs).nt lg ng
  have hh' : (E.ar s).headers[hf]? = some hd := by rw [← v.hdrs s hs]; exact hh
  have hh2' : (E.ar s).headers[hg]? = some hd2 := by rw [← w.hdrs s hs]; exact hh2
  have har : hd.edgeNum = hd2.edgeNum :=
    (E.toWF s hs).arity _ (List.mem_of_getElem? hh') _ (List.mem_of_getElem? hh2') (by omega)
  have hz : (cf.zip cg).length = hd.edgeNum := by simp [hl, hl2, har]
  have body : ∀ k, k = hd.level → ∀ s1 (x : Nat × Nat) r s2, E.Inv s1 → E.St s s1 → x ∈ cf.zip cg →
      rec s1 x = some (r, s2) → E.Ret s1 k r s2 := by
    rintro k rfl s1 ⟨c, d⟩ r s2 i1 p1 hc h2
    obtain ⟨hc1, hc2⟩ := List.of_mem_zip hc
    obtain ⟨h1, h1'⟩ := hk c hc1
    obtain ⟨h3, h3'⟩ := hk2 d hc2
    have e := v.rank_st hs p1 h1
    have e' := w.rank_st hs p1 h3
    exact Ret.mono (ih s1 c d r s2 i1 (v.live_st p1 h1) (w.live_st p1 h3) (by omega) h2) (by omega)
  rcases hhe with rfl | rfl
  · exact Eng.branch_clean hs hh' hz (body _ rfl) hr
  · exact Eng.branch_clean hs hh2' (by rw [hz, har]) (body _ (by omega)) hr

theorem arms2_clean (v : View E T1) (w : View E T2) {rec : S → Nat × Nat → Option (Nat × S)} {n : Nat}
    (ih : Cl2 v w rec n) {s : S} (hs : E.Inv s) {f g hf hg he : Nat} {cf cg : List Nat} (lf : (v.ar s).Live f)
    (lg : (w.ar s).Live g) (nf : (v.ar s).nodes[f]? = some (.nt hf cf)) (ng : (w.ar s).nodes[g]? = some (.nt hg cg))
    (hhe : he = hf ∨ he = hg) (hn : Max.max ((v.ar s).rank f) ((w.ar s).rank g) ≤ n) {r : Nat} {s' : S}
    (hr : arms2 E.mkn rec s ((v.ar s).level? f) ((w.ar s).level? g) he f hf cf g hg cg = some (r, s')) :
    Clean (E.ar s) (E.ar s') r := by
  obtain ⟨hd, hh, _, hrk, hlv, -, _⟩ := (v.toWF s hs).nt lf nf
  obtain ⟨hd2, hh2, _, hrk2, hlv2, -, _⟩ := (w.toWF s hs).nt lg ng
  rw [hlv, hlv2] at hr
  unfold arms2 at hr
  simp only at hr
  split at hr
  · exact armL_clean v w ih hs lf lg nf (by omega) hn hr
  · split at hr
    · exact armR_clean v w ih hs lf lg ng (by omega) hn hr
    · exact armE_clean v w ih hs lf lg nf ng (by omega) hhe hn hr

theorem arm3_clean (v : View E T1) (w : View E T2) (u : View E T3)
    {rec : S → Nat × Nat × Nat → Option (Nat × S)} {n : Nat} (ih : Cl3 v w u rec n)
    {s : S} (hs : E.Inv s) {f g h top hx : Nat} {hd : Header} (lf : (v.ar s).Live f)
    (lg : (w.ar s).Live g) (lh : (u.ar s).Live h)
    (hhx : (E.ar s).headers[hx]? = some hd) (htop : hd.level = top)
    (rf : (v.ar s).rank f ≤ top + 1) (rg : (w.ar s).rank g ≤ top + 1)
    (rh : (u.ar s).rank h ≤ top + 1)
    (hsome : (v.ar s).rank f = top + 1 ∨ (w.ar s).rank g = top + 1 ∨ (u.ar s).rank h = top + 1)
    (hn : Max.max ((v.ar s).rank f) (Max.max ((w.ar s).rank g) ((u.ar s).rank h)) ≤ n) {r : Nat} {s' : S}
    (hr : branchS E.mkn rec s hx (zip3 ((v.ar s).cofactor f top hd.edgeNum)
        ((w.ar s).cofactor g top hd.edgeNum) ((u.ar s).cofactor h top hd.edgeNum)) = some (r, s')) :
    Clean (E.ar s) (E.ar s') r := by
  have hm := List.mem_of_getElem? hhx
  obtain ⟨l1, c1⟩ := (v.toWF s hs).cofactor_spec (k := hd.edgeNum) lf rf
    (by rw [v.hdrs s hs]; exact hm) htop rfl
  obtain ⟨l2, c2⟩ := (w.toWF s hs).cofactor_spec (k := hd.edgeNum) lg rg
    (by rw [w.hdrs s hs]; exact hm) htop rfl
  obtain ⟨l3, c3⟩ := (u.toWF s hs).cofactor_spec (k := hd.edgeNum) lh rh
    (by rw [u.hdrs s hs]; exact hm) htop rfl
  refine Eng.branch_clean hs hhx (zip3_length l1 l2 l3) ?_ hr
  rintro s1 ⟨x, y, z⟩ r s2 i1 p1 hc h2
  obtain ⟨j, hj⟩ := List.mem_iff_getElem?.1 hc
  obtain ⟨j1, j2, j3⟩ := zip3_getElem?.1 hj
  obtain ⟨a1, a2, a3, -⟩ := c1 j x j1
  obtain ⟨b1, b2, b3, -⟩ := c2 j y j2
  obtain ⟨d1, d2, d3, -⟩ := c3 j z j3
  have r1 := v.rank_st hs p1 a1
  have r2 := w.rank_st hs p1 b1
  have r3 := u.rank_st hs p1 d1
  exact Ret.mono (ih s1 x y z r s2 i1 (v.live_st p1 a1) (w.live_st p1 b1) (u.live_st p1 d1) (by omega) h2) (by omega)

/-- From the meaning theorem and cleanness. -/
theorem Cl1.of_ok (v : View E T1) {R : T1 → U → Prop} {rec : S → Nat → Option (Nat × S)} {n : Nat}
    (h : Rec1 v R rec n) (c : ∀ s f r s', E.Inv s → (v.ar s).Live f → (v.ar s).rank f < n → rec s f = some (r, s') →
      Clean (E.ar s) (E.ar s') r) : Cl1 v rec n := by
  intro s f r s' hs lf hn hr
  obtain ⟨h1, h2, h3, h4⟩ := (h s f hs lf hn).facts hr
  exact ⟨h1, h2, h3, h4, c s f r s' hs lf hn hr⟩

@[inherit_doc Cl1.of_ok]
theorem Cl2.of_ok (v : View E T1) (w : View E T2) {R : T1 → T2 → U → Prop}
    {rec : S → Nat × Nat → Option (Nat × S)} {n : Nat} (h : Rec2 v w R rec n)
    (c : ∀ s f g r s', E.Inv s → (v.ar s).Live f → (w.ar s).Live g → Max.max ((v.ar s).rank f) ((w.ar s).rank g) < n →
      rec s (f, g) = some (r, s') → Clean (E.ar s) (E.ar s') r) : Cl2 v w rec n := by
  intro s f g r s' hs lf lg hn hr
  obtain ⟨h1, h2, h3, h4⟩ := (h s f g hs lf lg hn).facts hr
  exact ⟨h1, h2, h3, h4, c s f g r s' hs lf lg hn hr⟩

@[inherit_doc Cl1.of_ok]
theorem Cl3.of_ok (v : View E T1) (w : View E T2) (u : View E T3) {R : T1 → T2 → T3 → U → Prop}
    {rec : S → Nat × Nat × Nat → Option (Nat × S)} {n : Nat} (h : Rec3 v w u R rec n)
    (c : ∀ s f g k r s', E.Inv s → (v.ar s).Live f → (w.ar s).Live g → (u.ar s).Live k →
      Max.max ((v.ar s).rank f) (Max.max ((w.ar s).rank g) ((u.ar s).rank k)) < n →
      rec s (f, g, k) = some (r, s') → Clean (E.ar s) (E.ar s') r) : Cl3 v w u rec n := by
  intro s f g k r s' hs lf lg lk hn hr
  obtain ⟨h1, h2, h3, h4⟩ := (h s f g k hs lf lg lk hn).facts hr
  exact ⟨h1, h2, h3, h4, c s f g k r s' hs lf lg lk hn hr⟩

end View
end DD
