import Verif.Bss.AnalysisOk
import Mathlib.Tactic.LinearCombination
import Mathlib.Data.List.Perm.Subperm

/-!
# Correctness of the Birnbaum measure
-/

set_option autoImplicit false
set_option linter.unusedSectionVars false
set_option linter.unusedVariables false

namespace DD
open Arena
namespace Bdd

/-! ## Topological sort -/

/-- Each node comes before its children, and no node comes twice. -/
inductive Topo {T : Type} (m : Arena T) : List Nat → Prop
  | nil : Topo m []
  | cons {j : Nat} {l : List Nat} : j ∉ l → (∀ n, m.nodes[j]? = some n → ∀ c ∈ n.kids, c ∈ l) →
      Topo m l → Topo m (j :: l)

theorem Topo.nodup {T : Type} {m : Arena T} {l : List Nat} (h : Topo m l) : l.Nodup := by
  induction h with
  | nil => exact List.nodup_nil
  | cons h1 _ _ ih => exact List.nodup_cons.2 ⟨h1, ih⟩

theorem Topo.kids {T : Type} {m : Arena T} {l : List Nat} (h : Topo m l) {j : Nat} (hj : j ∈ l) {n : Node T}
    (hn : m.nodes[j]? = some n) : ∀ c ∈ n.kids, c ∈ l := by
  induction h with
  | nil => cases hj
  | cons h1 h2 _ ih =>
    intro c hc
    rcases List.mem_cons.1 hj with rfl | hj
    · exact List.mem_cons_of_mem _ (h2 n hn c hc)
    · exact List.mem_cons_of_mem _ (ih hj c hc)

theorem Topo.closed {T : Type} {m : Arena T} {l : List Nat} (h : Topo m l) {i j : Nat} (hi : i ∈ l)
    (hr : Reach m i j) : j ∈ l := by
  induction hr with
  | refl => exact hi
  | step _ hn hc ih => exact h.kids ih hn _ hc

/-- State of the search: the result is the set of Persistent nodes, sorted; Temporary nodes have rank
above `k`. -/
structure DfsOK (m : Arena T3) (d : Dfs) (k : Nat) : Prop where
  topo : Topo m d.result
  pers : ∀ j, d.check.get j = some true ↔ j ∈ d.result
  temp : ∀ j, d.check.get j = some false → k ≤ m.rank j
  live : ∀ j ∈ d.result, m.Live j

/-- Total out-degree. -/
def degs (m : Arena T3) (l : List Nat) : Nat := (l.map m.outDeg).sum

/-- What a visit of the nodes `xs` does. -/
structure Visited (m : Arena T3) (d d' : Dfs) (xs : List Nat) : Prop where
  mem : ∀ j, j ∈ d'.result ↔ j ∈ d.result ∨ ∃ x ∈ xs, Reach m x j
  temp : ∀ j, d'.check.get j = some false ↔ d.check.get j = some false
  queue : ∃ q, d'.queue = d.queue ++ q ∧ (∀ x ∈ q, x ∈ d'.result) ∧
    q.length + degs m d.result = degs m d'.result

theorem outDeg_kids {m : Arena T3} {i : Nat} {n : Node T3} (h : m.nodes[i]? = some n) :
    m.outDeg i = n.kids.length := by
  unfold outDeg
  rw [h]
  cases n <;> rfl

theorem visit_ok {m : Arena T3} {R' : List Nat → Prop} (wf : WF R' m) :
    ∀ (fuel x : Nat) (d : Dfs), m.Live x → m.rank x < fuel → DfsOK m d (m.rank x + 1) →
      ∃ d', visit m fuel x d = some d' ∧ DfsOK m d' (m.rank x + 1) ∧ Visited m d d' [x] := by
  intro fuel
  induction fuel with
  | zero => intro x d _ h; omega
  | succ n ih =>
    intro x d hx hr hd
    cases hg : d.check.get x with
    | some b =>
      cases b with
      | false => have := hd.temp x hg; omega
      | true =>
        refine ⟨d, by simp only [visit, hg], hd, ⟨?_, fun _ => Iff.rfl, ⟨[], by simp, by simp, by simp⟩⟩⟩
        intro j
        have := (hd.pers x).1 hg
        constructor
        · exact .inl
        · rintro (h | ⟨y, hy, h⟩)
          · exact h
          · simp at hy; subst hy; exact hd.topo.closed this h
    | none =>
      obtain ⟨nd, hn⟩ := hx.node
      have hk : ∀ c ∈ nd.kids, m.Live c ∧ m.rank c < m.rank x := by
        cases nd with
        | term t => intro c hc; cases hc
        | nt h ch => exact wf.kid x h ch hx hn
      have loop : ∀ (cs : List Nat), (∀ c ∈ cs, c ∈ nd.kids) → ∀ (d : Dfs), DfsOK m d (m.rank x) →
          ∃ d', visitKids (visit m n) cs d = some d' ∧ DfsOK m d' (m.rank x) ∧
            (∀ j, j ∈ d'.result ↔ j ∈ d.result ∨ ∃ c ∈ cs, Reach m c j) ∧
            (∀ j, d'.check.get j = some false ↔ d.check.get j = some false) ∧
            ∃ q, d'.queue = d.queue ++ q ∧ (∀ y ∈ q, y ∈ d'.result) ∧
              q.length + degs m d.result = degs m d'.result + cs.length := by
        intro cs
        induction cs with
        | nil => intro _ d hd; exact ⟨d, rfl, hd, by simp, fun _ => Iff.rfl, [], by simp⟩
        | cons c cs ihc =>
          intro hsub d hd
          have hc := hk c (hsub c List.mem_cons_self)
          obtain ⟨d1, h1, h2, h3⟩ := ih c { d with queue := d.queue ++ [c] } hc.1 (by omega)
            ⟨hd.topo, hd.pers, fun j hj => by have := hd.temp j hj; omega, hd.live⟩
          have h2' : DfsOK m d1 (m.rank x) :=
            ⟨h2.topo, h2.pers, fun j hj => hd.temp j ((h3.temp j).1 hj), h2.live⟩
          obtain ⟨d2, k1, k2, k3, k4, q2, k5, k6, k7⟩ :=
            ihc (fun y hy => hsub y (List.mem_cons_of_mem _ hy)) d1 h2'
          obtain ⟨q1, g5, g6, g7⟩ := h3.queue
          refine ⟨d2, by simp only [visitKids, h1, k1], k2, ?_, fun j => (k4 j).trans (h3.temp j),
            c :: q1 ++ q2, ?_, ?_, ?_⟩
          · intro j
            rw [k3, h3.mem]
            simp [or_assoc]
          · rw [k5, g5]; simp
          · intro y hy
            simp only [List.cons_append, List.mem_cons, List.mem_append] at hy
            rcases hy with rfl | hy | hy
            · exact (k3 y).2 (.inl ((h3.mem y).2 (.inr ⟨y, by simp, .refl _⟩)))
            · exact (k3 y).2 (.inl (g6 y hy))
            · exact k6 y hy
          · simp only [List.cons_append, List.length_cons, List.length_append]
            have g7 : q1.length + degs m d.result = degs m d1.result := g7
            omega
      have hdx : DfsOK m { d with check := d.check.insert x false } (m.rank x) := by
        refine ⟨hd.topo, ?_, ?_, hd.live⟩
        · intro j
          show (d.check.insert x false).get j = some true ↔ _
          rw [AMap.get_insert]
          by_cases hj : x = j
          · subst hj
            rw [if_pos rfl]
            constructor
            · intro h; cases h
            · intro h; have := (hd.pers x).2 h; rw [hg] at this; cases this
          · rw [if_neg hj]; exact hd.pers j
        · intro j hj
          have hj : (d.check.insert x false).get j = some false := hj
          rw [AMap.get_insert] at hj
          by_cases hjx : x = j
          · subst hjx; exact Nat.le_refl _
          · rw [if_neg hjx] at hj; have := hd.temp j hj; omega
      obtain ⟨d1, h1, h2, h3, h4, q, h5, h6, h7⟩ := loop nd.kids (fun _ h => h) _ hdx
      have hx1 : x ∉ d1.result := by
        intro hm
        rcases (h3 x).1 hm with h | ⟨c, hc, h⟩
        · have := (hd.pers x).2 h; rw [hg] at this; cases this
        · have := wf.reach_rank_le (hk c hc).1 h
          have := (hk c hc).2
          omega
      refine ⟨{ d1 with check := d1.check.insert x true, result := x :: d1.result }, ?_, ?_, ?_⟩
      · simp only [visit, hg, hn, h1]
      · refine ⟨.cons hx1 ?_ h2.topo, ?_, ?_, ?_⟩
        · intro n' hn' c hc
          rw [hn] at hn'; cases hn'
          exact (h3 c).2 (.inr ⟨c, hc, .refl _⟩)
        · intro j
          show (d1.check.insert x true).get j = some true ↔ j ∈ x :: d1.result
          rw [AMap.get_insert, List.mem_cons]
          by_cases hj : x = j
          · subst hj; simp
          · rw [if_neg hj, h2.pers]; simp [Ne.symm hj]
        · intro j hj
          have hj : (d1.check.insert x true).get j = some false := hj
          rw [AMap.get_insert] at hj
          by_cases hjx : x = j
          · rw [if_pos hjx] at hj; cases hj
          · rw [if_neg hjx, h4] at hj
            have hj : (d.check.insert x false).get j = some false := hj
            rw [AMap.get_insert, if_neg hjx] at hj
            exact hd.temp j hj
        · intro j hj
          rcases List.mem_cons.1 hj with rfl | hj
          · exact hx
          · exact h2.live j hj
      · refine ⟨?_, ?_, q, h5, ?_, ?_⟩
        · intro j
          show j ∈ x :: d1.result ↔ _
          rw [List.mem_cons, h3]
          constructor
          · rintro (rfl | h | ⟨c, hc, h⟩)
            · exact .inr ⟨j, by simp, .refl _⟩
            · exact .inl h
            · refine .inr ⟨x, by simp, ?_⟩
              cases nd with
              | term t => cases hc
              | nt hh ch => exact ((Reach.refl x).step hn hc).trans h
          · rintro (h | ⟨y, hy, h⟩)
            · exact .inr (.inl h)
            · simp at hy; subst hy
              rcases h.cases_head with h | ⟨hh, ch, c, e1, e2, e3⟩
              · exact .inl h.symm
              · rw [hn] at e1; cases e1
                exact .inr (.inr ⟨c, e2, e3⟩)
        · intro j
          show (d1.check.insert x true).get j = some false ↔ _
          rw [AMap.get_insert]
          by_cases hjx : x = j
          · subst hjx; rw [if_pos rfl, hg]; simp
          · rw [if_neg hjx, h4]
            show (d.check.insert x false).get j = some false ↔ _
            rw [AMap.get_insert, if_neg hjx]
        · intro y hy; exact List.mem_cons_of_mem _ (h6 y hy)
        · show q.length + degs m d.result = degs m (x :: d1.result)
          have h7 : q.length + degs m d.result = degs m d1.result + nd.kids.length := h7
          rw [h7]
          simp only [degs, List.map_cons, List.sum_cons, outDeg_kids hn]
          omega

theorem topoLoop_drain (m : Arena T3) : ∀ (fuel : Nat) (d : Dfs), d.queue.length ≤ fuel →
    (∀ x ∈ d.queue, d.check.get x = some true) → ∃ d', topoLoop m fuel d = some d' ∧ d'.result = d.result := by
  intro fuel
  induction fuel with
  | zero =>
    intro d hl hq
    have : d.queue = [] := List.length_eq_zero_iff.1 (by omega)
    exact ⟨d, by unfold topoLoop; rw [this], rfl⟩
  | succ n ih =>
    intro d hl hq
    cases hqu : d.queue with
    | nil => exact ⟨d, by unfold topoLoop; rw [hqu], rfl⟩
    | cons x q =>
      rw [hqu] at hl hq
      have hx := hq x List.mem_cons_self
      obtain ⟨d', h1, h2⟩ := ih { d with queue := q } (by simpa using hl)
        (fun y hy => hq y (List.mem_cons_of_mem _ hy))
      exact ⟨d', by unfold topoLoop; simp only [hqu, hx]; exact h1, h2⟩

theorem sum_sublist {l l' : List Nat} (h : l.Sublist l') : l.sum ≤ l'.sum := by
  induction h with
  | slnil => exact Nat.le_refl _
  | cons a _ ih => simp only [List.sum_cons]; omega
  | cons_cons a _ ih => simp only [List.sum_cons]; omega

theorem degs_le {m : Arena T3} {l : List Nat} (hn : l.Nodup) (hl : ∀ j ∈ l, j < m.nodes.length) :
    degs m l ≤ edgeCount m := by
  have h1 : l.Subperm (List.range m.nodes.length) :=
    List.Nodup.subperm hn (fun j hj => List.mem_range.2 (hl j hj))
  have h2 : ((List.range m.nodes.length).map m.outDeg) = m.nodes.map (fun n => n.kids.length) := by
    apply List.ext_getElem?
    intro k
    simp only [List.getElem?_map]
    by_cases hk : k < m.nodes.length
    · rw [List.getElem?_range hk, List.getElem?_eq_getElem hk]
      simp only [Option.map_some]
      rw [outDeg_kids (List.getElem?_eq_getElem hk)]
    · rw [List.getElem?_eq_none (by simpa using hk), List.getElem?_eq_none (by simpa using hk)]
      rfl
  unfold degs edgeCount
  rw [← h2]
  obtain ⟨l', hp, hs⟩ := h1
  rw [← (hp.map m.outDeg).sum_nat]
  exact sum_sublist (hs.map m.outDeg)

/-- The sort lists the nodes reachable from `f`, each before its children. -/
theorem topologicalSort_ok {m : Arena T3} {R' : List Nat → Prop} (wf : WF R' m) {f : Nat}
    (hf : m.Live f) : ∃ l, topologicalSort m f = some l ∧ Topo m l ∧ ∀ j, j ∈ l ↔ Reach m f j := by
  have h0 : DfsOK m ⟨AMap.empty, [], []⟩ (m.rank f + 1) :=
    ⟨.nil, by simp, by simp, by simp⟩
  obtain ⟨d, h1, h2, h3⟩ := visit_ok wf (m.rank f + 1) f _ hf (by omega) h0
  obtain ⟨q, g1, g2, g3⟩ := h3.queue
  have g1 : d.queue = q := by simpa using g1
  have g3 : q.length = degs m d.result := by simpa [degs] using g3
  have hle := degs_le h2.topo.nodup (fun j hj => (h2.live j hj).1)
  obtain ⟨d', k1, k2⟩ := topoLoop_drain m (edgeCount m) d (by rw [g1, g3]; exact hle)
    (fun x hx => (h2.pers x).2 (g2 x (g1 ▸ hx)))
  refine ⟨d.result, ?_, h2.topo, fun j => ?_⟩
  · unfold topologicalSort
    rw [Nat.add_comm]
    unfold topoLoop
    simp only [AMap.get_empty, h1, k1, Option.map_some, k2]
  · have := h3.mem j
    simpa using this

/-! ## The gradient loop -/

section
variable {R : Type} [CommRing R]

theorem accum_get {K : Type} [DecidableEq K] (c : AMap K R) (k k' : K) (x : R) :
    ((accum c k x).get k').getD 0 = (c.get k').getD 0 + if k = k' then x else 0 := by
  unfold accum
  rw [AMap.get_insert]
  by_cases h : k = k'
  · subst h
    simp only [if_true]
    cases c.get k <;> simp
  · simp [h]

theorem sum_bump {l : List Nat} (hn : l.Nodup) {c : Nat} (hc : c ∈ l) (g D : Nat → R) (x : R) :
    (l.map (fun j => (g j + if c = j then x else 0) * D j)).sum =
      (l.map (fun j => g j * D j)).sum + x * D c := by
  induction l with
  | nil => cases hc
  | cons a l ih =>
    rw [List.nodup_cons] at hn
    simp only [List.map_cons, List.sum_cons]
    rcases List.mem_cons.1 hc with rfl | hc
    · have : l.map (fun j => (g j + if c = j then x else 0) * D j) = l.map (fun j => g j * D j) := by
        apply List.map_congr_left
        intro j hj
        have : c ≠ j := fun e => hn.1 (e ▸ hj)
        simp [this]
      rw [this]; simp; ring
    · have : c ≠ a := fun e => hn.1 (e ▸ hc)
      rw [ih hn.2 hc]; simp [this]; ring

/-- Value of a determined node, with the sum taken over `N` levels. -/
noncomputable def nodeVal (m : Arena T3) (p : Nat → R) (ss : List Bool) (N j : Nat) : R :=
  open Classical in
  if h : ∃ F, Den m j F then bsum (pw p) (ind ss) N h.choose else 0

theorem nodeVal_eq {m : Arena T3} (p : Nat → R) (ss : List Bool) (N : Nat) {j : Nat} {F : BFun}
    (h : Den m j F) : nodeVal m p ss N j = bsum (pw p) (ind ss) N F := by
  have hex : ∃ F, Den m j F := ⟨F, h⟩
  unfold nodeVal
  rw [dif_pos hex, hex.choose_spec.fun_eq h]

/-- The measure by nodes satisfies the recurrence that the loop uses. -/
structure Grad (m : Arena T3) (env : String → Option R) (pr : Nat → R) (x0 : String) (D : Nat → R) : Prop where
  term : ∀ j t, m.nodes[j]? = some (.term t) → D j = 0
  nt : ∀ j h c0 c1 x, Det m j → m.nodes[j]? = some (.nt h [c0, c1]) → m.label? j = some x →
    D j = (1 - (env x).getD 0) * D c0 + (env x).getD 0 * D c1 + if x = x0 then pr c1 - pr c0 else 0

/-- Labels of the non-terminals in a list. -/
def labelsOf (m : Arena T3) (l : List Nat) : List String := l.filterMap m.label?

theorem bmeasLoop_ok {s : Bdd} (hs : Inv s) (inj : s.arena.LevInj) {env : String → Option R}
    {p : Nat → R} (hp : PvOK s.arena env p) (ss : List Bool) (N : Nat)
    (hN : ∀ j, s.arena.Live j → s.arena.rank j ≤ N) :
    ∀ (l : List Nat), Topo s.arena l → (∀ j ∈ l, Det s.arena j) →
      ∀ (grad cache : AMap Nat R) (ev : AMap String R), MemoP (ProbOK s.arena p ss) cache →
      ∃ ev', bmeasLoop s.arena ss env l grad cache ev = some ev' ∧
        (∀ x, (ev'.get x).isSome ↔ (ev.get x).isSome ∨ x ∈ labelsOf s.arena l) ∧
        ∀ x0 D, Grad s.arena env (nodeVal s.arena p ss N) x0 D →
          (ev'.get x0).getD 0 = (ev.get x0).getD 0 + (l.map (fun j => (grad.get j).getD 0 * D j)).sum := by
  intro l
  induction l with
  | nil =>
    intro _ _ grad cache ev _
    exact ⟨ev, rfl, by simp [labelsOf], by simp⟩
  | cons f l ih =>
    intro ht hdet grad cache ev hc
    cases ht with
    | cons hnm hkids ht =>
      have hdl : ∀ j ∈ l, Det s.arena j := fun j hj => hdet j (List.mem_cons_of_mem _ hj)
      obtain ⟨F, hF⟩ := hdet f List.mem_cons_self
      cases den_cases hs inj hF with
      | const b k1 k2 k3 =>
        have k1 : s.arena.nodes[f]? = _ := k1
        obtain ⟨ev', h1, h2, h3⟩ := ih ht hdl grad cache ev hc
        refine ⟨ev', by simp only [bmeasLoop, k1, h1], ?_, ?_⟩
        · intro x
          rw [h2]
          simp [labelsOf, label?, k1]
        · intro x0 D hD
          rw [h3 x0 D hD, List.map_cons, List.sum_cons, hD.term f _ k1]; ring
      | node h lo hi hd k1 k2 k3 d0 d1 _ =>
        have k1 : s.arena.nodes[f]? = _ := k1
        have hlab : s.arena.label? f = some hd.label := by simp [label?, k1, k2]
        obtain ⟨c1, p1, hc1⟩ := probC_ok hs inj d0 hp ss hc
        obtain ⟨c2, p2, hc2⟩ := probC_ok hs inj d1 hp ss hc1
        have hk0 : lo ∈ l := hkids _ k1 lo (by simp [Node.kids])
        have hk1 : hi ∈ l := hkids _ k1 hi (by simp [Node.kids])
        obtain ⟨ev', h1, h2, h3⟩ := ih ht hdl
          (accum (accum grad lo ((grad.get f).getD 0 * (1 - (env hd.label).getD 0))) hi
            ((grad.get f).getD 0 * (env hd.label).getD 0)) c2
          (accum ev hd.label ((grad.get f).getD 0 *
            (bsum (pw p) (ind ss) (s.arena.rank hi) (F.cof hd.level true) -
              bsum (pw p) (ind ss) (s.arena.rank lo) (F.cof hd.level false)))) hc2
        refine ⟨ev', by simp only [bmeasLoop, k1, hlab, p1, p2]; exact h1, ?_, ?_⟩
        · intro x
          rw [h2]
          unfold accum
          rw [AMap.get_insert]
          have : labelsOf s.arena (f :: l) = hd.label :: labelsOf s.arena l := by
            simp [labelsOf, hlab]
          rw [this, List.mem_cons]
          by_cases hx : hd.label = x
          · subst hx; simp
          · simp [hx, Ne.symm hx]
        · intro x0 D hD
          have hsum : (l.map (fun j => ((accum (accum grad lo ((grad.get f).getD 0 * (1 - (env hd.label).getD 0))) hi
              ((grad.get f).getD 0 * (env hd.label).getD 0)).get j).getD 0 * D j)).sum =
              (l.map (fun j => (grad.get j).getD 0 * D j)).sum +
                ((grad.get f).getD 0 * (1 - (env hd.label).getD 0)) * D lo +
                ((grad.get f).getD 0 * (env hd.label).getD 0) * D hi := by
            simp only [accum_get]
            rw [sum_bump ht.nodup hk1 (fun j => (grad.get j).getD 0 +
              if lo = j then (grad.get f).getD 0 * (1 - (env hd.label).getD 0) else 0),
              sum_bump ht.nodup hk0]
          rw [h3 x0 D hD, hsum, List.map_cons, List.sum_cons, accum_get,
            hD.nt f h lo hi hd.label ⟨F, hF⟩ k1 hlab,
            nodeVal_eq p ss N d0, nodeVal_eq p ss N d1,
            bsum_pw_gap p _ (hN lo d0.live) (dependsBelow_rank hs d0),
            bsum_pw_gap p _ (hN hi d1.live) (dependsBelow_rank hs d1)]
          by_cases hx : hd.label = x0
          · simp only [hx, if_true]; ring
          · simp only [hx, if_false]; ring

theorem bsum_sub_same (p p' : Nat → R) (g : Bool → R) (n : Nat) (F : BFun) (h : ∀ l, l < n → p l = p' l) :
    bsum (pw p) g n F = bsum (pw p') g n F := by
  unfold bsum wsum
  refine Finset.sum_congr rfl fun a _ => ?_
  congr 1
  refine Finset.prod_congr rfl fun i _ => ?_
  simp [pw, h i i.2]

/-- The derivative by nodes. -/
noncomputable def dNode (m : Arena T3) (p : Nat → R) (ss : List Bool) (N l0 j : Nat) : R :=
  nodeVal m (Function.update p l0 1) ss N j - nodeVal m (Function.update p l0 0) ss N j

theorem bsum_node {s : Bdd} (hs : Inv s) {f lo hi : Nat} {F : BFun} {hd : Header} {h : Nat}
    (hF : Den s.arena f F) (k1 : s.arena.nodes[f]? = some (.nt h [lo, hi]))
    (k2 : s.arena.headers[h]? = some hd) (d0 : Den s.arena lo (F.cof hd.level false))
    (d1 : Den s.arena hi (F.cof hd.level true)) (p : Nat → R) (g : Bool → R) {N : Nat}
    (hN : ∀ j, s.arena.Live j → s.arena.rank j ≤ N) :
    bsum (pw p) g N F = (1 - p hd.level) * bsum (pw p) g N (F.cof hd.level false) +
      p hd.level * bsum (pw p) g N (F.cof hd.level true) := by
  have hrk := rank_nt k1 k2
  obtain ⟨_, e1, _, _, _, _, hk⟩ := hs.wf.nt hF.live k1
  have r0 := (hk lo (by simp)).2
  have r1 := (hk hi (by simp)).2
  rw [bsum_pw_gap p g (hN f hF.live) (dependsBelow_rank hs hF), hrk, bsum_succ,
    bsum_pw_gap p g (hN lo d0.live) (dependsBelow_rank hs d0),
    bsum_pw_gap p g (hN hi d1.live) (dependsBelow_rank hs d1),
    bsum_pw_gap p g (show s.arena.rank lo ≤ hd.level by omega) (dependsBelow_rank hs d0),
    bsum_pw_gap p g (show s.arena.rank hi ≤ hd.level by omega) (dependsBelow_rank hs d1)]
  simp [pw]

/-- A node below the variable does not change with its probability. -/
theorem nodeVal_indep {s : Bdd} (hs : Inv s) {j : Nat} {F : BFun} (hF : Den s.arena j F) (p : Nat → R)
    (ss : List Bool) {N l0 : Nat} (hN : ∀ j, s.arena.Live j → s.arena.rank j ≤ N)
    (hj : s.arena.rank j ≤ l0) (x : R) :
    nodeVal s.arena (Function.update p l0 x) ss N j = nodeVal s.arena p ss N j := by
  rw [nodeVal_eq _ _ _ hF, nodeVal_eq _ _ _ hF,
    bsum_pw_gap _ _ (hN j hF.live) (dependsBelow_rank hs hF),
    bsum_pw_gap _ _ (hN j hF.live) (dependsBelow_rank hs hF)]
  refine bsum_sub_same _ _ _ _ _ fun l hl => ?_
  rw [Function.update_of_ne (by omega)]

theorem grad_ok {s : Bdd} (hs : Inv s) (inj : s.arena.LevInj) {env : String → Option R}
    {p : Nat → R} (hp : PvOK s.arena env p) (ss : List Bool) {N : Nat}
    (hN : ∀ j, s.arena.Live j → s.arena.rank j ≤ N) {l0 : Nat} {x0 : String}
    (hlab : ∀ hd ∈ s.arena.headers, hd.label = x0 ↔ hd.level = l0) :
    Grad s.arena env (nodeVal s.arena p ss N) x0 (dNode s.arena p ss N l0) := by
  constructor
  · intro j t hn
    unfold dNode
    by_cases hex : ∃ F, Den s.arena j F
    · obtain ⟨F, hF⟩ := hex
      rw [nodeVal_indep hs hF p ss hN (by rw [rank_term hn]; omega),
        nodeVal_indep hs hF p ss hN (by rw [rank_term hn]; omega)]
      ring
    · simp [nodeVal, hex]
  · rintro j h c0 c1 x ⟨F, hF⟩ hn hl
    cases den_cases hs inj hF with
    | const b k1 => rw [show s.arena.nodes[j]? = _ from k1] at hn; cases hn
    | node h' lo hi hd k1 k2 k3 d0 d1 _ =>
      rw [show s.arena.nodes[j]? = _ from k1] at hn; cases hn
      have hx : hd.label = x := by
        simp [label?, show s.arena.nodes[j]? = _ from k1, k2] at hl; exact hl
      subst hx
      have hm := List.mem_of_getElem? k2
      have hpv := hp hd hm
      obtain ⟨_, e1, _, _, _, _, hk⟩ := hs.wf.nt hF.live (show s.arena.nodes[j]? = _ from k1)
      have hrk := rank_nt (show s.arena.nodes[j]? = _ from k1) k2
      cases (show some _ = some _ from e1 ▸ k2)
      have r0 := (hk c0 (by simp)).2
      have r1 := (hk c1 (by simp)).2
      have key : ∀ p' : Nat → R, nodeVal s.arena p' ss N j =
          (1 - p' hd.level) * nodeVal s.arena p' ss N c0 + p' hd.level * nodeVal s.arena p' ss N c1 := by
        intro p'
        rw [nodeVal_eq _ _ _ hF, nodeVal_eq _ _ _ d0, nodeVal_eq _ _ _ d1]
        exact bsum_node hs hF k1 k2 d0 d1 p' _ hN
      unfold dNode
      rw [key, key]
      by_cases hl0 : hd.level = l0
      · have hx0 : hd.label = x0 := (hlab hd hm).2 hl0
        have i0 := fun x => nodeVal_indep hs d0 p ss hN (l0 := l0) (by omega) x
        have i1 := fun x => nodeVal_indep hs d1 p ss hN (l0 := l0) (by omega) x
        rw [if_pos hx0, i0, i0, i1, i1, hl0, Function.update_self, Function.update_self]
        ring
      · have hx0 : hd.label ≠ x0 := fun e => hl0 ((hlab hd hm).1 e)
        rw [if_neg hx0, Function.update_of_ne hl0, Function.update_of_ne hl0, ← hpv]
        ring

/-- `bmeas`: the partial derivatives. -/
theorem bmeas_ok {s : Bdd} (hs : Inv s) (inj : s.arena.LevInj) {i : Nat} {F : BFun}
    (h : Den s.arena i F) {env : String → Option R} {p : Nat → R} (hp : PvOK s.arena env p)
    (ss : List Bool) {N : Nat} (hN : ∀ j, s.arena.Live j → s.arena.rank j ≤ N) :
    ∃ ev, bmeas s.arena ss i env = some ev ∧
      (∀ x, (ev.get x).isSome ↔ ∃ j, Reach s.arena i j ∧ s.arena.label? j = some x) ∧
      ∀ l0 x0, (∀ hd ∈ s.arena.headers, hd.label = x0 ↔ hd.level = l0) →
        (ev.get x0).getD 0 = bsum (pw (Function.update p l0 1)) (ind ss) N F -
          bsum (pw (Function.update p l0 0)) (ind ss) N F := by
  obtain ⟨l, h1, h2, h3⟩ := topologicalSort_ok hs.wf h.live
  have hdet : ∀ j ∈ l, Det s.arena j := by
    intro j hj
    have hr := (h3 j).1 hj
    clear hj
    induction hr with
    | refl => exact ⟨F, h⟩
    | step _ hn hc ih => exact det_kids hs inj _ _ _ ih hn _ hc
  obtain ⟨ev, k1, k2, k3⟩ := bmeasLoop_ok hs inj hp ss N hN l h2 hdet ((AMap.empty).insert i 1)
    AMap.empty AMap.empty (memoP_empty _)
  refine ⟨ev, by simp only [bmeas, h1, k1], ?_, ?_⟩
  · intro x
    rw [k2]
    simp only [AMap.get_empty, Option.isSome_none, Bool.false_eq_true, false_or, labelsOf,
      List.mem_filterMap]
    constructor
    · rintro ⟨j, hj, hl⟩; exact ⟨j, (h3 j).1 hj, hl⟩
    · rintro ⟨j, hj, hl⟩; exact ⟨j, (h3 j).2 hj, hl⟩
  · intro l0 x0 hlab
    rw [k3 x0 _ (grad_ok hs inj hp ss hN hlab)]
    have hi : i ∈ l := (h3 i).2 (.refl _)
    have := sum_bump h2.nodup hi (fun _ => (0 : R)) (dNode s.arena p ss N l0) 1
    have hfun : (fun j => (((AMap.empty : AMap Nat R).insert i 1).get j).getD 0 * dNode s.arena p ss N l0 j) =
        fun j => ((0 : R) + if i = j then 1 else 0) * dNode s.arena p ss N l0 j := by
      funext j
      rw [AMap.get_insert]
      by_cases hj : i = j <;> simp [hj]
    rw [hfun, this]
    simp [dNode, nodeVal_eq _ _ _ h]

end

end Bdd
end DD
