import Verif.Mss.ZmddEnum
import Verif.Mss.CountOk

/-!
# Correctness of `ZmddNode::labels`, `extract` and `extract_level`
-/

set_option autoImplicit false
set_option linter.unusedSectionVars false
set_option linter.unusedVariables false

namespace DD
open Arena

namespace Enum
variable {S O : Type} {turn : S → Option (Option (Option O × S))}

/-- A run has at most as many results as the measure allows turns. -/
theorem Steps.length_le {μ : S → Nat} {J : S → Prop}
    (hμ : ∀ s o s', J s → turn s = some (some (o, s')) → J s' ∧ μ s' < μ s) {s s' : S} {os : List O}
    (hJ : J s) (h : Steps turn s os s') : os.length + μ s' ≤ μ s := by
  induction h with
  | refl => simp
  | emit e _ ih =>
    obtain ⟨h1, h2⟩ := hμ _ _ _ hJ e
    have := ih h1
    simp only [List.length_cons]; omega
  | quiet e _ ih =>
    obtain ⟨h1, h2⟩ := hμ _ _ _ hJ e
    have := ih h1
    omega

end Enum

namespace Zma

theorem collectF_ok {S O : Type} {next : S → Option (Option O × S)} {s : S} {os : List O}
    (h : Enum.Yields next s os) : ∀ n, os.length < n → collectF next n s = some os := by
  induction h with
  | done e =>
    intro n hn
    match n, hn with
    | n + 1, _ => simp only [collectF, e]
  | more e _ ih =>
    intro n hn
    match n, hn with
    | n + 1, hn =>
      simp only [List.length_cons] at hn
      simp only [collectF, e, ih n (by omega)]

section
variable {m : Arena (Option Int)} {ss : List Int} {vs : List (String × Nat)} {rev : Bool}

/-- All nodes on the stack are live. -/
def StackLive (m : Arena (Option Int)) (st : PathSt) : Prop := ∀ i, SV.node i ∈ st.stack → m.Live i

theorem turnsNode_pos (b n : Nat) : 0 < turnsNode b n := by cases n <;> simp [turnsNode]

theorem turnsNode_mono (b : Nat) : ∀ {k n : Nat}, k ≤ n → turnsNode b k ≤ turnsNode b n := by
  intro k n
  induction n generalizing k with
  | zero => intro h; have : k = 0 := by omega
            subst this; exact Nat.le_refl _
  | succ n ih =>
    intro h
    cases k with
    | zero => simp only [turnsNode]; omega
    | succ k =>
      simp only [turnsNode]
      have := Nat.mul_le_mul_left b (Nat.add_le_add_left (ih (k := k) (by omega)) 2)
      omega

theorem branches_live {x : String} {last : Nat} {rest : List SV} : ∀ (cs : List Nat) (j : Nat),
    (∀ c ∈ cs, m.Live c) → (∀ i, SV.node i ∈ rest → m.Live i) →
    ∀ i, SV.node i ∈ branches x rev last j cs ++ rest → m.Live i := by
  intro cs
  induction cs with
  | nil => intro j _ h; exact h
  | cons c cs ih =>
    intro j hc hr i hi
    have := ih (j + 1) (fun y hy => hc y (List.mem_cons_of_mem _ hy)) hr i
    simp only [branches, List.append_assoc, List.mem_append] at hi this
    rcases hi with hi | hi
    · split at hi
      · simp at hi; subst hi; exact hc i List.mem_cons_self
      · simp at hi; subst hi; exact hc i List.mem_cons_self
    · exact this hi

theorem turns_branches {b l : Nat} {x : String} {last : Nat} {rest : List SV} : ∀ (cs : List Nat) (j : Nat),
    (∀ c ∈ cs, m.rank c ≤ l) →
    turns m b (branches x rev last j cs ++ rest) ≤ cs.length * (2 + turnsNode b l) + turns m b rest := by
  intro cs
  induction cs with
  | nil => intro j _; simp [branches]
  | cons c cs ih =>
    intro j hc
    have h1 := ih (j + 1) (fun y hy => hc y (List.mem_cons_of_mem _ hy))
    have h2 := turnsNode_mono b (hc c List.mem_cons_self)
    simp only [branches, List.append_assoc, List.length_cons, Nat.add_mul]
    split
    · simp only [List.cons_append, List.nil_append, turns]; omega
    · simp only [List.cons_append, List.nil_append, turns]; omega

theorem turns_decr (wf : WF RZ m) (st : PathSt) (o : Option (AMap String Nat)) (st' : PathSt)
    (hJ : StackLive m st) (h : pathStep m st = some (some (o, st'))) :
    StackLive m st' ∧ turns m (maxDeg m) st'.stack < turns m (maxDeg m) st.stack := by
  obtain ⟨stack, path, base, ss, rev⟩ := st
  unfold pathStep at h
  match stack with
  | [] => simp at h
  | .push x k :: rest =>
    simp at h; rw [← h.2]
    exact ⟨fun i hi => hJ i (List.mem_cons_of_mem _ hi), by simp [turns]⟩
  | .pop x :: rest =>
    have : st'.stack = rest := by
      simp only at h
      split at h <;> (simp only [Option.some.injEq, Prod.mk.injEq] at h; rw [← h.2])
    refine ⟨fun i hi => hJ i (List.mem_cons_of_mem _ (this ▸ hi)), by simp [turns, this]⟩
  | .node i :: rest =>
    have li : m.Live i := hJ i List.mem_cons_self
    obtain ⟨nd, hi⟩ := li.node
    have hi' : m.node? i = some nd := hi
    have hp := turnsNode_pos (maxDeg m) (m.rank i)
    cases nd with
    | term t =>
      have : st'.stack = rest := by
        simp only [hi'] at h
        cases t with
        | none => simp only [Option.some.injEq, Prod.mk.injEq] at h; rw [← h.2]
        | some v =>
          simp only at h
          split at h <;> (simp only [Option.some.injEq, Prod.mk.injEq] at h; rw [← h.2])
      refine ⟨fun j hj => hJ j (List.mem_cons_of_mem _ (this ▸ hj)), ?_⟩
      rw [this]
      simp only [turns]; omega
    | nt hh ch =>
      obtain ⟨hd, hh', hl, hr', _, hpos, hk⟩ := wf.nt li hi
      have hlab : m.label? i = some hd.label := by simp [label?, hi, hh']
      have hne : ch ≠ [] := by
        rintro rfl
        simp at hl
        omega
      simp only [hi', hlab, hne, if_false, Option.some.injEq, Prod.mk.injEq] at h
      rw [← h.2]
      refine ⟨?_, ?_⟩
      · exact branches_live ch 0 (fun c hc => (hk c hc).1) fun j hj => hJ j (List.mem_cons_of_mem _ hj)
      · have h1 := turns_branches (m := m) (b := maxDeg m) (l := hd.level) (x := hd.label) (rev := rev)
          (last := ch.length - 1) (rest := rest) ch 0 (fun c hc => (hk c hc).2)
        have hb : ch.length ≤ maxDeg m := by
          have : (m.nodes.map (fun n => n.kids.length))[i]? = some ch.length := by
            rw [List.getElem?_map, hi]; rfl
          exact Mda.le_sum_of_getElem? this
        have h2 := Nat.mul_le_mul_right (2 + turnsNode (maxDeg m) hd.level) hb
        simp only [turns, hr', turnsNode]
        omega

/-! ## `extract` -/

theorem baselineF_ok (rev : Bool) : ∀ (hv : List (String × Nat)) (b : AMap String Nat), b.NodupKeys →
    (hv.map Prod.fst).Nodup → (∀ p ∈ hv, 0 < p.2) →
    ∃ b', baselineF rev hv b = some b' ∧ b'.NodupKeys ∧
      (∀ (l : Nat) (x : String) (s : Nat), hv[l]? = some (x, s) → b'.get x = some (stOf rev s 0)) ∧
      ∀ x, x ∉ hv.map Prod.fst → b'.get x = b.get x := by
  intro hv
  induction hv with
  | nil => intro b hb _ _; exact ⟨b, rfl, hb, by simp, fun _ _ => rfl⟩
  | cons p hv ih =>
    obtain ⟨x, s⟩ := p
    intro b hb nd hp
    simp only [List.map_cons, List.nodup_cons] at nd
    have hs : 0 < s := hp (x, s) List.mem_cons_self
    obtain ⟨b', h1, h2, h3, h4⟩ := ih (b.insert x (stOf rev s 0)) (AMap.nodup_insert hb _ _) nd.2
      (fun p hp' => hp p (List.mem_cons_of_mem _ hp'))
    refine ⟨b', ?_, h2, ?_, ?_⟩
    · unfold baselineF
      cases rev with
      | false => simpa [stOf] using h1
      | true =>
        rw [if_pos rfl, if_neg (by omega)]
        simpa [stOf] using h1
    · intro l y t hl
      cases l with
      | zero =>
        simp at hl
        obtain ⟨rfl, rfl⟩ := hl
        rw [h4 x nd.1, AMap.get_insert_self]
      | succ l => exact h3 l y t (by simpa using hl)
    · intro y hy
      simp only [List.map_cons, List.mem_cons, not_or] at hy
      rw [h4 y hy.2, AMap.get_insert_ne _ _ (Ne.symm hy.1)]

/-- The map `o` reports the vector `d` densely over the variables `hv`. -/
structure Rep (hv : List (String × Nat)) (rev : Bool) (d : Nat → Nat) (o : AMap String Nat) : Prop where
  nodup : o.NodupKeys
  get : ∀ x k, o.get x = some k ↔ ∃ l s, hv[l]? = some (x, s) ∧ k = stOf rev s (d l)

/-- What holds of a family handle. -/
structure HOk (vs : List (String × Nat)) (m : Arena (Option Int)) (z : ZNd) : Prop where
  live : m.Live z.node
  rank : m.rank z.node ≤ z.vars.length
  pre : z.vars <+: vs

theorem HOk.get {z : ZNd} (h : HOk vs m z) {l : Nat} (hl : l < z.vars.length) : z.vars[l]? = vs[l]? := by
  obtain ⟨t, ht⟩ := h.pre
  rw [← ht, List.getElem?_append_left hl]

theorem HOk.nodup {z : ZNd} (h : HOk vs m z) (nd : (vs.map Prod.fst).Nodup) : (z.vars.map Prod.fst).Nodup :=
  nd.sublist (h.pre.sublist.map _)

theorem Over.rep {z : ZNd} (h : HOk vs m z) (nd : (vs.map Prod.fst).Nodup) {b : AMap String Nat}
    (hb : ∀ x, x ∉ z.vars.map Prod.fst → b.get x = none) {d : Nat → Nat} {o : AMap String Nat}
    (ho : Over vs rev z.vars.length b d o) : Rep z.vars rev d o := by
  refine ⟨ho.nodup, fun x k => ?_⟩
  by_cases hx : x ∈ z.vars.map Prod.fst
  · obtain ⟨⟨x', s⟩, hp, rfl⟩ := List.mem_map.1 hx
    obtain ⟨l, hl⟩ := List.mem_iff_getElem?.1 hp
    have hlt := (List.getElem?_eq_some_iff.1 hl).1
    have h1 := ho.low l x' s hlt ((h.get hlt).symm.trans hl)
    rw [h1]
    constructor
    · intro e; cases e; exact ⟨l, s, hl, rfl⟩
    · rintro ⟨l', s', hl', rfl⟩
      have e := names_inj (h.nodup nd) hl hl'
      subst e
      rw [hl] at hl'; cases hl'
      rfl
  · have h1 := ho.high x (fun l s hl hv => by
      rw [← h.get hl] at hv
      exact hx (List.mem_map.2 ⟨_, List.mem_of_getElem? hv, rfl⟩))
    rw [h1, hb x hx]
    constructor
    · intro e; cases e
    · rintro ⟨l', s', hl', rfl⟩
      exact absurd (List.mem_map.2 ⟨_, List.mem_of_getElem? hl', rfl⟩) hx

/-- `extract` yields each vector of the selected strata exactly once and stops. -/
theorem extract_ok (wf : WF RZ m) (hz : ZHdr vs m) (nd : (vs.map Prod.fst).Nodup) (hp : ∀ p ∈ vs, 0 < p.2) {z : ZNd}
    (h : HOk vs m z) (ss : List Int) :
    ∃ st os ds, pathNew z ss = some st ∧ Enum.Yields (pathNext m) st os ∧
      os.length ≤ turns m (maxDeg m) st.stack ∧ FamL m ss z.node ds ∧
      List.Forall₂ (Rep z.vars z.reverse) ds os := by
  obtain ⟨b, h1, h2, h3, h4⟩ := baselineF_ok z.reverse z.vars AMap.empty AMap.nodup_empty (h.nodup nd)
    (fun p hp' => hp p (h.pre.subset hp'))
  have hbase : Base vs z.reverse z.vars.length b := by
    intro l x s hl hv
    rw [← h.get hl] at hv
    exact h3 l x s hv
  obtain ⟨ds, f, st⟩ := path_steps (ss := ss) (rev := z.reverse) wf hz nd z.vars.length hbase _ z.node h.live
    (Nat.le_refl _) h.rank
  obtain ⟨os, path', k1, k2, k3, k4⟩ := st [] b h2 (fun l x s hl => hbase l x s (by have := h.rank; omega))
  have hJ : StackLive m ⟨[.node z.node], b, b, ss, z.reverse⟩ := by
    intro j hj
    simp at hj; subst hj; exact h.live
  refine ⟨⟨[.node z.node], b, b, ss, z.reverse⟩, os, ds, by simp only [pathNew, h1], ?_, ?_, f, ?_⟩
  · exact Enum.Steps.yieldsJ (μ := fun st : PathSt => turns m (maxDeg m) st.stack) (turns_decr wf) hJ k1
      (by simp [pathStep])
  · have := Enum.Steps.length_le (μ := fun st : PathSt => turns m (maxDeg m) st.stack) (turns_decr wf) hJ k1
    simp only at this ⊢
    omega
  · have : List.Forall₂ (fun d o => d ∈ ds ∧ Over vs z.reverse (m.rank z.node) b d o) ds os := by
      refine List.forall₂_iff_get.2 ⟨k4.length_eq, fun k h1 h2 => ⟨List.getElem_mem _, ?_⟩⟩
      exact (List.forall₂_iff_get.1 k4).2 k h1 h2
    refine this.imp ?_
    rintro d o ⟨hd, ho⟩
    refine (ho.up nd h.rank hbase ?_).rep h nd (fun x hx => by rw [h4 x hx]; rfl)
    intro l hl
    obtain ⟨v, _, hv⟩ := (f.mem d).1 hd
    exact wf.lab_supp hv h.live l hl

/-! ## `labels` -/

theorem mem_insSort (v w : Int) (l : List Int) : w ∈ insSort v l ↔ w = v ∨ w ∈ l := by
  induction l with
  | nil => simp [insSort]
  | cons x l ih =>
    unfold insSort
    split
    · simp
    · simp only [List.mem_cons, ih]
      constructor
      · rintro (h | h | h) <;> simp [h]
      · rintro (h | h | h) <;> simp [h]

theorem insSort_sorted (v : Int) {l : List Int} (h : l.Pairwise (· ≤ ·)) : (insSort v l).Pairwise (· ≤ ·) := by
  induction l with
  | nil => simp [insSort]
  | cons x l ih =>
    rw [List.pairwise_cons] at h
    unfold insSort
    split
    · rename_i hv
      rw [List.pairwise_cons]
      refine ⟨fun y hy => ?_, List.pairwise_cons.2 h⟩
      rcases List.mem_cons.1 hy with rfl | hy
      · exact hv
      · have := h.1 y hy; omega
    · rename_i hv
      rw [List.pairwise_cons]
      refine ⟨fun y hy => ?_, ih h.2⟩
      rcases (mem_insSort v y l).1 hy with rfl | hy
      · omega
      · exact h.1 y hy

theorem mem_sort (w : Int) (l : List Int) : w ∈ sort l ↔ w ∈ l := by
  induction l with
  | nil => simp [sort]
  | cons x l ih => simp [sort, mem_insSort, ih]

theorem sort_sorted (l : List Int) : (sort l).Pairwise (· ≤ ·) := by
  induction l with
  | nil => simp [sort]
  | cons x l ih => exact insSort_sorted x ih

theorem mem_dedup (w : Int) (l : List Int) : w ∈ dedup l ↔ w ∈ l := by
  induction l with
  | nil => simp [dedup]
  | cons x l ih =>
    unfold dedup
    rw [List.mem_cons, ← ih]
    split
    · rename_i e; simp [e]
    · rename_i y ys e
      rw [e]
      split
      · rename_i hxy; subst hxy; simp
      · simp

theorem dedup_sorted {l : List Int} (h : l.Pairwise (· ≤ ·)) : (dedup l).Pairwise (· < ·) := by
  induction l with
  | nil => simp [dedup]
  | cons x l ih =>
    rw [List.pairwise_cons] at h
    have ih := ih h.2
    have hm := fun w => mem_dedup w l
    unfold dedup
    split
    · simp
    · rename_i y ys e
      rw [e] at ih hm
      split
      · exact ih
      · rename_i hxy
        rw [List.pairwise_cons]
        refine ⟨fun w hw => ?_, ih⟩
        have h1 := h.1 w ((hm w).1 hw)
        have h2 := h.1 y ((hm y).1 List.mem_cons_self)
        rw [List.pairwise_cons] at ih
        rcases List.mem_cons.1 hw with rfl | hw
        · omega
        · have := ih.1 w hw; omega

/-- Children still to be pushed. -/
def pending (m : Arena (Option Int)) (seen : List Nat) : Nat :=
  ((List.range m.nodes.length).map (fun i => if i ∈ seen then 0 else m.outDeg i)).sum

theorem pending_cons {i : Nat} (hi : i < m.nodes.length) {seen : List Nat} (h : i ∉ seen) :
    pending m seen = pending m (i :: seen) + m.outDeg i := by
  have key : ∀ L : List Nat, L.Nodup → (L.map (fun i => if i ∈ seen then 0 else m.outDeg i)).sum =
      (L.map (fun j => if j ∈ i :: seen then 0 else m.outDeg j)).sum + if i ∈ L then m.outDeg i else 0 := by
    intro L
    induction L with
    | nil => simp
    | cons x L ih =>
      intro nd
      rw [List.nodup_cons] at nd
      simp only [List.map_cons, List.sum_cons, ih nd.2]
      by_cases e : x = i
      · subst e
        simp [h, nd.1]
        omega
      · have e' : i ≠ x := fun h => e h.symm
        simp only [List.mem_cons, e, e', false_or]
        omega
  have := key _ (List.nodup_range (n := m.nodes.length))
  rw [if_pos (List.mem_range.2 hi)] at this
  exact this

theorem reach_lab (wf : WF RZ m) {v : Int} : ∀ (n i j : Nat), m.Live i → m.rank i ≤ n → Reach m i j →
    m.nodes[j]? = some (.term (some v)) → ∃ d, Lab m i d (some v) := by
  intro n
  induction n with
  | zero =>
    intro i j li hr h hn
    rcases h.cases_head with rfl | ⟨h', ch', c, e1, e2, e3⟩
    · exact ⟨_, .term hn⟩
    · obtain ⟨hd, _, _, hrk, _⟩ := wf.nt li e1
      omega
  | succ n ih =>
    intro i j li hr h hn
    rcases h.cases_head with rfl | ⟨h', ch', c, e1, e2, e3⟩
    · exact ⟨_, .term hn⟩
    · obtain ⟨hd, hh, _, hrk, _, _, hk⟩ := wf.nt li e1
      obtain ⟨d, hd'⟩ := ih c j (hk c e2).1 (by have := (hk c e2).2; omega) e3 hn
      obtain ⟨k, hk'⟩ := List.mem_iff_getElem?.1 e2
      exact ⟨_, .nt e1 hh hk' hd'⟩

theorem lab_reach {i : Nat} {d : Nat → Nat} {t : Option Int} (h : Lab m i d t) :
    ∃ j, Reach m i j ∧ m.nodes[j]? = some (.term t) := by
  induction h with
  | term hn => exact ⟨_, .refl _, hn⟩
  | nt hn hh hc _ ih =>
    obtain ⟨j, h1, h2⟩ := ih
    exact ⟨j, ((Reach.refl _).step hn (List.mem_of_getElem? hc)).trans h1, h2⟩

/-- Invariant of the loop of `labels`. -/
structure LInv (m : Arena (Option Int)) (root : Nat) (stack seen : List Nat) (out : List Int) : Prop where
  start : root ∈ seen ∨ root ∈ stack
  reach : ∀ i, i ∈ seen ∨ i ∈ stack → Reach m root i
  closed : ∀ i ∈ seen, ∀ h ch, m.nodes[i]? = some (.nt h ch) → ∀ c ∈ ch, c ∈ seen ∨ c ∈ stack
  out : ∀ v, v ∈ out ↔ ∃ i ∈ seen, m.nodes[i]? = some (.term (some v))

theorem labelsF_ok (wf : WF RZ m) {root : Nat} (lr : m.Live root) : ∀ (n : Nat) (stack seen : List Nat) (out : List Int),
    LInv m root stack seen out → stack.length + pending m seen ≤ n →
    ∃ out', labelsF m n stack seen out = some out' ∧
      ∀ v, v ∈ out' ↔ ∃ i, Reach m root i ∧ m.nodes[i]? = some (.term (some v)) := by
  have fin : ∀ (seen : List Nat) (out : List Int), LInv m root [] seen out →
      ∀ v, v ∈ out ↔ ∃ i, Reach m root i ∧ m.nodes[i]? = some (.term (some v)) := by
    intro seen out hI v
    rw [hI.out]
    have all : ∀ i, Reach m root i → i ∈ seen := by
      intro i hi
      induction hi with
      | refl => simpa using hI.start
      | step _ hn hc ih => simpa using hI.closed _ ih _ _ hn _ hc
    constructor
    · rintro ⟨i, hi, hn⟩; exact ⟨i, hI.reach i (.inl hi), hn⟩
    · rintro ⟨i, hi, hn⟩; exact ⟨i, all i hi, hn⟩
  intro n
  induction n with
  | zero =>
    intro stack seen out hI hn
    match stack with
    | [] => exact ⟨out, rfl, fin seen out hI⟩
    | i :: stack => simp at hn
  | succ n ih =>
    intro stack seen out hI hn
    match stack, hI, hn with
    | [], hI, _ => exact ⟨out, rfl, fin seen out hI⟩
    | i :: stack, hI, hn =>
      simp only [List.length_cons] at hn
      unfold labelsF
      by_cases hs : i ∈ seen
      · rw [if_pos hs]
        refine ih stack seen out ⟨?_, ?_, ?_, hI.out⟩ (by omega)
        · rcases hI.start with h | h
          · exact .inl h
          · rcases List.mem_cons.1 h with rfl | h
            · exact .inl hs
            · exact .inr h
        · rintro j (h | h)
          · exact hI.reach j (.inl h)
          · exact hI.reach j (.inr (List.mem_cons_of_mem _ h))
        · intro j hj h ch hn' c hc
          rcases hI.closed j hj h ch hn' c hc with h | h
          · exact .inl h
          · rcases List.mem_cons.1 h with rfl | h
            · exact .inl hs
            · exact .inr h
      · rw [if_neg hs]
        have ri := hI.reach i (.inr List.mem_cons_self)
        have li := wf.reach_live ri lr
        obtain ⟨nd, hnd⟩ := li.node
        have hnd' : m.node? i = some nd := hnd
        have hlt : i < m.nodes.length := (List.getElem?_eq_some_iff.1 hnd).1
        have hpend := pending_cons hlt hs
        -- the invariant for the next turn
        have next : ∀ (stack' : List Nat) (out' : List Int), (∀ j ∈ stack, j ∈ stack') →
            (∀ j ∈ stack', j ∈ stack ∨ j ∈ nd.kids) → (∀ j ∈ nd.kids, j ∈ stack') →
            (∀ v, v ∈ out' ↔ v ∈ out ∨ nd = .term (some v)) → LInv m root stack' (i :: seen) out' := by
          intro stack' out' h1 h2 h3 h4
          refine ⟨?_, ?_, ?_, ?_⟩
          · rcases hI.start with h | h
            · exact .inl (List.mem_cons_of_mem _ h)
            · rcases List.mem_cons.1 h with rfl | h
              · exact .inl List.mem_cons_self
              · exact .inr (h1 _ h)
          · rintro j (h | h)
            · rcases List.mem_cons.1 h with rfl | h
              · exact ri
              · exact hI.reach j (.inl h)
            · rcases h2 j h with h | h
              · exact hI.reach j (.inr (List.mem_cons_of_mem _ h))
              · cases nd with
                | term t => simp [Node.kids] at h
                | nt hh ch => exact ri.step hnd h
          · intro j hj hh ch hn' c hc
            rcases List.mem_cons.1 hj with rfl | hj
            · rw [hnd] at hn'; cases hn'
              exact .inr (h3 c hc)
            · rcases hI.closed j hj hh ch hn' c hc with h | h
              · exact .inl (List.mem_cons_of_mem _ h)
              · rcases List.mem_cons.1 h with rfl | h
                · exact .inl List.mem_cons_self
                · exact .inr (h1 _ h)
          · intro v
            rw [h4, hI.out]
            constructor
            · rintro (⟨j, hj, hn'⟩ | rfl)
              · exact ⟨j, List.mem_cons_of_mem _ hj, hn'⟩
              · exact ⟨i, List.mem_cons_self, hnd⟩
            · rintro ⟨j, hj, hn'⟩
              rcases List.mem_cons.1 hj with rfl | hj
              · rw [hnd] at hn'; cases hn'; exact .inr rfl
              · exact .inl ⟨j, hj, hn'⟩
        cases nd with
        | term t =>
          cases t with
          | none =>
            simp only [hnd']
            exact ih stack (i :: seen) out
              (next stack out (fun _ h => h) (fun _ h => .inl h) (by simp [Node.kids]) (by simp)) (by omega)
          | some v =>
            simp only [hnd']
            exact ih stack (i :: seen) (out ++ [v])
              (next stack (out ++ [v]) (fun _ h => h) (fun _ h => .inl h) (by simp [Node.kids])
                (by intro w; simp [eq_comm])) (by omega)
        | nt hh ch =>
          simp only [hnd']
          have hdeg : m.outDeg i = ch.length := by simp [outDeg, hnd]
          refine ih (ch.reverse ++ stack) (i :: seen) out
            (next (ch.reverse ++ stack) out (fun _ h => List.mem_append_right _ h) ?_ ?_ (by simp)) ?_
          · intro j hj
            rcases List.mem_append.1 hj with h | h
            · exact .inr (by simpa [Node.kids] using h)
            · exact .inl h
          · intro j hj
            exact List.mem_append_left _ (by simpa [Node.kids] using hj)
          · simp only [List.length_append, List.length_reverse]; omega

/-- `labels` lists the strata of the family, ascending. -/
theorem labels_ok (wf : WF RZ m) {i : Nat} (hi : m.Live i) :
    ∃ ls, labels m i = some ls ∧ ls.Pairwise (· < ·) ∧ ∀ v, v ∈ ls ↔ ∃ d, Lab m i d (some v) := by
  obtain ⟨out, h1, h2⟩ := labelsF_ok wf hi (labelsFuel m) [i] [] []
    ⟨.inr (by simp), by intro j hj; simp at hj; subst hj; exact .refl _, by simp, by simp⟩ (by
      simp only [labelsFuel, pending, List.length_cons, List.length_nil, List.not_mem_nil, if_false]
      show 0 + 1 + ((List.range m.nodes.length).map m.outDeg).sum ≤ _
      omega)
  refine ⟨dedup (sort out), by simp only [labels, h1], dedup_sorted (sort_sorted _), fun v => ?_⟩
  rw [mem_dedup, mem_sort, h2]
  constructor
  · rintro ⟨j, hj, hn⟩; exact reach_lab wf _ i j hi (Nat.le_refl _) hj hn
  · rintro ⟨d, hd⟩; exact lab_reach hd

/-! ## `extract_level` -/

theorem Rep.get_at {hv : List (String × Nat)} {d : Nat → Nat} {o : AMap String Nat} (h : Rep hv rev d o) {l s : Nat}
    {x : String} (hl : hv[l]? = some (x, s)) : o.get x = some (stOf rev s (d l)) := (h.get x _).2 ⟨l, s, hl, rfl⟩

/-- The vector's components are states (counted from the baseline). -/
def InRange (hv : List (String × Nat)) (d : Nat → Nat) : Prop := ∀ (l : Nat) (x : String) (s : Nat), hv[l]? = some (x, s) → d l < s

/-- Members have states as components. -/
theorem HOk.inRange {z : ZNd} (wf : WF RZ m) (hz : ZHdr vs m) (hp : ∀ p ∈ vs, 0 < p.2) (h : HOk vs m z)
    {d : Nat → Nat} {w : Int} (hw : Lab m z.node d (some w)) : InRange z.vars d := by
  intro l x s hl
  have hlt := (List.getElem?_eq_some_iff.1 hl).1
  have hpos : 0 < s := hp (x, s) (h.pre.subset (List.mem_of_getElem? hl))
  by_cases hd : ∃ hd ∈ m.headers, hd.level = l
  · obtain ⟨hd, hm, rfl⟩ := hd
    have h1 := wf.lab_valid hw h.live hd hm
    have h2 := hz hd hm
    rw [← h.get hlt, hl] at h2
    simp only [Option.some.injEq, Prod.mk.injEq] at h2
    omega
  · have h0 : d l = 0 := by
      have key : ∀ {i : Nat} {a : Nat → Nat} {t : Option Int}, Lab m i a t → a l = 0 := by
        intro i a t ha
        induction ha with
        | term => rfl
        | nt _ hh _ _ ih =>
          rw [upd_ne _ _ (fun e => hd ⟨_, List.mem_of_getElem? hh, e.symm⟩)]
          exact ih
      exact key hw
    omega

theorem mapEq_iff {hv : List (String × Nat)} (nd : (hv.map Prod.fst).Nodup) {d d' : Nat → Nat} {o o' : AMap String Nat}
    (h : Rep hv rev d o) (h' : Rep hv rev d' o') (hd : InRange hv d) (hd' : InRange hv d') :
    mapEq o o' = true ↔ ∀ l, l < hv.length → d l = d' l := by
  unfold mapEq
  simp only [Bool.and_eq_true, beq_iff_eq, List.all_eq_true]
  constructor
  · rintro ⟨_, h2⟩ l hl
    obtain ⟨⟨x, s⟩, hx⟩ : ∃ p, hv[l]? = some p := ⟨_, List.getElem?_eq_getElem hl⟩
    have e1 := h.get_at hx
    have e2 := h2 _ (AMap.mem_of_get e1)
    rw [h'.get_at hx] at e2
    simp only [Option.some.injEq] at e2
    have r1 := hd l x s hx
    have r2 := hd' l x s hx
    cases rev <;> simp [stOf] at e2 <;> omega
  · intro e
    have hg : ∀ x k, o.get x = some k → o'.get x = some k := by
      intro x k hk
      obtain ⟨l, s, hl, rfl⟩ := (h.get x k).1 hk
      rw [h'.get_at hl, e l (List.getElem?_eq_some_iff.1 hl).1]
    have hg' : ∀ x k, o'.get x = some k → o.get x = some k := by
      intro x k hk
      obtain ⟨l, s, hl, rfl⟩ := (h'.get x k).1 hk
      rw [h.get_at hl, e l (List.getElem?_eq_some_iff.1 hl).1]
    refine ⟨?_, fun p hp => hg _ _ (AMap.get_of_mem h.nodup hp)⟩
    have : o.keys.Perm o'.keys := (List.perm_ext_iff_of_nodup h.nodup h'.nodup).2 fun x => by
      rw [AMap.mem_keys_iff, AMap.mem_keys_iff]
      exact ⟨fun ⟨k, hk⟩ => ⟨k, hg x k hk⟩, fun ⟨k, hk⟩ => ⟨k, hg' x k hk⟩⟩
    have := this.length_eq
    simpa [AMap.keys, AMap.len] using this

theorem domAll_some (y x : AMap String Nat) : ∀ (hv : List (String × Nat)),
    (∀ p ∈ hv, (∃ a, y.get p.1 = some a) ∧ ∃ b, x.get p.1 = some b) →
    ∃ r, domAll rev y x hv = some r ∧ (r = true ↔ ∀ p ∈ hv, ∀ a b, y.get p.1 = some a → x.get p.1 = some b →
      if rev then b ≤ a else a ≤ b) := by
  intro hv
  induction hv with
  | nil => intro _; exact ⟨true, rfl, by simp⟩
  | cons p hv ih =>
    obtain ⟨n, s⟩ := p
    intro h
    obtain ⟨⟨a, ha⟩, b, hb⟩ := h (n, s) List.mem_cons_self
    obtain ⟨r, h1, h2⟩ := ih (fun p hp => h p (List.mem_cons_of_mem _ hp))
    simp only at ha hb
    unfold domAll
    simp only [ha, hb]
    by_cases hc : (if rev then a ≥ b else a ≤ b)
    · rw [if_pos hc]
      refine ⟨r, h1, h2.trans ?_⟩
      constructor
      · intro hh p hp a' b' ha' hb'
        rcases List.mem_cons.1 hp with rfl | hp
        · simp only [ha, Option.some.injEq] at ha'
          simp only [hb, Option.some.injEq] at hb'
          subst ha' hb'
          exact hc
        · exact hh p hp a' b' ha' hb'
      · intro hh p hp
        exact hh p (List.mem_cons_of_mem _ hp)
    · rw [if_neg hc]
      refine ⟨false, rfl, ?_⟩
      simp only [Bool.false_eq_true, false_iff]
      intro hh
      exact hc (hh (n, s) List.mem_cons_self a b ha hb)

theorem domAll_ok {hv : List (String × Nat)} {d d' : Nat → Nat} {y x : AMap String Nat} (hy : Rep hv rev d y)
    (hx : Rep hv rev d' x) (hd : InRange hv d) (hd' : InRange hv d') :
    ∃ r, domAll rev y x hv = some r ∧ (r = true ↔ ∀ l, l < hv.length → d l ≤ d' l) := by
  have at' : ∀ p ∈ hv, ∃ l : Nat, hv[l]? = some (p.1, p.2) := fun p hp => List.mem_iff_getElem?.1 hp
  obtain ⟨r, h1, h2⟩ := domAll_some (rev := rev) y x hv (fun p hp => by
    obtain ⟨l, hl⟩ := at' p hp
    exact ⟨⟨_, hy.get_at hl⟩, _, hx.get_at hl⟩)
  refine ⟨r, h1, h2.trans ?_⟩
  constructor
  · intro h l hl
    obtain ⟨⟨n, s⟩, hp⟩ : ∃ p, hv[l]? = some p := ⟨_, List.getElem?_eq_getElem hl⟩
    have := h (n, s) (List.mem_of_getElem? hp) _ _ (hy.get_at hp) (hx.get_at hp)
    have r1 := hd l n s hp
    have r2 := hd' l n s hp
    cases rev <;> simp [stOf] at this <;> omega
  · intro h p hp a b ha hb
    obtain ⟨l, hl⟩ := at' p hp
    rw [hy.get_at hl] at ha
    rw [hx.get_at hl] at hb
    simp only [Option.some.injEq] at ha hb
    have := h l (List.getElem?_eq_some_iff.1 hl).1
    subst ha hb
    cases rev <;> simp [stOf] <;> omega

theorem domAny_ok {hv : List (String × Nat)} (nd : (hv.map Prod.fst).Nodup) {d' : Nat → Nat} {x : AMap String Nat}
    (hx : Rep hv rev d' x) (hd' : InRange hv d') : ∀ {ds : List (Nat → Nat)} {ys : List (AMap String Nat)},
    List.Forall₂ (Rep hv rev) ds ys → (∀ d ∈ ds, InRange hv d) →
    ∃ r, domAny rev hv x ys = some r ∧ (r = true ↔ ∃ d ∈ ds, (∃ l, l < hv.length ∧ d l ≠ d' l) ∧
      ∀ l, l < hv.length → d l ≤ d' l) := by
  intro ds ys h
  induction h with
  | nil => intro _; exact ⟨false, rfl, by simp⟩
  | @cons d y ds ys hy _ ih =>
    intro hr
    obtain ⟨r, h1, h2⟩ := ih (fun d hd => hr d (List.mem_cons_of_mem _ hd))
    have hd := hr d List.mem_cons_self
    unfold domAny
    have hme := mapEq_iff nd hy hx hd hd'
    by_cases he : mapEq y x = true
    · rw [if_pos he]
      refine ⟨r, h1, h2.trans ?_⟩
      constructor
      · rintro ⟨d1, h3, h4⟩; exact ⟨d1, List.mem_cons_of_mem _ h3, h4⟩
      · rintro ⟨d1, h3, h4⟩
        rcases List.mem_cons.1 h3 with rfl | h3
        · obtain ⟨⟨l, hl, hne⟩, _⟩ := h4
          exact absurd (hme.1 he l hl) hne
        · exact ⟨d1, h3, h4⟩
    · rw [if_neg he]
      obtain ⟨q, q1, q2⟩ := domAll_ok hy hx hd hd'
      have hne : ∃ l, l < hv.length ∧ d l ≠ d' l := by
        refine Classical.byContradiction fun hc => he (hme.2 fun l hl => ?_)
        exact Classical.byContradiction fun hc' => hc ⟨l, hl, hc'⟩
      cases q with
      | true =>
        simp only [q1]
        exact ⟨true, rfl, by simp only [true_iff]; exact ⟨d, List.mem_cons_self, hne, q2.1 rfl⟩⟩
      | false =>
        simp only [q1]
        refine ⟨r, h1, h2.trans ?_⟩
        constructor
        · rintro ⟨d1, h3, h4⟩; exact ⟨d1, List.mem_cons_of_mem _ h3, h4⟩
        · rintro ⟨d1, h3, h4⟩
          rcases List.mem_cons.1 h3 with rfl | h3
          · exact absurd (q2.2 h4.2) (by simp)
          · exact ⟨d1, h3, h4⟩

open Classical in
theorem undominated_ok {hv : List (String × Nat)} (nd : (hv.map Prod.fst).Nodup) {ds : List (Nat → Nat)}
    {ys : List (AMap String Nat)} (hr : ∀ d ∈ ds, InRange hv d) (h : List.Forall₂ (Rep hv rev) ds ys) :
    ∀ {es : List (Nat → Nat)} {xs : List (AMap String Nat)}, (∀ d ∈ es, InRange hv d) →
    List.Forall₂ (Rep hv rev) es xs → ∃ out, undominated rev hv ys xs = some out ∧
      List.Forall₂ (Rep hv rev) (es.filter (fun d' => decide (¬ ∃ d ∈ ds, (∃ l, l < hv.length ∧ d l ≠ d' l) ∧
        ∀ l, l < hv.length → d l ≤ d' l))) out := by
  intro es xs he hx
  induction hx with
  | nil => exact ⟨[], rfl, by simp⟩
  | @cons d' x es xs hx _ ih =>
    obtain ⟨out, h1, h2⟩ := ih (fun d hd => he d (List.mem_cons_of_mem _ hd))
    obtain ⟨r, q1, q2⟩ := domAny_ok nd hx (he d' List.mem_cons_self) h hr
    refine ⟨if r then out else x :: out, by simp only [undominated, q1, h1], ?_⟩
    by_cases hc : ∃ d ∈ ds, (∃ l, l < hv.length ∧ d l ≠ d' l) ∧ ∀ l, l < hv.length → d l ≤ d' l
    · rw [q2.2 hc, List.filter_cons_of_neg (by simp only [decide_eq_true_eq]; exact fun h => h hc)]
      exact h2
    · have hr : r = false := by
        cases r with
        | false => rfl
        | true => exact absurd (q2.1 rfl) hc
      rw [hr, List.filter_cons_of_pos (by simpa only [decide_eq_true_eq] using hc)]
      exact .cons hx h2

/-- The strata that `extract_level` reads. -/
def Side (rev : Bool) (v w : Int) : Prop := if rev then w ≤ v else v ≤ w

/-- `extract_level` returns each extreme vector of the strata on one side of `v` exactly once. -/
theorem extractLevel_ok (wf : WF RZ m) (hz : ZHdr vs m) (nd : (vs.map Prod.fst).Nodup) (hp : ∀ p ∈ vs, 0 < p.2) {z : ZNd}
    (h : HOk vs m z) (v : Int) :
    ∃ os ds, extractLevel m z v = some os ∧ ds.Nodup ∧ List.Forall₂ (Rep z.vars z.reverse) ds os ∧
      ∀ d, d ∈ ds ↔ (∃ w, Side z.reverse v w ∧ Lab m z.node d (some w)) ∧
        ∀ d' w, Side z.reverse v w → Lab m z.node d' (some w) → (∀ l, d' l ≤ d l) → d' = d := by
  classical
  obtain ⟨ls, l1, l2, l3⟩ := labels_ok wf h.live
  let ss := ls.filter (fun w => if z.reverse then decide (w ≤ v) else decide (w ≥ v))
  have hss : ∀ w, w ∈ ss ↔ Side z.reverse v w ∧ ∃ d, Lab m z.node d (some w) := by
    intro w
    show w ∈ ls.filter _ ↔ _
    rw [List.mem_filter, l3, and_comm]
    unfold Side
    cases z.reverse <;> simp
  obtain ⟨st, os, ds, e1, e2, e3, f, e4⟩ := extract_ok wf hz nd hp h ss
  have hmem : ∀ d, d ∈ ds ↔ ∃ w, Side z.reverse v w ∧ Lab m z.node d (some w) := by
    intro d
    rw [f.mem]
    constructor
    · rintro ⟨w, hw, hl⟩; exact ⟨w, ((hss w).1 hw).1, hl⟩
    · rintro ⟨w, hw, hl⟩; exact ⟨w, (hss w).2 ⟨hw, d, hl⟩, hl⟩
  have hsupp : ∀ d ∈ ds, ∀ l, z.vars.length ≤ l → d l = 0 := by
    intro d hd l hl
    obtain ⟨w, _, hw⟩ := (hmem d).1 hd
    exact wf.lab_supp hw h.live l (by have := h.rank; omega)
  have hrange : ∀ d ∈ ds, InRange z.vars d := by
    intro d hd
    obtain ⟨w, _, hw⟩ := (hmem d).1 hd
    exact h.inRange wf hz hp hw
  obtain ⟨out, o1, o2⟩ := undominated_ok (h.nodup nd) hrange e4 hrange e4
  refine ⟨out, _, ?_, f.nodup.filter _, o2, ?_⟩
  · unfold extractLevel
    simp only [l1]
    have e1' : pathNew z (ls.filter (fun w => if z.reverse then decide (w ≤ v) else decide (w ≥ v))) = some st := e1
    simp only [e1']
    rw [collectF_ok e2 _ (by omega)]
    exact o1
  · intro d
    rw [List.mem_filter, hmem]
    refine and_congr_right fun hd => ?_
    have hdm := (hmem d).2 hd
    rw [decide_eq_true_eq]
    constructor
    · intro hn d' w hw hl hle
      refine Classical.byContradiction fun hne => hn ⟨d', (hmem d').2 ⟨w, hw, hl⟩, ?_, fun l _ => hle l⟩
      refine Classical.byContradiction fun hc => hne (funext fun l => ?_)
      by_cases hl' : l < z.vars.length
      · exact Classical.byContradiction fun hc' => hc ⟨l, hl', hc'⟩
      · rw [hsupp d hdm l (by omega), hsupp d' ((hmem d').2 ⟨w, hw, hl⟩) l (by omega)]
    · rintro hn ⟨d', hd', ⟨l, _, hne⟩, hle⟩
      obtain ⟨w, hw, hl⟩ := (hmem d').1 hd'
      refine hne (congrFun (hn d' w hw hl fun l => ?_) l)
      by_cases hl' : l < z.vars.length
      · exact hle l hl'
      · rw [hsupp d' hd' l (by omega)]; omega

end
end Zma
end DD
