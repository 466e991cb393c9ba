import Verif.Core.Sem

/-!
# Mark-and-sweep collection shared by the engines

/repo/bddcore/src/bdd.rs:165-204, /repo/bddcore/src/zdd.rs:127-164,
/repo/mddcore/src/mdd.rs:142-175, /repo/mddcore/src/mtmdd.rs:162-192,
/repo/mddcore/src/zmdd.rs:108-135.
-/

set_option autoImplicit false
set_option linter.unusedSectionVars false

namespace DD

/-- Children of a node. -/
def Node.kids {T : Type} : Node T → List Nat
  | .term _ => []
  | .nt _ ch => ch

/-- The `while let Some(id) = stack.pop()` loop (e.g. /repo/bddcore/src/bdd.rs:173-182).
The head of `stack` is the top.  `none`: index panic or out of fuel. -/
def markLoop {T : Type} (nodes : List (Node T)) : Nat → List Bool → List Nat → Option (List Bool)
  | _, live, [] => some live
  | 0, _, _ :: _ => none
  | fuel + 1, live, id :: stack =>
    match live[id]? with
    | none => none
    | some true => markLoop nodes fuel live stack
    | some false =>
      match nodes[id]? with
      | none => none
      | some (.term _) => markLoop nodes fuel (live.set id true) stack
      | some (.nt _ ch) => markLoop nodes fuel (live.set id true) (ch.reverse ++ stack)

/-- `live[zero] = true; …` (e.g. /repo/bddcore/src/bdd.rs:168-170). `none`: index panic. -/
def setAll : List Bool → List Nat → Option (List Bool)
  | live, [] => some live
  | live, i :: is => if i < live.length then setAll (live.set i true) is else none

/-- Bound on the number of loop iterations. -/
def markFuel {T : Type} (nodes : List (Node T)) (roots : List Nat) : Nat :=
  roots.length + (nodes.map (fun n => n.kids.length)).sum

namespace Arena

variable {T : Type} [DecidableEq T] [Fixed T]

/-- Mark phase: the `live` vector (e.g. /repo/bddcore/src/bdd.rs:166-182). -/
def mark (m : Arena T) (roots : List Nat) : Option (List Bool) :=
  match setAll (List.replicate m.nodes.length false) (slots T) with
  | none => none
  | some live =>
    let stack := (roots.filter (fun r => decide (r < m.nodes.length))).reverse
    markLoop m.nodes (markFuel m.nodes stack) live stack

/-- Sweep phase: prune the table(s), rebuild the free list
(e.g. /repo/bddcore/src/bdd.rs:184, 197-203). -/
def sweep (m : Arena T) (live : List Bool) : Option (Arena T) :=
  if m.utable.kvs.all (fun e => decide (e.2 < live.length)) then
    some { m with
      utable := m.utable.retain (fun v => live[v]? == some true)
      free := ((List.range live.length).filter (fun i => live[i]? == some false)).reverse }
  else none

/-- Mark and sweep on the arena; returns the `live` vector for the cache pruning of the engine. -/
def gcA (m : Arena T) (roots : List Nat) : Option (List Bool × Arena T) :=
  match m.mark roots with
  | none => none
  | some live => (m.sweep live).map (fun m' => (live, m'))

/-! ## Specification -/

/-- `j` is `i` or a descendant of `i`. -/
inductive Reach (m : Arena T) : Nat → Nat → Prop
  | refl (i : Nat) : Reach m i i
  | step {i j : Nat} {h : Nat} {ch : List Nat} {c : Nat} :
      Reach m i j → m.nodes[j]? = some (.nt h ch) → c ∈ ch → Reach m i c

/-! ## Proofs -/

theorem Reach.trans {m : Arena T} {i j k : Nat} (h : Reach m i j) (h' : Reach m j k) :
    Reach m i k := by
  induction h' with
  | refl => exact h
  | step _ hn hc ih => exact .step ih hn hc

theorem Reach.cases_head {m : Arena T} {i j : Nat} (h : Reach m i j) :
    i = j ∨ ∃ hh ch c, m.nodes[i]? = some (.nt hh ch) ∧ c ∈ ch ∧ Reach m c j := by
  induction h with
  | refl => exact Or.inl rfl
  | @step j h ch c _ hn hc ih =>
    rcases ih with rfl | ⟨hh, ch', c', h1, h2, h3⟩
    · exact Or.inr ⟨h, ch, c, hn, hc, .refl c⟩
    · exact Or.inr ⟨hh, ch', c', h1, h2, .step h3 hn hc⟩

theorem WF.reach_live {R : List Nat → Prop} {m : Arena T} (wf : WF R m) {i j : Nat}
    (h : Reach m i j) (hi : m.Live i) : m.Live j := by
  induction h with
  | refl => exact hi
  | step _ hn hc ih => exact (wf.kid _ _ _ ih hn _ hc).1

theorem setAll_spec : ∀ (is : List Nat) (live : List Bool), (∀ i ∈ is, i < live.length) →
    ∃ l, setAll live is = some l ∧ l.length = live.length ∧
      ∀ j, l[j]? = some true ↔ (live[j]? = some true ∨ j ∈ is) := by
  intro is
  induction is with
  | nil => intro live _; exact ⟨live, rfl, rfl, by simp⟩
  | cons i is ih =>
    intro live h
    have hi := h i List.mem_cons_self
    obtain ⟨l, h1, h2, h3⟩ := ih (live.set i true) (by
      intro j hj; rw [List.length_set]; exact h j (List.mem_cons_of_mem _ hj))
    refine ⟨l, by simp [setAll, hi, h1], by rw [h2, List.length_set], ?_⟩
    intro j
    rw [h3, List.getElem?_set]
    by_cases hij : i = j
    · subst hij
      simp [hi]
    · simp only [hij, if_false, List.mem_cons]
      constructor
      · rintro (h | h)
        · exact Or.inl h
        · exact Or.inr (Or.inr h)
      · rintro (h | h | h)
        · exact Or.inl h
        · exact absurd h.symm hij
        · exact Or.inr h

/-- Work left: children of unmarked nodes. -/
def work {T : Type} : List (Node T) → List Bool → Nat
  | [], _ => 0
  | _, [] => 0
  | n :: ns, b :: bs => (if b then 0 else n.kids.length) + work ns bs

omit [DecidableEq T] [Fixed T] in
theorem work_set : ∀ (ns : List (Node T)) (live : List Bool) (i : Nat) (n : Node T),
    ns[i]? = some n → live[i]? = some false →
    work ns (live.set i true) + n.kids.length = work ns live := by
  intro ns
  induction ns with
  | nil => intro live i n h; simp at h
  | cons x xs ih =>
    intro live i n h1 h2
    cases live with
    | nil => simp at h2
    | cons b bs =>
      cases i with
      | zero =>
        simp at h1 h2
        subst h1 h2
        simp [work]
        omega
      | succ i =>
        simp at h1 h2
        have := ih bs i n h1 h2
        simp only [List.set_cons_succ, work]
        omega

omit [DecidableEq T] [Fixed T] in
theorem work_le : ∀ (ns : List (Node T)) (live : List Bool),
    work ns live ≤ (ns.map (fun n => n.kids.length)).sum := by
  intro ns
  induction ns with
  | nil => intro live; simp [work]
  | cons x xs ih =>
    intro live
    cases live with
    | nil => simp [work]
    | cons b bs =>
      have := ih bs
      simp only [work, List.map_cons, List.sum_cons]
      split <;> omega

/-- Loop invariant consequence: the loop ends and marks a closed set, nothing superfluous. -/
theorem markLoop_spec (m : Arena T) (P : Nat → Prop)
    (hkid : ∀ (i h : Nat) ch, P i → m.nodes[i]? = some (.nt h ch) → ∀ c ∈ ch, P c)
    (hlt : ∀ i, P i → i < m.nodes.length) :
    ∀ (fuel : Nat) (live : List Bool) (stack : List Nat),
      live.length = m.nodes.length → (∀ i ∈ stack, P i) →
      stack.length + work m.nodes live ≤ fuel →
      ∃ l, markLoop m.nodes fuel live stack = some l ∧ l.length = m.nodes.length ∧
        (∀ i : Nat, live[i]? = some true → l[i]? = some true) ∧
        (∀ i ∈ stack, l[i]? = some true) ∧
        (∀ i : Nat, l[i]? = some true → live[i]? = some true ∨ ∃ s ∈ stack, Reach m s i) ∧
        (∀ (i h : Nat) ch, l[i]? = some true → live[i]? ≠ some true →
          m.nodes[i]? = some (.nt h ch) → ∀ c ∈ ch, l[c]? = some true) := by
  intro fuel
  induction fuel with
  | zero =>
    intro live stack hl hs hw
    cases stack with
    | nil =>
      exact ⟨live, by simp [markLoop], hl, fun _ h => h, by simp, fun _ h => Or.inl h,
        fun i h ch h1 h2 => absurd h1 h2⟩
    | cons i st => simp at hw
  | succ fuel ih =>
    intro live stack hl hs hw
    cases stack with
    | nil =>
      exact ⟨live, by simp [markLoop], hl, fun _ h => h, by simp, fun _ h => Or.inl h,
        fun i h ch h1 h2 => absurd h1 h2⟩
    | cons i st =>
      have hPi := hs i List.mem_cons_self
      have hi := hlt i hPi
      have hst : ∀ j ∈ st, P j := fun j hj => hs j (List.mem_cons_of_mem _ hj)
      have hil : i < live.length := by omega
      simp only [List.length_cons] at hw
      cases hb : live[i]? with
      | none => rw [List.getElem?_eq_none_iff] at hb; omega
      | some b =>
        cases b with
        | true =>
          obtain ⟨l, h1, h2, h3, h4, h5, h6⟩ := ih live st hl hst (by omega)
          refine ⟨l, by simp [markLoop, hb, h1], h2, h3, ?_, ?_, h6⟩
          · intro j hj
            rcases List.mem_cons.1 hj with rfl | hj
            · exact h3 _ hb
            · exact h4 j hj
          · intro j hj
            rcases h5 j hj with h | ⟨s, hs', hr⟩
            · exact Or.inl h
            · exact Or.inr ⟨s, List.mem_cons_of_mem _ hs', hr⟩
        | false =>
          cases hn : m.nodes[i]? with
          | none => rw [List.getElem?_eq_none_iff] at hn; omega
          | some n =>
            have hwk := work_set m.nodes live i n hn hb
            have hset : ∀ j, (live.set i true)[j]? = some true ↔ live[j]? = some true ∨ j = i := by
              intro j
              rw [List.getElem?_set]
              by_cases hij : i = j
              · subst hij; simp [hil]
              · simp only [hij, if_false]
                constructor
                · exact Or.inl
                · rintro (h | h)
                  · exact h
                  · exact absurd h.symm hij
            have hkids : ∀ c ∈ n.kids, P c := by
              cases n with
              | term t => simp [Node.kids]
              | nt h ch => exact hkid i h ch hPi hn
            obtain ⟨l, h1, h2, h3, h4, h5, h6⟩ := ih (live.set i true) (n.kids.reverse ++ st)
              (by rw [List.length_set, hl])
              (by
                intro j hj
                rcases List.mem_append.1 hj with hj | hj
                · exact hkids j (List.mem_reverse.1 hj)
                · exact hst j hj)
              (by simp only [List.length_append, List.length_reverse]; omega)
            have hli : l[i]? = some true := h3 i ((hset i).2 (Or.inr rfl))
            have hkl : ∀ c ∈ n.kids, l[c]? = some true := fun c hc =>
              h4 c (List.mem_append_left _ (List.mem_reverse.2 hc))
            refine ⟨l, ?_, h2, fun j hj => h3 j ((hset j).2 (Or.inl hj)), ?_, ?_, ?_⟩
            · cases n with
              | term t => simpa [markLoop, hb, hn, Node.kids] using h1
              | nt h ch => simpa [markLoop, hb, hn, Node.kids] using h1
            · intro j hj
              rcases List.mem_cons.1 hj with rfl | hj
              · exact hli
              · exact h4 j (List.mem_append_right _ hj)
            · intro j hj
              rcases h5 j hj with h | ⟨s, hs', hr⟩
              · rcases (hset j).1 h with h | rfl
                · exact Or.inl h
                · exact Or.inr ⟨j, List.mem_cons_self, .refl _⟩
              · rcases List.mem_append.1 hs' with hs' | hs'
                · right
                  refine ⟨i, List.mem_cons_self, ?_⟩
                  cases n with
                  | term t => simp [Node.kids] at hs'
                  | nt h ch =>
                    exact Reach.trans (.step (.refl i) hn (by simpa [Node.kids] using hs')) hr
                · exact Or.inr ⟨s, List.mem_cons_of_mem _ hs', hr⟩
            · intro j h ch hj hnj hnd
              by_cases hji : j = i
              · subst hji
                rw [hn] at hnd
                cases hnd
                exact hkl
              · apply h6 j h ch hj _ hnd
                rw [ne_eq, hset]
                rintro (h | h)
                · exact hnj h
                · exact hji h

/-- Which slots survive. -/
def Survives (m : Arena T) (roots : List Nat) (i : Nat) : Prop :=
  i ∈ slots T ∨ ∃ r ∈ roots, r < m.nodes.length ∧ Reach m r i

theorem WF.slot_live {R : List Nat → Prop} {m : Arena T} (wf : WF R m) {i : Nat}
    (h : i ∈ slots T) : m.Live i ∧ ∃ t, m.nodes[i]? = some (.term t) := by
  obtain ⟨t, ht⟩ := (slots_iff i).1 h
  obtain ⟨h1, h2⟩ := wf.fixed_live ht
  exact ⟨h1, t, h2⟩

theorem WF.survives_live {R : List Nat → Prop} {m : Arena T} (wf : WF R m) {roots : List Nat}
    (hr : ∀ r ∈ roots, r < m.nodes.length → m.Live r) {i : Nat} (h : m.Survives roots i) :
    m.Live i := by
  rcases h with h | ⟨r, h1, h2, h3⟩
  · exact (wf.slot_live h).1
  · exact wf.reach_live h3 (hr r h1 h2)

theorem mark_spec {R : List Nat → Prop} {m : Arena T} (wf : WF R m) {roots : List Nat}
    (hr : ∀ r ∈ roots, r < m.nodes.length → m.Live r) :
    ∃ l, m.mark roots = some l ∧ l.length = m.nodes.length ∧
      ∀ i, l[i]? = some true ↔ m.Survives roots i := by
  obtain ⟨l0, h1, h2, h3⟩ := setAll_spec (slots T) (List.replicate m.nodes.length false)
    (by intro i hi; rw [List.length_replicate]; exact (wf.slot_live hi).1.1)
  have h3' : ∀ j, l0[j]? = some true ↔ j ∈ slots T := by
    intro j
    rw [h3]
    constructor
    · rintro (h | h)
      · rw [List.getElem?_replicate] at h
        split at h <;> cases h
      · exact h
    · exact Or.inr
  rw [List.length_replicate] at h2
  generalize hst : (roots.filter (fun r => decide (r < m.nodes.length))).reverse = stack
  have hmem : ∀ i, i ∈ stack ↔ i ∈ roots ∧ i < m.nodes.length := by
    intro i; rw [← hst]; simp
  obtain ⟨l, g1, g2, g3, g4, g5, g6⟩ := markLoop_spec m m.Live
    (fun i h ch hi hn c hc => (wf.kid i h ch hi hn c hc).1) (fun i hi => hi.1)
    (markFuel m.nodes stack) l0 stack h2
    (by intro i hi; obtain ⟨a, b⟩ := (hmem i).1 hi; exact hr i a b)
    (by unfold markFuel; have := work_le m.nodes l0; omega)
  refine ⟨l, ?_, g2, ?_⟩
  · unfold mark
    simp only [h1, hst]
    exact g1
  · intro i
    constructor
    · intro hi
      rcases g5 i hi with h | ⟨s, hs, hrs⟩
      · exact Or.inl ((h3' i).1 h)
      · obtain ⟨a, b⟩ := (hmem s).1 hs
        exact Or.inr ⟨s, a, b, hrs⟩
    · rintro (h | ⟨r, hr1, hr2, hr3⟩)
      · exact g3 i ((h3' i).2 h)
      · induction hr3 with
        | refl => exact g4 _ ((hmem _).2 ⟨hr1, hr2⟩)
        | @step j h ch c _ hn hc ih =>
          apply g6 j h ch ih _ hn c hc
          rw [ne_eq, h3']
          intro hj
          obtain ⟨_, t, ht⟩ := wf.slot_live hj
          rw [ht] at hn
          cases hn

/-- Everything the engines need to know about mark-and-sweep. -/
theorem gcA_spec {R : List Nat → Prop} {m : Arena T} (wf : WF R m) {roots : List Nat}
    (hr : ∀ r ∈ roots, r < m.nodes.length → m.Live r) :
    ∃ l m', m.gcA roots = some (l, m') ∧ WF R m' ∧ m'.headers = m.headers ∧ m'.nodes = m.nodes ∧
      l.length = m.nodes.length ∧ (∀ i, l[i]? = some true ↔ m.Survives roots i) ∧
      (∀ i, m'.Live i ↔ m.Survives roots i) ∧ Step m' m := by
  obtain ⟨l, h1, h2, h3⟩ := mark_spec wf hr
  have hall : m.utable.kvs.all (fun e => decide (e.2 < l.length)) = true := by
    rw [List.all_eq_true]
    rintro ⟨k, v⟩ hkv
    have := (wf.ut_live (AMap.get_of_mem wf.ut_nodup hkv)).1.1
    simpa [h2] using this
  generalize hm' : ({ m with
      utable := m.utable.retain (fun v => l[v]? == some true)
      free := ((List.range l.length).filter (fun i => l[i]? == some false)).reverse } : Arena T)
      = m'
  have hh : m'.headers = m.headers := by rw [← hm']
  have hn : m'.nodes = m.nodes := by rw [← hm']
  have hu : m'.utable = m.utable.retain (fun v => l[v]? == some true) := by rw [← hm']
  have hf : m'.free = ((List.range l.length).filter (fun i => l[i]? == some false)).reverse := by
    rw [← hm']
  have hfm : ∀ i, i ∈ m'.free ↔ l[i]? = some false := by
    intro i
    rw [hf, List.mem_reverse, List.mem_filter, List.mem_range]
    constructor
    · rintro ⟨_, h⟩; simpa using h
    · intro h
      refine ⟨(List.getElem?_eq_some_iff.1 h).1, by simpa using h⟩
  have hlive : ∀ i, m'.Live i ↔ m.Survives roots i := by
    intro i
    rw [← h3, Live, hn, hfm, ← h2]
    constructor
    · rintro ⟨a, b⟩
      rw [List.getElem?_eq_getElem a] at b ⊢
      cases hb : l[i] with
      | true => rfl
      | false => rw [hb] at b; exact absurd rfl b
    · intro h
      refine ⟨(List.getElem?_eq_some_iff.1 h).1, ?_⟩
      rw [h]; simp
  have hsub : ∀ i, m'.Live i → m.Live i := fun i hi => wf.survives_live hr ((hlive i).1 hi)
  have hstep : Step m' m :=
    ⟨⟨fun h hd e => by rw [hh] at e; exact e, fun i hi => ⟨hsub i hi, by rw [hn]⟩, Nat.le_of_eq (by rw [hn])⟩, hh.symm⟩
  have hrank : ∀ i, m'.rank i = m.rank i := by
    intro i; simp [rank, level?, hn, hh]
  have hkid : ∀ (i h : Nat) ch, m'.Live i → m.nodes[i]? = some (.nt h ch) → ∀ c ∈ ch, m'.Live c := by
    intro i h ch hi hni c hc
    rw [hlive] at hi ⊢
    rcases hi with hi | ⟨r, h1, h2, h3⟩
    · obtain ⟨_, t, ht⟩ := wf.slot_live hi
      rw [ht] at hni; cases hni
    · exact Or.inr ⟨r, h1, h2, .step h3 hni hc⟩
  refine ⟨l, m', ?_, ?_, hh, hn, h2, h3, hlive, hstep⟩
  · unfold gcA sweep
    simp only [h1, hall, if_true, Option.map_some, hm']
  · refine
      { free_lt := ?_
        free_nodup := ?_
        ut_nodup := by rw [hu]; exact AMap.nodup_retain wf.ut_nodup _
        ut_fixed := ?_
        find_iff := ?_
        hdr := ?_
        kid := ?_
        red := ?_
        arity := by rw [hh]; exact wf.arity
        pos := by rw [hh]; exact wf.pos }
    · intro i hi
      rw [hfm] at hi
      rw [hn, ← h2]
      exact (List.getElem?_eq_some_iff.1 hi).1
    · rw [hf]
      unfold List.Nodup
      rw [List.pairwise_reverse]
      exact (List.Pairwise.filter _ List.nodup_range).imp (fun h => Ne.symm h)
    · intro t i ht
      rw [hu, AMap.get_retain wf.ut_nodup, wf.ut_fixed t i ht]
      rfl
    · intro k i
      have hget : m'.utable.get k = some i ↔ m.utable.get k = some i ∧ m'.Live i := by
        rw [hu, AMap.get_retain wf.ut_nodup, Option.filter_eq_some_iff, hlive, ← h3]
        simp
      have hbase := wf.find_iff k i
      rw [hn]
      cases k with
      | nt a b =>
        simp only [find] at hbase ⊢
        rw [hget, hbase]
        constructor
        · rintro ⟨⟨_, a⟩, b⟩; exact ⟨b, a⟩
        · rintro ⟨a, b⟩; exact ⟨⟨hsub i a, b⟩, a⟩
      | term t =>
        cases hft : fix t with
        | none =>
          simp only [find, hft, Option.none_or] at hbase ⊢
          rw [hget, hbase]
          constructor
          · rintro ⟨⟨_, a⟩, b⟩; exact ⟨b, a⟩
          · rintro ⟨a, b⟩; exact ⟨⟨hsub i a, b⟩, a⟩
        | some j =>
          simp only [find, hft, Option.some_or] at hbase ⊢
          rw [hbase]
          constructor
          · rintro ⟨a, b⟩
            refine ⟨?_, b⟩
            have hj := hbase.2 ⟨a, b⟩
            cases hj
            rw [hlive]
            exact Or.inl ((slots_iff _).2 ⟨t, hft⟩)
          · rintro ⟨a, b⟩; exact ⟨hsub i a, b⟩
    · intro i h ch hi hni
      rw [hn] at hni
      rw [hh]
      exact wf.hdr i h ch (hsub i hi) hni
    · intro i h ch hi hni c hc
      rw [hn] at hni
      refine ⟨hkid i h ch hi hni c hc, ?_⟩
      rw [hrank, hrank]
      exact (wf.kid i h ch (hsub i hi) hni c hc).2
    · intro i h ch hi hni
      rw [hn] at hni
      exact wf.red i h ch (hsub i hi) hni

end Arena
end DD
