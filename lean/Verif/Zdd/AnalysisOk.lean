import Verif.Zdd.Mem
import Verif.Zdd.Analysis

/-!
# Correctness of the ZDD analyses
-/

set_option autoImplicit false
set_option linter.unusedSectionVars false
set_option linter.unusedVariables false

namespace DD
open Arena
namespace Zdd

/-- The set of the elements of a list. -/
def lset (l : List String) : Set String := {x | x ∈ l}

theorem lset_snoc (l : List String) (x : String) : lset (l ++ [x]) = insert x (lset l) := by
  ext y; simp [lset, or_comm]

/-- `os` lists the paths from `i` to the selected terminals. -/
structure Lists (m : Arena T3) (ss : List Bool) (i : Nat) (os : List (List String)) : Prop where
  mem : ∀ S, (∃ l ∈ os, S = lset l) ↔ ∃ t, acc ss t = true ∧ Mem m t i S
  nodup : ∀ l ∈ os, l.Nodup
  distinct : os.Pairwise (fun l l' => lset l ≠ lset l')

theorem mem_term_iff {m : Arena T3} {i : Nat} {t u : T3} {S : Set String}
    (hi : m.nodes[i]? = some (.term u)) : Mem m t i S ↔ t = u ∧ S = ∅ := by
  constructor
  · intro h
    cases h with
    | term h => rw [hi] at h; cases h; exact ⟨rfl, rfl⟩
    | lo h => rw [hi] at h; cases h
    | hi h => rw [hi] at h; cases h
  · rintro ⟨rfl, rfl⟩; exact .term hi

theorem mem_nt_iff {m : Arena T3} {i h lo hi : Nat} {hd : Header} {t : T3} {S : Set String}
    (hn : m.nodes[i]? = some (.nt h [lo, hi])) (hh : m.headers[h]? = some hd) :
    Mem m t i S ↔ Mem m t lo S ∨ ∃ S', Mem m t hi S' ∧ S = insert hd.label S' := by
  constructor
  · intro h
    cases h with
    | term h => rw [hn] at h; cases h
    | lo h k => rw [hn] at h; cases h; exact .inl k
    | hi h k1 k2 =>
      rw [hn] at h; cases h
      rw [hh] at k1; cases k1
      exact .inr ⟨_, k2, rfl⟩
  · rintro (k | ⟨S', k, rfl⟩)
    · exact .lo hn k
    · exact .hi hn hh k

section
variable {s : Zdd} {names : List String}

/-- A label at or above the rank of a node is in none of its paths. -/
theorem mem_fresh (hs : Inv s) (hn : Lbl s.arena names) {i : Nat} (li : s.arena.Live i) {t : T3}
    {S : Set String} (h : Mem s.arena t i S) {l : Nat} {x : String} (hx : names[l]? = some x)
    (hr : s.arena.rank i ≤ l) : x ∉ S := by
  obtain ⟨a, ha, rfl⟩ := (mem_iff hs hn li).1 h
  rintro ⟨k, hk, hv⟩
  have : k = l := (List.getElem?_inj (List.getElem?_eq_some_iff.1 hk).1 hn.nodup).1 (hk.trans hx.symm)
  subst this
  have := hs.wf.lab_supp ha li k hr
  omega

theorem insert_cancel {S S' : Set String} {x : String} (h : x ∉ S) (h' : x ∉ S')
    (e : insert x S = insert x S') : S = S' := by
  ext y
  have := congrArg (y ∈ ·) e
  simp only [Set.mem_insert_iff, eq_iff_iff] at this
  constructor
  · intro hy
    rcases this.1 (.inr hy) with rfl | h2
    · exact absurd hy h
    · exact h2
  · intro hy
    rcases this.2 (.inr hy) with rfl | h2
    · exact absurd hy h'
    · exact h2

theorem Lists.term {m : Arena T3} {ss : List Bool} {i : Nat} {t : T3} (hi : m.nodes[i]? = some (.term t)) :
    Lists m ss i (if acc ss t = true then [[]] else []) := by
  have he : lset [] = ∅ := by ext; simp [lset]
  by_cases h : acc ss t = true
  · rw [if_pos h]
    refine ⟨fun S => ?_, by simp, by simp⟩
    simp only [List.mem_singleton, exists_eq_left, he, mem_term_iff hi]
    exact ⟨fun e => ⟨t, h, rfl, e⟩, fun ⟨_, _, _, e⟩ => e⟩
  · rw [if_neg h]
    refine ⟨fun S => ?_, by simp, by simp⟩
    simp only [List.not_mem_nil, false_and, exists_false, mem_term_iff hi, false_iff]
    rintro ⟨_, h1, rfl, _⟩; exact h h1

theorem Lists.nt (hs : Inv s) (hn : Lbl s.arena names) {ss : List Bool} {i h lo hi : Nat} {hd : Header}
    (li : s.arena.Live i) (hi' : s.arena.nodes[i]? = some (.nt h [lo, hi]))
    (hh : s.arena.headers[h]? = some hd) {o0 o1 : List (List String)} (h0 : Lists s.arena ss lo o0)
    (h1 : Lists s.arena ss hi o1) :
    Lists s.arena ss i (o0 ++ o1.map (· ++ [hd.label])) := by
  obtain ⟨hd', hh', _, _, _, _, hk⟩ := hs.wf.nt li hi'
  rw [hh] at hh'; cases hh'
  have k0 := hk lo (by simp)
  have k1 := hk hi (by simp)
  have hx := hn.lab hd (List.mem_of_getElem? hh)
  have f0 : ∀ l ∈ o0, hd.label ∉ lset l := by
    intro l hl
    obtain ⟨t, _, ht⟩ := (h0.mem _).1 ⟨l, hl, rfl⟩
    exact mem_fresh hs hn k0.1 ht hx k0.2
  have f1 : ∀ l ∈ o1, hd.label ∉ lset l := by
    intro l hl
    obtain ⟨t, _, ht⟩ := (h1.mem _).1 ⟨l, hl, rfl⟩
    exact mem_fresh hs hn k1.1 ht hx k1.2
  refine ⟨fun S => ?_, ?_, ?_⟩
  · constructor
    · rintro ⟨l, hl, rfl⟩
      rcases List.mem_append.1 hl with hl | hl
      · obtain ⟨t, ha, ht⟩ := (h0.mem _).1 ⟨l, hl, rfl⟩
        exact ⟨t, ha, (mem_nt_iff hi' hh).2 (.inl ht)⟩
      · obtain ⟨l', hl', rfl⟩ := List.mem_map.1 hl
        obtain ⟨t, ha, ht⟩ := (h1.mem _).1 ⟨l', hl', rfl⟩
        exact ⟨t, ha, (mem_nt_iff hi' hh).2 (.inr ⟨_, ht, lset_snoc _ _⟩)⟩
    · rintro ⟨t, ha, ht⟩
      rcases (mem_nt_iff hi' hh).1 ht with k | ⟨S', k, rfl⟩
      · obtain ⟨l, hl, rfl⟩ := (h0.mem _).2 ⟨t, ha, k⟩
        exact ⟨l, List.mem_append_left _ hl, rfl⟩
      · obtain ⟨l, hl, rfl⟩ := (h1.mem _).2 ⟨t, ha, k⟩
        exact ⟨l ++ [hd.label], List.mem_append_right _ (List.mem_map_of_mem hl), (lset_snoc _ _).symm⟩
  · intro l hl
    rcases List.mem_append.1 hl with hl | hl
    · exact h0.nodup l hl
    · obtain ⟨l', hl', rfl⟩ := List.mem_map.1 hl
      rw [List.nodup_append]
      refine ⟨h1.nodup l' hl', by simp, ?_⟩
      intro a ha b hb e
      simp at hb; subst hb; subst e
      exact f1 l' hl' ha
  · rw [List.pairwise_append]
    refine ⟨h0.distinct, ?_, ?_⟩
    · rw [List.pairwise_map]
      refine h1.distinct.imp_of_mem ?_
      intro a b ha hb hne e
      rw [lset_snoc, lset_snoc] at e
      exact hne (insert_cancel (f1 a ha) (f1 b hb) e)
    · intro a ha b hb e
      obtain ⟨b', hb', rfl⟩ := List.mem_map.1 hb
      rw [lset_snoc] at e
      exact f0 a ha (e ▸ Set.mem_insert _ _)

/-- What the iterator returns from node `i`. -/
theorem zpath_steps (hs : Inv s) (hn : Lbl s.arena names) (ss : List Bool) :
    ∀ (n i : Nat), s.arena.Live i → s.arena.rank i ≤ n → ∃ os, Lists s.arena ss i os ∧
      ∀ (rest : List ZStack) (path : List String),
        Enum.Steps (zpathStep s.arena) ⟨.node i :: rest, path, ss⟩ (os.map (· ++ path)) ⟨rest, path, ss⟩ := by
  intro n
  induction n with
  | zero =>
    intro i li hr
    obtain ⟨nd, hi⟩ := li.node
    cases nd with
    | term t =>
      refine ⟨_, .term hi, fun rest path => ?_⟩
      by_cases h : acc ss t = true
      · rw [if_pos h]
        exact .emit (s1 := ⟨rest, path, ss⟩) (by simp [zpathStep, hi, h]) (.refl _)
      · rw [if_neg h]
        exact .quiet (s1 := ⟨rest, path, ss⟩) (by simp [zpathStep, hi, h]) (.refl _)
    | nt h ch =>
      obtain ⟨hd, _, _, hr', _⟩ := hs.wf.nt li hi
      omega
  | succ n ih =>
    intro i li hr
    obtain ⟨nd, hi⟩ := li.node
    cases nd with
    | term t => exact ih i li (by rw [rank_term hi]; omega)
    | nt h ch =>
      obtain ⟨hd, hh, hl, hr', _, _, hk⟩ := hs.wf.nt li hi
      rw [hs.two hd (List.mem_of_getElem? hh)] at hl
      match ch, hl with
      | [lo, hi'], _ =>
        have k0 := hk lo (by simp)
        have k1 := hk hi' (by simp)
        obtain ⟨o0, l0, s0⟩ := ih lo k0.1 (by omega)
        obtain ⟨o1, l1, s1⟩ := ih hi' k1.1 (by omega)
        refine ⟨_, l0.nt hs hn li hi hh l1, fun rest path => ?_⟩
        have hlab : s.arena.label? i = some hd.label := by simp [label?, hi, hh]
        rw [List.map_append, List.map_map]
        refine .quiet (s1 := ⟨.node lo :: .push hd.label :: .node hi' :: .pop :: rest, path, ss⟩)
          (by simp [zpathStep, hi, hlab]) ((s0 _ _).trans ?_)
        refine .quiet (s1 := ⟨.node hi' :: .pop :: rest, hd.label :: path, ss⟩) (by simp [zpathStep]) ?_
        have e : o1.map ((· ++ path) ∘ (· ++ [hd.label])) = o1.map (· ++ (hd.label :: path)) := by
          simp [Function.comp_def]
        rw [e, ← List.append_nil (List.map _ o1)]
        refine (s1 _ _).trans ?_
        exact .quiet (s1 := ⟨rest, path, ss⟩) (by simp [zpathStep]) (.refl _)

/-- All nodes on the stack are live. -/
def StackLive (m : Arena T3) (st : ZPath) : Prop := ∀ i, ZStack.node i ∈ st.stack → m.Live i

theorem zturnsN_mono {a b : Nat} (h : a ≤ b) : zturnsN a ≤ zturnsN b := by
  induction h with
  | refl => exact Nat.le_refl _
  | step _ ih => simp only [zturnsN]; omega

theorem zturns_decr (hs : Inv s) (st : ZPath) (o : Option (List String)) (st' : ZPath)
    (hJ : StackLive s.arena st) (h : zpathStep s.arena st = some (some (o, st'))) :
    StackLive s.arena st' ∧ zturns s.arena st'.stack < zturns s.arena st.stack := by
  obtain ⟨stack, path, ss⟩ := st
  unfold zpathStep at h
  match stack with
  | [] => simp at h
  | .push x :: rest =>
    simp at h; rw [← h.2]
    exact ⟨fun i hi => hJ i (List.mem_cons_of_mem _ hi), by simp [zturns]⟩
  | .pop :: rest =>
    simp at h; rw [← h.2]
    exact ⟨fun i hi => hJ i (List.mem_cons_of_mem _ hi), by simp [zturns]⟩
  | .node i :: rest =>
    have li : s.arena.Live i := hJ i List.mem_cons_self
    obtain ⟨nd, hi⟩ := li.node
    cases nd with
    | term t =>
      simp [hi] at h; rw [← h.2]
      refine ⟨fun i hi => hJ i (List.mem_cons_of_mem _ hi), ?_⟩
      have : zturnsN (s.arena.rank i) = 1 := by rw [rank_term hi]; rfl
      simp only [zturns]; omega
    | nt hh ch =>
      obtain ⟨hd, hh', hl, hr', _, _, hk⟩ := hs.wf.nt li hi
      rw [hs.two hd (List.mem_of_getElem? hh')] at hl
      match ch, hl with
      | [lo, hi'], _ =>
        have k0 := hk lo (by simp)
        have k1 := hk hi' (by simp)
        have hlab : s.arena.label? i = some hd.label := by simp [label?, hi, hh']
        simp [hi, hlab] at h; rw [← h.2]
        constructor
        · intro j hj
          simp only [List.mem_cons, ZStack.node.injEq, reduceCtorEq, false_or] at hj
          rcases hj with rfl | rfl | hj
          · exact k0.1
          · exact k1.1
          · exact hJ j (List.mem_cons_of_mem _ hj)
        · simp only [zturns, hr', zturnsN]
          have := zturnsN_mono k0.2
          have := zturnsN_mono k1.2
          omega

/-- The iterator yields each selected path exactly once and stops. -/
theorem zpath_ok (hs : Inv s) (hn : Lbl s.arena names) {i : Nat} (li : s.arena.Live i) (ss : List Bool) :
    ∃ os, Enum.Yields (zpathNext s.arena) (zpathNew i ss) os ∧ Lists s.arena ss i os := by
  obtain ⟨os, h1, h2⟩ := zpath_steps hs hn ss _ i li (Nat.le_refl _)
  refine ⟨os, ?_, h1⟩
  have h := Enum.Steps.yieldsJ (μ := fun st : ZPath => zturns s.arena st.stack) (zturns_decr hs)
    (by intro j hj; simp at hj; subst hj; exact li) (h2 [] []) (by simp [zpathStep])
  simp only [List.append_nil, List.map_id'] at h
  exact h

/-- The count is the length of any such list. -/
theorem zcount_ok (hs : Inv s) (hn : Lbl s.arena names) {i : Nat} (li : s.arena.Live i) (ss : List Bool) :
    ∃ n os, zcount s.arena ss i = some n ∧ Lists s.arena ss i os ∧ n = os.length := by
  obtain ⟨r, c, h1, ⟨os, h2, h3⟩, _⟩ := memoFold_ok hs.wf
    (leaf := fun t => some (if acc ss t then 1 else 0)) (comb := zcountComb) (Q := fun _ => True)
    (P := fun i r => ∃ os, Lists s.arena ss i os ∧ r = os.length)
    (fun _ _ _ _ _ _ _ => trivial)
    (by
      intro i t _ _ hi
      refine ⟨_, rfl, _, .term hi, ?_⟩
      by_cases h : acc ss t = true <;> simp [h])
    (by
      intro i h ch rs _ li hi hl hP
      obtain ⟨hd, hh, hl', _, _, _, hk⟩ := hs.wf.nt li hi
      rw [hs.two hd (List.mem_of_getElem? hh)] at hl'
      match ch, hl', rs, hl with
      | [lo, hi'], _, [e0, e1], _ =>
        obtain ⟨o0, l0, rfl⟩ := hP 0 lo e0 rfl rfl
        obtain ⟨o1, l1, rfl⟩ := hP 1 hi' e1 rfl rfl
        exact ⟨_, rfl, _, l0.nt hs hn li hi hh l1, by simp⟩)
    (s.arena.rank i + 1) i AMap.empty trivial li (Nat.lt_succ_self _) (memoP_empty _)
  exact ⟨r, os, by simp [zcount, h1], h2, h3⟩

end
end Zdd
end DD
