import Verif.Bss.AnalysisOk

/-!
# Correctness of the path iterator
-/

set_option autoImplicit false
set_option linter.unusedSectionVars false
set_option linter.unusedVariables false

namespace DD
open Arena
namespace Bdd

/-- All assignments of the levels below `n` (0 elsewhere). -/
def asg : Nat → List (Nat → Bool)
  | 0 => [fun _ => false]
  | n + 1 => (asg n).map (fun a => Function.update a n false) ++
      (asg n).map (fun a => Function.update a n true)

/-- Literal. -/
def lit (x : String) (b : Bool) : String := if b then x else "~" ++ x

/-- The literals of an assignment, lowest level first. -/
def lits (names : List String) (n : Nat) (a : Nat → Bool) : List String :=
  (List.range n).map (fun k => lit (names.getD k "") (a k))

theorem lits_succ (names : List String) (n : Nat) (a : Nat → Bool) (b : Bool) :
    lits names (n + 1) (Function.update a n b) = lits names n a ++ [lit (names.getD n "") b] := by
  unfold lits
  rw [List.range_succ, List.map_append]
  congr 1
  · refine List.map_congr_left fun k hk => ?_
    rw [Function.update_of_ne (by have := List.mem_range.1 hk; omega)]
  · simp

/-- What the iterator should return from a node with function `F` at depth `n`. -/
def outs (names : List String) (ss : List Bool) (n : Nat) (F : BFun) : List (List String) :=
  ((asg n).filter (fun a => decide (F a ∈ ss))).map (lits names n)

theorem outs_succ (names : List String) (ss : List Bool) (n : Nat) (F : BFun) :
    outs names ss (n + 1) F =
      (outs names ss n (F.cof n false)).map (· ++ [lit (names.getD n "") false]) ++
      (outs names ss n (F.cof n true)).map (· ++ [lit (names.getD n "") true]) := by
  unfold outs
  simp only [asg, List.filter_append, List.map_append, List.filter_map, List.map_map]
  congr 1
  all_goals
    simp only [Function.comp_def, cof_update]
    refine List.map_congr_left fun a _ => ?_
    exact lits_succ names n a _

theorem outs_zero (names : List String) (ss : List Bool) (F : BFun) :
    outs names ss 0 F = if F (fun _ => false) ∈ ss then [[]] else [] := by
  unfold outs asg
  by_cases h : F (fun _ => false) ∈ ss <;> simp [h, lits]

theorem turnsNode_pos (n : Nat) : 0 < turnsNode n := by cases n <;> simp [turnsNode]

theorem depth_pred (k : Nat) : depth (pred? (some k)) = k := by cases k <;> rfl

theorem expand_turns {st st' : PathSt} {l : Option Nat} {lo hi : Nat} {rest : List StackValue}
    (h : expand st l lo hi rest = some st') :
    turns st'.stack < turns (.node l lo :: rest) := by
  cases l with
  | none => cases h
  | some k =>
    simp only [expand] at h
    cases e : st.labels[k]? with
    | none => rw [e] at h; cases h
    | some x =>
      rw [e] at h; simp only [Option.some.injEq] at h; subst h
      simp only [turns, depth_pred]
      simp only [depth, turnsNode]; omega

theorem turns_decr {m : Arena T3} (st : PathSt) (o : Option (List String)) (st' : PathSt)
    (h : pathStep m st = some (some (o, st'))) : turns st'.stack < turns st.stack := by
  unfold pathStep at h
  cases hs : st.stack with
  | nil => rw [hs] at h; cases h
  | cons v rest =>
    rw [hs] at h
    simp only [Option.map_eq_some_iff, Option.some.injEq, exists_eq_right] at h
    have hex : ∀ {l lo hi}, (expand st l lo hi rest).map (fun s => ((none : Option (List String)), s)) = some (o, st') →
        turns st'.stack < turnsNode (depth l) + turns rest := by
      intro l lo hi h
      cases e : expand st l lo hi rest with
      | none => rw [e] at h; cases h
      | some s =>
        rw [e] at h
        simp only [Option.map_some, Option.some.injEq, Prod.mk.injEq] at h
        rw [← h.2]; exact expand_turns e
    cases v with
    | push x =>
      simp only [pathTurn, Option.some.injEq, Prod.mk.injEq] at h
      rw [← h.2]; simp [turns]
    | pop =>
      simp only [pathTurn, Option.some.injEq, Prod.mk.injEq] at h
      rw [← h.2]; simp [turns]
    | node l i =>
      simp only [turns]
      have hp := turnsNode_pos (depth l)
      simp only [pathTurn] at h
      cases hn : m.nodes[i]? with
      | none => rw [hn] at h; cases h
      | some n =>
        rw [hn] at h
        cases n with
        | nt hh ch =>
          simp only at h
          by_cases hl : l = m.level? i
          · rw [if_pos hl] at h
            match ch, h with
            | [lo, hi], h => exact hex h
          · rw [if_neg hl] at h; exact hex h
        | term t =>
          have hfin : ∀ (c : Bool) , (if l = none then
              if c = true then some (some st.path, { st with stack := rest })
              else some (none, { st with stack := rest })
              else (expand st l i i rest).map (fun s => (none, s))) = some (o, st') →
              turns st'.stack < turnsNode (depth l) + turns rest := by
            intro c h
            by_cases hl : l = none
            · rw [if_pos hl] at h
              by_cases hc : c = true
              · rw [if_pos hc] at h
                simp only [Option.some.injEq, Prod.mk.injEq] at h
                rw [← h.2]; show turns rest < _; omega
              · rw [if_neg hc] at h
                simp only [Option.some.injEq, Prod.mk.injEq] at h
                rw [← h.2]; show turns rest < _; omega
            · rw [if_neg hl] at h; exact hex h
          cases t with
          | undet =>
            simp only [Option.some.injEq, Prod.mk.injEq] at h
            rw [← h.2]; show turns rest < _; omega
          | zero => exact hfin _ h
          | one => exact hfin _ h

theorem fillLabels_mk (todo : List String) : ∀ done : List String,
    fillLabels (todo.mapIdx (fun i s => ⟨done.length + i, s, 2⟩)) (done ++ List.replicate todo.length "") =
      some (done ++ todo) := by
  induction todo with
  | nil => intro done; simp [fillLabels]
  | cons x todo ih =>
    intro done
    rw [List.mapIdx_cons]
    unfold fillLabels
    rw [if_pos (by simp)]
    have h1 : (done ++ List.replicate (x :: todo).length "").set (done.length + 0) x =
        (done ++ [x]) ++ List.replicate todo.length "" := by
      rw [List.set_append_right _ _ (by omega)]
      simp [List.replicate_succ]
    have h2 : todo.mapIdx (fun i s => (⟨done.length + (i + 1), s, 2⟩ : Header)) =
        todo.mapIdx (fun i s => ⟨(done ++ [x]).length + i, s, 2⟩) := by
      simp [Nat.add_assoc, Nat.add_comm 1]
    rw [h1, h2, ih]
    simp

theorem pathNew_ok {m : Arena T3} {names : List String} (hm : m.headers = mkHeaders names) (i : Nat)
    (ss : List Bool) : pathNew m i ss = some ⟨[.node (m.level? i) i], [], names, ss⟩ := by
  have h := fillLabels_mk names []
  have hl : (mkHeaders names).length = names.length := by simp [mkHeaders]
  unfold pathNew
  rw [hm, hl]
  have h' : fillLabels (mkHeaders names) (List.replicate names.length "") = some names := by
    simpa [mkHeaders] using h
  rw [h']

/-- A result goes to the front of the path. -/
theorem path_steps {s : Bdd} (hs : Inv s) (inj : s.arena.LevInj) (names : List String) (ss : List Bool) :
    ∀ (n : Nat) (l : Option Nat) (i : Nat) (F : BFun) (rest : List StackValue) (path : List String),
      depth l = n → Den s.arena i F → s.arena.rank i ≤ n → n ≤ names.length →
      Enum.Steps (pathStep s.arena) ⟨.node l i :: rest, path, names, ss⟩
        ((outs names ss n F).map (· ++ path)) ⟨rest, path, names, ss⟩ := by
  intro n
  induction n with
  | zero =>
    intro l i F rest path hl hF hr _
    have hl : l = none := by cases l with | none => rfl | some k => simp [depth] at hl
    subst hl
    cases den_cases hs inj hF with
    | node h lo hi hd k1 k2 k3 d0 d1 ht =>
      have := rank_nt (show s.arena.nodes[i]? = _ from k1) k2; omega
    | const b k1 k2 k3 =>
      have k1 : s.arena.nodes[i]? = _ := k1
      rw [outs_zero, k3]
      have ht : ∀ b, pathStep s.arena ⟨.node none i :: rest, path, names, ss⟩ =
          if T3.ofBool b = T3.ofBool b then pathStep s.arena ⟨.node none i :: rest, path, names, ss⟩ else none := by
        intro b; simp
      by_cases hb : b ∈ ss
      · rw [if_pos hb]
        refine .emit (s1 := ⟨rest, path, names, ss⟩) ?_ (.refl _)
        cases b <;> simp [pathStep, pathTurn, k1, T3.ofBool, hb]
      · rw [if_neg hb]
        refine .quiet (s1 := ⟨rest, path, names, ss⟩) ?_ (.refl _)
        cases b <;> simp [pathStep, pathTurn, k1, T3.ofBool, hb]
  | succ n ih =>
    intro l i F rest path hl hF hr hnames
    have hl : l = some n := by cases l with | none => simp [depth] at hl | some k => simp [depth] at hl; rw [hl]
    subst hl
    have hx : names[n]? = some (names.getD n "") := by
      rw [List.getD_eq_getElem?_getD, List.getElem?_eq_getElem (by omega)]; rfl
    -- the node is replaced by the two branches
    obtain ⟨lo, hi, hlo, hhi, rlo, rhi, ht⟩ : ∃ lo hi, Den s.arena lo (F.cof n false) ∧
        Den s.arena hi (F.cof n true) ∧ s.arena.rank lo ≤ n ∧ s.arena.rank hi ≤ n ∧
        pathTurn s.arena ⟨.node (some n) i :: rest, path, names, ss⟩ (.node (some n) i) rest =
          (expand ⟨.node (some n) i :: rest, path, names, ss⟩ (some n) lo hi rest).map (fun s => (none, s)) := by
      have hgap : s.arena.rank i ≤ n → ∀ b, Den s.arena i (F.cof n b) := by
        intro hle b
        have : F.cof n b = F := by
          funext a
          rw [← cof_update]
          refine den_congr hs hF fun l hl => ?_
          rw [Function.update_of_ne (by omega)]
        rw [this]; exact hF
      cases den_cases hs inj hF with
      | const b k1 k2 k3 =>
        have k1 : s.arena.nodes[i]? = _ := k1
        have hrk := rank_term k1
        refine ⟨i, i, hgap (by omega) _, hgap (by omega) _, by omega, by omega, ?_⟩
        cases b <;> simp [pathTurn, k1, T3.ofBool]
      | node h lo hi hd k1 k2 k3 d0 d1 _ =>
        have k1 : s.arena.nodes[i]? = _ := k1
        have k3 : s.arena.level? i = _ := k3
        have hrk := rank_nt k1 k2
        by_cases he : hd.level = n
        · obtain ⟨_, _, _, e2, _, _, hk⟩ := hs.wf.nt hF.live k1
          have r0 := (hk lo (by simp)).2
          have r1 := (hk hi (by simp)).2
          refine ⟨lo, hi, he ▸ d0, he ▸ d1, by omega, by omega, ?_⟩
          simp [pathTurn, k1, k3, he]
        · refine ⟨i, i, hgap (by omega) _, hgap (by omega) _, by omega, by omega, ?_⟩
          simp [pathTurn, k1, k3, Ne.symm he]
    have hexp : pathStep s.arena ⟨.node (some n) i :: rest, path, names, ss⟩ = some (some (none,
        ⟨.push (lit (names.getD n "") false) :: .node (pred? (some n)) lo :: .pop ::
          .push (lit (names.getD n "") true) :: .node (pred? (some n)) hi :: .pop :: rest, path, names, ss⟩)) := by
      unfold pathStep
      simp only [ht, expand, hx, Option.map_some, lit, if_true, Bool.false_eq_true, if_false]
    rw [outs_succ, List.map_append, List.map_map, List.map_map]
    refine .quiet hexp ?_
    have a1 := ih (pred? (some n)) lo _ (.pop :: .push (lit (names.getD n "") true) ::
      .node (pred? (some n)) hi :: .pop :: rest) (lit (names.getD n "") false :: path) (depth_pred n) hlo rlo (by omega)
    have a2 := ih (pred? (some n)) hi _ (.pop :: rest) (lit (names.getD n "") true :: path)
      (depth_pred n) hhi rhi (by omega)
    have e1 : (outs names ss n (F.cof n false)).map (· ++ (lit (names.getD n "") false :: path)) =
        (outs names ss n (F.cof n false)).map ((· ++ path) ∘ (· ++ [lit (names.getD n "") false])) := by
      simp [Function.comp_def]
    have e2 : (outs names ss n (F.cof n true)).map (· ++ (lit (names.getD n "") true :: path)) =
        (outs names ss n (F.cof n true)).map ((· ++ path) ∘ (· ++ [lit (names.getD n "") true])) := by
      simp [Function.comp_def]
    rw [e1] at a1
    rw [e2] at a2
    refine .quiet (by simp only [pathStep, pathTurn, Option.map_some]) (a1.trans ?_)
    refine .quiet (by simp only [pathStep, pathTurn, Option.map_some]; rfl) ?_
    refine .quiet (by simp only [pathStep, pathTurn, Option.map_some]; rfl) ?_
    rw [← List.append_nil (List.map _ (outs names ss n (F.cof n true)))]
    refine a2.trans ?_
    exact .quiet (by simp only [pathStep, pathTurn, Option.map_some]; rfl) (.refl _)

theorem depth_level (m : Arena T3) (i : Nat) : depth (m.level? i) = m.rank i := by
  unfold depth rank
  cases m.level? i <;> rfl

/-- The iterator yields the assignments of the levels up to the node's. -/
theorem path_ok {s : Bdd} (hs : Inv s) {names : List String} (hm : s.arena.headers = mkHeaders names)
    {i : Nat} {F : BFun} (hF : Den s.arena i F) (ss : List Bool) :
    ∃ st, pathNew s.arena i ss = some st ∧
      Enum.Yields (pathNext s.arena) st (outs names ss (s.arena.rank i) F) := by
  have inj := levInj_of hm
  refine ⟨_, pathNew_ok hm i ss, ?_⟩
  have hr : s.arena.rank i ≤ names.length := by
    cases den_cases hs inj hF with
    | const b k1 => rw [rank_term (show s.arena.nodes[i]? = _ from k1)]; omega
    | node h lo hi hd k1 k2 =>
      rw [rank_nt (show s.arena.nodes[i]? = _ from k1) k2]
      rw [hm, mkHeaders_get] at k2
      obtain ⟨x, h1, rfl⟩ := k2
      exact (List.getElem?_eq_some_iff.1 h1).1
  have h := path_steps hs inj names ss _ (s.arena.level? i) i F [] [] (depth_level _ _) hF (Nat.le_refl _) hr
  have h2 := Enum.Steps.yields (μ := fun st : PathSt => turns st.stack) turns_decr h (by simp [pathStep])
  simp only [List.append_nil, List.map_id'] at h2
  exact h2

/-! ## What the results are -/

theorem mem_asg (n : Nat) (a : Nat → Bool) : a ∈ asg n ↔ ∀ k, n ≤ k → a k = false := by
  induction n generalizing a with
  | zero =>
    simp only [asg, List.mem_singleton]
    exact ⟨fun h => by simp [h], fun h => funext fun k => h k (Nat.zero_le _)⟩
  | succ n ih =>
    simp only [asg, List.mem_append, List.mem_map]
    constructor
    · rintro (⟨b, hb, rfl⟩ | ⟨b, hb, rfl⟩) <;>
      · intro k hk
        rw [Function.update_of_ne (by omega)]
        exact (ih b).1 hb k (by omega)
    · intro h
      have h' : Function.update a n false ∈ asg n := (ih _).2 fun k hk => by
        by_cases e : k = n
        · subst e; simp
        · rw [Function.update_of_ne e]; exact h k (by omega)
      cases e : a n with
      | false => exact .inl ⟨_, h', by simp [← e]⟩
      | true => exact .inr ⟨_, h', by simp [← e]⟩

theorem lits_inj {names : List String} {n : Nat} {a b : Nat → Bool} (h : lits names n a = lits names n b) :
    ∀ k, k < n → a k = b k := by
  intro k hk
  have h1 := congrArg (fun l => l[k]?) h
  simp only [lits, List.getElem?_map, List.getElem?_range hk, Option.map_some, Option.some.injEq] at h1
  have key : ∀ x : String, x ≠ "~" ++ x := by
    intro x e
    have := congrArg String.length e
    simp at this
  cases ha : a k <;> cases hb : b k <;> simp [lit, ha, hb] at h1 ⊢
  exact absurd h1 (key _)

theorem asg_nodup (n : Nat) : (asg n).Nodup := by
  induction n with
  | zero => simp [asg]
  | succ n ih =>
    have hinj : ∀ x, ∀ a ∈ asg n, ∀ b ∈ asg n, Function.update a n x = Function.update b n x → a = b := by
      intro x a ha b hb h
      funext k
      by_cases e : k = n
      · subst e
        rw [(mem_asg _ a).1 ha k (Nat.le_refl _), (mem_asg _ b).1 hb k (Nat.le_refl _)]
      · have := congrFun h k
        rwa [Function.update_of_ne e, Function.update_of_ne e] at this
    rw [asg, List.nodup_append]
    refine ⟨List.Nodup.map_on (hinj _) ih, List.Nodup.map_on (hinj _) ih, ?_⟩
    intro a ha b hb e
    obtain ⟨a', _, rfl⟩ := List.mem_map.1 ha
    obtain ⟨b', _, rfl⟩ := List.mem_map.1 hb
    have := congrFun e n
    simp at this

theorem outs_nodup (names : List String) (ss : List Bool) (n : Nat) (F : BFun) :
    (outs names ss n F).Nodup := by
  unfold outs
  refine List.Nodup.map_on ?_ ((asg_nodup n).filter _)
  intro a ha b hb h
  have ha := (mem_asg n a).1 (List.mem_filter.1 ha).1
  have hb := (mem_asg n b).1 (List.mem_filter.1 hb).1
  funext k
  by_cases hk : k < n
  · exact lits_inj h k hk
  · rw [ha k (by omega), hb k (by omega)]

theorem mem_outs {names : List String} {ss : List Bool} {n : Nat} {F : BFun} {r : List String} :
    r ∈ outs names ss n F ↔ ∃ a : Nat → Bool, (∀ k, n ≤ k → a k = false) ∧ F a ∈ ss ∧ r = lits names n a := by
  unfold outs
  simp only [List.mem_map, List.mem_filter, mem_asg, decide_eq_true_eq]
  constructor
  · rintro ⟨a, ⟨h1, h2⟩, rfl⟩; exact ⟨a, h1, h2, rfl⟩
  · rintro ⟨a, h1, h2, rfl⟩; exact ⟨a, ⟨h1, h2⟩, rfl⟩

theorem outs_length (names : List String) (ss : List Bool) (n : Nat) (F : BFun) :
    (outs names ss n F).length = bsum (fun _ _ => 1) (ind ss) n F := by
  induction n generalizing F with
  | zero =>
    rw [outs_zero]
    unfold bsum
    rw [wsum_zero]
    by_cases h : F (fun _ => false) ∈ ss <;> simp [h, ind]
  | succ n ih =>
    rw [outs_succ, List.length_append, List.length_map, List.length_map, ih, ih, bsum_succ]
    simp

end Bdd
end DD
