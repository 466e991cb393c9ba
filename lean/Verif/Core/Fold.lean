import Verif.Core.Gc

/-!
# Memoised bottom-up passes over a diagram

`prob`, `bdd_count` (bss) and `vprob`, `bprob`, `vmdd_count` (mss) have the same shape: look the node up in
a `HashMap` local to the call, else compute from the terminal or from the children's results, then
insert.  `nodeCount` is the traversal behind `size`.
-/

set_option autoImplicit false
set_option linter.unusedSectionVars false

namespace DD

/-- Run `f` on the list from left to right, threading the state. -/
def foldKids {A R C : Type} (f : A → C → Option (R × C)) : List A → C → Option (List R × C)
  | [], c => some ([], c)
  | a :: as, c =>
    match f a c with
    | none => none
    | some (r, c') =>
      match foldKids f as c' with
      | none => none
      | some (rs, c'') => some (r :: rs, c'')

namespace Arena
variable {T : Type} [DecidableEq T] [Fixed T] {R : Type}

/-- A memoised pass: `leaf` gives the result at a terminal, `comb i h crs` the result at the
non-terminal `i` with header `h` from the pairs (child, child's result).  `none` = panic. -/
def memoFold (m : Arena T) (leaf : T → Option R) (comb : Nat → Nat → List (Nat × R) → Option R) :
    Nat → Nat → AMap Nat R → Option (R × AMap Nat R)
  | 0, _, _ => none
  | fuel + 1, i, c =>
    match c.get i with
    | some r => some (r, c)
    | none =>
      match m.nodes[i]? with
      | none => none
      | some (.term t) =>
        match leaf t with
        | none => none
        | some r => some (r, c.insert i r)
      | some (.nt h ch) =>
        match foldKids (memoFold m leaf comb fuel) ch c with
        | none => none
        | some (rs, c') =>
          match comb i h (ch.zip rs) with
          | none => none
          | some r => some (r, c'.insert i r)

/-- Every entry of the memo satisfies `P`. -/
def MemoP (P : Nat → R → Prop) (c : AMap Nat R) : Prop := ∀ i r, c.get i = some r → P i r

theorem memoP_empty (P : Nat → R → Prop) : MemoP P AMap.empty := by
  intro i r h; simp [AMap.get_empty] at h

theorem MemoP.insert {P : Nat → R → Prop} {c : AMap Nat R} (h : MemoP P c) {i : Nat} {r : R}
    (hr : P i r) : MemoP P (c.insert i r) := by
  intro j x hx
  rw [AMap.get_insert] at hx
  split at hx
  · cases hx; subst_vars; exact hr
  · exact h j x hx

theorem foldKids_ok {A R C : Type} {f : A → C → Option (R × C)} {Q : C → Prop} {P : A → R → Prop}
    : ∀ {as : List A}, (∀ a ∈ as, ∀ c, Q c → ∃ r c', f a c = some (r, c') ∧ P a r ∧ Q c') → ∀ {c : C},
    Q c → ∃ rs c', foldKids f as c = some (rs, c') ∧ Q c' ∧ rs.length = as.length ∧
      ∀ (k : Nat) (a : A) (r : R), as[k]? = some a → rs[k]? = some r → P a r := by
  intro as
  induction as with
  | nil => intro _ c hc; exact ⟨[], c, rfl, hc, rfl, by intro k a r h; simp at h⟩
  | cons a as ih =>
    intro h c hc
    obtain ⟨r, c1, h1, h2, h3⟩ := h a List.mem_cons_self c hc
    obtain ⟨rs, c2, k1, k2, k3, k4⟩ := ih (fun b hb => h b (List.mem_cons_of_mem _ hb)) h3
    refine ⟨r :: rs, c2, by simp only [foldKids, h1, k1], k2, by simp [k3], ?_⟩
    intro k b x hb hx
    cases k with
    | zero => simp at hb hx; subst hb; subst hx; exact h2
    | succ k => simp at hb hx; exact k4 k b x hb hx

/-- Correctness of a memoised pass from the correctness of one level, for the nodes in a
kid-closed set `Q`. -/
theorem memoFold_ok {m : Arena T} {R' : List Nat → Prop} (wf : WF R' m) {leaf : T → Option R}
    {comb : Nat → Nat → List (Nat × R) → Option R} {Q : Nat → Prop} {P : Nat → R → Prop}
    (kids : ∀ i h ch, Q i → m.nodes[i]? = some (.nt h ch) → ∀ c ∈ ch, Q c)
    (hleaf : ∀ i t, Q i → m.Live i → m.nodes[i]? = some (.term t) → ∃ r, leaf t = some r ∧ P i r)
    (hcomb : ∀ i h ch rs, Q i → m.Live i → m.nodes[i]? = some (.nt h ch) → rs.length = ch.length →
      (∀ (k c : Nat) (r : R), ch[k]? = some c → rs[k]? = some r → P c r) →
      ∃ r, comb i h (ch.zip rs) = some r ∧ P i r) :
    ∀ (fuel i : Nat) (c : AMap Nat R), Q i → m.Live i → m.rank i < fuel → MemoP P c →
      ∃ r c', m.memoFold leaf comb fuel i c = some (r, c') ∧ P i r ∧ MemoP P c' := by
  intro fuel
  induction fuel with
  | zero => intro i c _ _ h; omega
  | succ n ih =>
    intro i c hq hi hr hc
    cases hg : c.get i with
    | some r => exact ⟨r, c, by simp only [memoFold, hg], hc i r hg, hc⟩
    | none =>
      obtain ⟨nd, hn⟩ := hi.node
      cases nd with
      | term t =>
        obtain ⟨r, h1, h2⟩ := hleaf i t hq hi hn
        exact ⟨r, c.insert i r, by simp only [memoFold, hg, hn, h1], h2, hc.insert h2⟩
      | nt h ch =>
        obtain ⟨hd, _, _, hrk, _, _, hk⟩ := wf.nt hi hn
        obtain ⟨rs, c', h1, h2, h3, h4⟩ := foldKids_ok (f := m.memoFold leaf comb n)
          (Q := MemoP P) (P := P) (as := ch)
          (fun x hx cc hcc => ih x cc (kids i h ch hq hn x hx) (hk x hx).1
            (by have := (hk x hx).2; omega) hcc) hc
        obtain ⟨r, h5, h6⟩ := hcomb i h ch rs hq hi hn h3 h4
        exact ⟨r, c'.insert i r, by simp only [memoFold, hg, hn, h1, h5], h6, h2.insert h6⟩

theorem WF.reach_rank_le {R' : List Nat → Prop} {m : Arena T} (wf : WF R' m) {i j : Nat}
    (hi : m.Live i) (h : Reach m i j) : m.rank j ≤ m.rank i := by
  induction h with
  | refl => exact Nat.le_refl _
  | step h hn hc ih =>
    have := (wf.kid _ _ _ (wf.reach_live h hi) hn _ hc).2
    omega

/-! ## Counting nodes -/

/-- /repo/bss/src/bdd_count.rs:15-39, /repo/bss/src/zdd_count.rs, /repo/mss/src/mdd_count.rs (same
shape): (non-terminals, terminals, edges) not seen before, with one edge for the visit itself.
`seen` is the hash set. -/
def nodeCount (m : Arena T) : Nat → Nat → List Nat → Option ((Nat × Nat × Nat) × List Nat)
  | 0, _, _ => none
  | fuel + 1, i, seen =>
    if i ∈ seen then some ((0, 0, 1), seen)
    else
      match m.nodes[i]? with
      | none => none
      | some (.term _) => some ((0, 1, 1), i :: seen)
      | some (.nt _ ch) =>
        match foldKids (nodeCount m fuel) ch seen with
        | none => none
        | some (rs, seen') =>
          some (((rs.map (·.1)).sum + 1, (rs.map (·.2.1)).sum, (rs.map (·.2.2)).sum + 1), i :: seen')

/-- Is slot `i` a non-terminal? -/
def isNt (m : Arena T) (i : Nat) : Bool :=
  match m.nodes[i]? with
  | some (.nt _ _) => true
  | _ => false

/-- Number of outgoing edges. -/
def outDeg (m : Arena T) (i : Nat) : Nat :=
  match m.nodes[i]? with
  | some (.nt _ ch) => ch.length
  | _ => 0

/-- What `nodeCount` maintains about the set of nodes seen. -/
structure Seen (m : Arena T) (seen : List Nat) : Prop where
  nodup : seen.Nodup
  closed : ∀ i ∈ seen, ∀ j, Reach m i j → j ∈ seen

/-- Going from `seen` to `seen'` the counts are those of the new nodes. -/
structure Counted (m : Arena T) (seen seen' : List Nat) (n v e : Nat) : Prop where
  ok : Seen m seen'
  sub : ∀ i ∈ seen, i ∈ seen'
  nts : seen'.countP (m.isNt ·) = seen.countP (m.isNt ·) + n
  terms : seen'.countP (!m.isNt ·) = seen.countP (!m.isNt ·) + v
  edges : (seen'.map m.outDeg).sum = (seen.map m.outDeg).sum + e

theorem nodeCount_ok {m : Arena T} {R' : List Nat → Prop} (wf : WF R' m) :
    ∀ (fuel i : Nat) (seen : List Nat), m.Live i → m.rank i < fuel → Seen m seen →
      (∀ j ∈ seen, m.Live j) →
      ∃ n v e seen', m.nodeCount fuel i seen = some ((n, v, e + 1), seen') ∧
        Counted m seen seen' n v e ∧ (∀ j, j ∈ seen' ↔ j ∈ seen ∨ Reach m i j) ∧
        (∀ j ∈ seen', m.Live j) := by
  intro fuel
  induction fuel with
  | zero => intro i _ _ h; omega
  | succ n ih =>
    intro i seen hi hr hs hl
    by_cases hm : i ∈ seen
    · refine ⟨0, 0, 0, seen, by simp only [nodeCount, if_pos hm], ⟨hs, fun _ h => h, rfl, rfl, rfl⟩, ?_, hl⟩
      intro j
      exact ⟨.inl, fun h => h.elim id (fun h => hs.closed i hm j h)⟩
    · obtain ⟨nd, hn⟩ := hi.node
      cases nd with
      | term t =>
        have hreach : ∀ j, Reach m i j → j = i := by
          intro j hj
          rcases hj.cases_head with h | ⟨_, _, _, h, _⟩
          · exact h.symm
          · rw [hn] at h; cases h
        refine ⟨0, 1, 0, i :: seen, by simp only [nodeCount, if_neg hm, hn], ?_, ?_, ?_⟩
        · refine ⟨⟨List.nodup_cons.2 ⟨hm, hs.nodup⟩, ?_⟩, fun _ h => List.mem_cons_of_mem _ h, ?_, ?_, ?_⟩
          · intro j hj k hk
            rcases List.mem_cons.1 hj with rfl | hj
            · rw [hreach k hk]; exact List.mem_cons_self
            · exact List.mem_cons_of_mem _ (hs.closed j hj k hk)
          · simp [isNt, hn]
          · simp [isNt, hn]
          · simp [outDeg, hn]
        · intro j
          rw [List.mem_cons]
          constructor
          · rintro (rfl | h)
            · exact .inr (.refl _)
            · exact .inl h
          · rintro (h | h)
            · exact .inr h
            · exact .inl (hreach j h)
        · intro j hj
          rcases List.mem_cons.1 hj with rfl | hj
          · exact hi
          · exact hl j hj
      | nt h ch =>
        obtain ⟨hd, _, _, hrk, _, _, hk⟩ := wf.nt hi hn
        have loop : ∀ (cs : List Nat), (∀ c ∈ cs, c ∈ ch) → ∀ (seen : List Nat), Seen m seen →
            (∀ j ∈ seen, m.Live j) → i ∉ seen →
            ∃ rs seen', foldKids (nodeCount m n) cs seen = some (rs, seen') ∧
              ∃ e, (rs.map (·.2.2)).sum = e + cs.length ∧
              Counted m seen seen' (rs.map (·.1)).sum (rs.map (·.2.1)).sum e ∧
              (∀ j, j ∈ seen' ↔ j ∈ seen ∨ ∃ c ∈ cs, Reach m c j) ∧ (∀ j ∈ seen', m.Live j) := by
          intro cs
          induction cs with
          | nil =>
            intro _ seen hs hl hni
            exact ⟨[], seen, rfl, 0, rfl, ⟨hs, fun _ h => h, rfl, rfl, rfl⟩, by simp, hl⟩
          | cons c cs ihc =>
            intro hsub seen hs hl hni
            have hc := hk c (hsub c List.mem_cons_self)
            obtain ⟨n1, v1, e1, seen1, h1, h2, h3, h4⟩ := ih c seen hc.1 (by have := hc.2; omega) hs hl
            have hni1 : i ∉ seen1 := by
              intro hmem
              rcases (h3 i).1 hmem with h | h
              · exact hni h
              · have := wf.reach_rank_le hc.1 h
                omega
            obtain ⟨rs, seen2, k1, e2, k2, k3, k4, k5⟩ := ihc (fun x hx => hsub x (List.mem_cons_of_mem _ hx))
              seen1 h2.ok h4 hni1
            refine ⟨(n1, v1, e1 + 1) :: rs, seen2, by simp only [foldKids, h1, k1], e1 + e2, ?_, ?_, ?_, k5⟩
            · simp [k2]; omega
            · refine ⟨k3.ok, fun j hj => k3.sub j (h2.sub j hj), ?_, ?_, ?_⟩
              · rw [k3.nts, h2.nts]; simp; omega
              · rw [k3.terms, h2.terms]; simp; omega
              · rw [k3.edges, h2.edges]; omega
            · intro j
              rw [k4, h3]
              simp [or_assoc]
        obtain ⟨rs, seen', k1, e, k2, k3, k4, k5⟩ := loop ch (fun _ h => h) seen hs hl hm
        have hreach : ∀ j, Reach m i j ↔ j = i ∨ ∃ c ∈ ch, Reach m c j := by
          intro j
          constructor
          · intro hj
            rcases hj.cases_head with h | ⟨h', ch', c, e1, e2, e3⟩
            · exact .inl h.symm
            · rw [hn] at e1; cases e1; exact .inr ⟨c, e2, e3⟩
          · rintro (rfl | ⟨c, hc, hj⟩)
            · exact .refl _
            · exact ((Reach.refl i).step hn hc).trans hj
        have hni : i ∉ seen' := by
          intro hmem
          rcases (k4 i).1 hmem with h | ⟨c, hc, h⟩
          · exact hm h
          · have := wf.reach_rank_le (hk c hc).1 h
            have := (hk c hc).2
            omega
        refine ⟨(rs.map (·.1)).sum + 1, (rs.map (·.2.1)).sum, e + ch.length, i :: seen', ?_, ?_, ?_, ?_⟩
        · simp only [nodeCount, if_neg hm, hn, k1, k2]
        · refine ⟨⟨List.nodup_cons.2 ⟨hni, k3.ok.nodup⟩, ?_⟩,
            fun j hj => List.mem_cons_of_mem _ (k3.sub j hj), ?_, ?_, ?_⟩
          · intro j hj k hjk
            rcases List.mem_cons.1 hj with rfl | hj
            · rcases (hreach k).1 hjk with rfl | hc
              · exact List.mem_cons_self
              · exact List.mem_cons_of_mem _ ((k4 k).2 (.inr hc))
            · exact List.mem_cons_of_mem _ (k3.ok.closed j hj k hjk)
          · rw [List.countP_cons_of_pos (by simp [isNt, hn]), k3.nts]; omega
          · have := k3.terms
            simp [isNt, hn] at this ⊢; exact this
          · have : m.outDeg i = ch.length := by simp [outDeg, hn]
            rw [List.map_cons, List.sum_cons, k3.edges, this]; omega
        · intro j
          rw [List.mem_cons, k4, hreach]
          constructor
          · rintro (h | h | h)
            · exact .inr (.inl h)
            · exact .inl h
            · exact .inr (.inr h)
          · rintro (h | h | h)
            · exact .inr (.inl h)
            · exact .inl h
            · exact .inr (.inr h)
        · intro j hj
          rcases List.mem_cons.1 hj with rfl | hj
          · exact hi
          · exact k5 j hj

end Arena
end DD
