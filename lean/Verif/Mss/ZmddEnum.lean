import Verif.Mss.ZmddMgr
import Verif.Mss.ConvertOk
import Mathlib.Data.List.Perm.Basic
import Mathlib.Data.List.Nodup
import Mathlib.Data.List.Forall2

/-!
# `ZmddNode::count` and `ZmddNode::extract`
-/

set_option autoImplicit false
set_option linter.unusedSectionVars false
set_option linter.unusedVariables false

namespace DD
open Arena
namespace Zma

/-- State of a component at distance `d` from the baseline. -/
def stOf (rev : Bool) (s d : Nat) : Nat := if rev then s - 1 - d else d

/-- `ds` lists the vectors of the strata `ss`. -/
structure FamL (m : Arena (Option Int)) (ss : List Int) (i : Nat) (ds : List (Nat → Nat)) : Prop where
  nodup : ds.Nodup
  mem : ∀ d, d ∈ ds ↔ ∃ v ∈ ss, Lab m i d (some v)

theorem FamL.length_eq {m : Arena (Option Int)} {ss : List Int} {i : Nat} {ds ds' : List (Nat → Nat)}
    (h : FamL m ss i ds) (h' : FamL m ss i ds') : ds.length = ds'.length :=
  ((List.perm_ext_iff_of_nodup h.nodup h'.nodup).2 fun d => (h.mem d).trans (h'.mem d).symm).length_eq

/-- `ds` lists the vectors of the strata `ss` that go through the children `cs`, the first of which is edge `j`
of a node at level `l`. -/
structure FamK (m : Arena (Option Int)) (ss : List Int) (l j : Nat) (cs : List Nat) (ds : List (Nat → Nat)) :
    Prop where
  nodup : ds.Nodup
  mem : ∀ d, d ∈ ds ↔ ∃ k c, cs[k]? = some c ∧ d l = j + k ∧ ∃ v ∈ ss, Lab m c (upd d l 0) (some v)

section
variable {m : Arena (Option Int)} {ss : List Int}

theorem FamK.nil (l j : Nat) : FamK m ss l j [] [] :=
  ⟨List.nodup_nil, fun d => by simp⟩

theorem FamK.cons (wf : WF RZ m) {l j c : Nat} {cs : List Nat} (hc : m.Live c) (hr : m.rank c ≤ l)
    {d0 ds : List (Nat → Nat)} (h0 : FamL m ss c d0) (h : FamK m ss l (j + 1) cs ds) :
    FamK m ss l j (c :: cs) (d0.map (fun d => upd d l j) ++ ds) := by
  have z : ∀ d ∈ d0, d l = 0 := by
    intro d hd
    obtain ⟨v, _, hv⟩ := (h0.mem d).1 hd
    exact wf.lab_supp hv hc l hr
  constructor
  · rw [List.nodup_append]
    refine ⟨List.Nodup.map_on ?_ h0.nodup, h.nodup, ?_⟩
    · intro a ha b hb e
      have : upd (upd a l j) l 0 = upd (upd b l j) l 0 := by rw [e]
      rwa [upd_upd, upd_upd, upd_id (z a ha), upd_id (z b hb)] at this
    · intro a ha b hb e
      subst e
      obtain ⟨a', _, rfl⟩ := List.mem_map.1 ha
      obtain ⟨k, _, _, hk, _⟩ := (h.mem _).1 hb
      rw [upd_self] at hk
      omega
  · intro d
    rw [List.mem_append, h.mem, List.mem_map]
    constructor
    · rintro (⟨a, ha, rfl⟩ | ⟨k, c', hk, hd, hv⟩)
      · refine ⟨0, c, rfl, by rw [upd_self]; rfl, ?_⟩
        rw [upd_upd, upd_id (z a ha)]
        exact (h0.mem a).1 ha
      · exact ⟨k + 1, c', by simpa using hk, by omega, hv⟩
    · rintro ⟨k, c', hk, hd, hv⟩
      cases k with
      | zero =>
        simp at hk; subst hk
        refine .inl ⟨upd d l 0, (h0.mem _).2 hv, ?_⟩
        rw [upd_upd, upd_id (by omega)]
      | succ k => exact .inr ⟨k, c', by simpa using hk, by omega, hv⟩

theorem FamK.famL (wf : WF RZ m) {i h : Nat} {ch : List Nat} {hd : Header} (hi : m.Live i)
    (hn : m.nodes[i]? = some (.nt h ch)) (hh : m.headers[h]? = some hd) {ds : List (Nat → Nat)}
    (hk : FamK m ss hd.level 0 ch ds) : FamL m ss i ds := by
  refine ⟨hk.nodup, fun d => ?_⟩
  rw [hk.mem]
  constructor
  · rintro ⟨k, c, h1, h2, v, hv, h3⟩
    refine ⟨v, hv, (wf.lab_nt_iff hi hn hh).2 ⟨c, ?_, h3⟩⟩
    rw [h2, Nat.zero_add]; exact h1
  · rintro ⟨v, hv, h3⟩
    obtain ⟨c, h1, h2⟩ := (wf.lab_nt_iff hi hn hh).1 h3
    exact ⟨_, c, h1, by omega, v, hv, h2⟩

theorem FamL.term {i : Nat} {t : Option Int} (hn : m.nodes[i]? = some (.term t)) :
    FamL m ss i (if (match t with | none => false | some v => ss.contains v) then [fun _ => 0] else []) := by
  cases t with
  | none =>
    refine ⟨by simp, fun d => ?_⟩
    simp only [lab_term_iff hn]
    simp
  | some v =>
    by_cases h : v ∈ ss
    · refine ⟨by simp [h], fun d => ?_⟩
      simp only [lab_term_iff hn]
      simp [h]
    · refine ⟨by simp [h], fun d => ?_⟩
      simp only [lab_term_iff hn]
      simp only [List.contains_iff_mem, h, Bool.false_eq_true, if_false, List.not_mem_nil, false_iff]
      rintro ⟨w, hw, _, e⟩
      cases e
      exact h hw

/-! ## Counting -/

/-- `count` is the number of vectors in the strata. -/
theorem count_ok (wf : WF RZ m) {i : Nat} (hi : m.Live i) (ss : List Int) :
    ∃ n ds, count m ss i = some n ∧ FamL m ss i ds ∧ n = ds.length := by
  obtain ⟨r, c, h1, ⟨ds, h2, h3⟩, _⟩ := memoFold_ok wf
    (leaf := countLeaf ss)
    (comb := fun _ _ rs => some (rs.map (·.2)).sum) (Q := fun _ => True)
    (P := fun i r => ∃ ds, FamL m ss i ds ∧ r = ds.length)
    (fun _ _ _ _ _ _ _ => trivial)
    (by
      intro i t _ _ hn
      cases t with
      | none => exact ⟨0, rfl, _, .term hn, rfl⟩
      | some v => exact ⟨_, rfl, _, .term hn, by by_cases h : v ∈ ss <;> simp [h]⟩)
    (by
      intro i h ch rs _ li hn hl hP
      obtain ⟨hd, hh, hl', _, _, _, hk⟩ := wf.nt li hn
      refine ⟨_, rfl, ?_⟩
      have loop : ∀ (cs : List Nat) (rs : List Nat) (j : Nat), (∀ c ∈ cs, m.Live c ∧ m.rank c ≤ hd.level) →
          rs.length = cs.length →
          (∀ (k c r : Nat), cs[k]? = some c → rs[k]? = some r → ∃ ds, FamL m ss c ds ∧ r = ds.length) →
          ∃ ds, FamK m ss hd.level j cs ds ∧ ((cs.zip rs).map (·.2)).sum = ds.length := by
        intro cs
        induction cs with
        | nil => intro rs j _ _ _; exact ⟨[], .nil _ _, by simp⟩
        | cons c cs ih =>
          intro rs j hc hl hP
          match rs, hl with
          | r :: rs, hl =>
            obtain ⟨d0, h0, rfl⟩ := hP 0 c r rfl rfl
            obtain ⟨ds, h1, h2⟩ := ih rs (j + 1) (fun x hx => hc x (List.mem_cons_of_mem _ hx)) (by simpa using hl)
              (fun k x y hx hy => hP (k + 1) x y (by simpa using hx) (by simpa using hy))
            exact ⟨_, .cons wf (hc c List.mem_cons_self).1 (hc c List.mem_cons_self).2 h0 h1, by simp [h2]⟩
      obtain ⟨ds, h1, h2⟩ := loop ch rs 0 hk hl hP
      exact ⟨ds, h1.famL wf li hn hh, h2⟩)
    (m.rank i + 1) i AMap.empty trivial hi (Nat.lt_succ_self _) (memoP_empty _)
  exact ⟨r, ds, by simp [count, h1], h2, h3⟩

/-! ## Enumeration -/

variable {vs : List (String × Nat)} {rev : Bool}

/-- The components below level `n` are at their baseline. -/
def Base (vs : List (String × Nat)) (rev : Bool) (n : Nat) (path : AMap String Nat) : Prop :=
  ∀ l x s, l < n → vs[l]? = some (x, s) → path.get x = some (stOf rev s 0)

/-- `o` reports the vector `d` on the levels below `n` and is `path` elsewhere. -/
structure Over (vs : List (String × Nat)) (rev : Bool) (n : Nat) (path : AMap String Nat) (d : Nat → Nat)
    (o : AMap String Nat) : Prop where
  nodup : o.NodupKeys
  low : ∀ l x s, l < n → vs[l]? = some (x, s) → o.get x = some (stOf rev s (d l))
  high : ∀ x, (∀ l s, l < n → vs[l]? ≠ some (x, s)) → o.get x = path.get x

theorem names_inj (nd : (vs.map Prod.fst).Nodup) {l l' s s' : Nat} {x : String} (h : vs[l]? = some (x, s))
    (h' : vs[l']? = some (x, s')) : l = l' := by
  have hl : l < (vs.map Prod.fst).length := by
    rw [List.length_map]; exact (List.getElem?_eq_some_iff.1 h).1
  refine (List.getElem?_inj hl nd).1 ?_
  simp [h, h']

theorem Over.same {n : Nat} {path path' : AMap String Nat} {d : Nat → Nat} {o : AMap String Nat}
    (h : Over vs rev n path d o) (e : ∀ x, path.get x = path'.get x) : Over vs rev n path' d o :=
  ⟨h.nodup, h.low, fun x hx => (h.high x hx).trans (e x)⟩

/-- Levels at the baseline may be left to `path`. -/
theorem Over.up (nd : (vs.map Prod.fst).Nodup) {k n : Nat} (hkn : k ≤ n) {path : AMap String Nat} (hb : Base vs rev n path)
    {d : Nat → Nat} {o : AMap String Nat} (h : Over vs rev k path d o) (hd : ∀ l, k ≤ l → d l = 0) :
    Over vs rev n path d o where
  nodup := h.nodup
  low l x s hl hv := by
    by_cases hk : l < k
    · exact h.low l x s hk hv
    · rw [h.high x (fun l' s' hl' hv' => by have := names_inj nd hv hv'; omega), hb l x s hl hv, hd l (by omega)]
  high x hx := h.high x (fun l s hl => hx l s (by omega))

/-- One more recorded component. -/
theorem Over.push (nd : (vs.map Prod.fst).Nodup) {l s j : Nat} {x : String} (hx : vs[l]? = some (x, s))
    {path : AMap String Nat} {d : Nat → Nat} {o : AMap String Nat}
    (h : Over vs rev l (path.insert x (stOf rev s j)) d o) : Over vs rev (l + 1) path (upd d l j) o where
  nodup := h.nodup
  low l' x' s' hl' hv := by
    by_cases hk : l' < l
    · rw [upd_ne _ _ (by omega)]; exact h.low l' x' s' hk hv
    · have : l' = l := by omega
      subst this
      rw [hx] at hv; cases hv
      rw [h.high x (fun l'' s'' hl'' hv' => by have := names_inj nd hx hv'; omega), AMap.get_insert_self, upd_self]
  high y hy := by
    rw [h.high y (fun l' s' hl' => hy l' s' (by omega)), AMap.get_insert_ne]
    rintro rfl
    exact hy l s (by omega) hx

/-- What the iterator returns from node `i`. -/
theorem path_steps (wf : WF RZ m) (hz : ZHdr vs m) (nd : (vs.map Prod.fst).Nodup) (N : Nat) {b : AMap String Nat}
    (hbl : Base vs rev N b) :
    ∀ (r i : Nat), m.Live i → m.rank i ≤ r → m.rank i ≤ N → ∃ ds, FamL m ss i ds ∧
      ∀ (rest : List SV) (path : AMap String Nat), path.NodupKeys → Base vs rev (m.rank i) path →
        ∃ os path', Enum.Steps (pathStep m) ⟨.node i :: rest, path, b, ss, rev⟩ os ⟨rest, path', b, ss, rev⟩ ∧
          path'.NodupKeys ∧ (∀ x, path.get x = path'.get x) ∧
          List.Forall₂ (Over vs rev (m.rank i) path) ds os := by
  have hterm : ∀ (i : Nat) (t : Option Int), m.nodes[i]? = some (.term t) → ∃ ds, FamL m ss i ds ∧
      ∀ (rest : List SV) (path : AMap String Nat), path.NodupKeys → Base vs rev (m.rank i) path →
        ∃ os path', Enum.Steps (pathStep m) ⟨.node i :: rest, path, b, ss, rev⟩ os ⟨rest, path', b, ss, rev⟩ ∧
          path'.NodupKeys ∧ (∀ x, path.get x = path'.get x) ∧
          List.Forall₂ (Over vs rev (m.rank i) path) ds os := by
    intro i t hn
    have hn' : m.node? i = some (.term t) := hn
    refine ⟨_, .term hn, fun rest path hp hb => ?_⟩
    cases t with
    | none =>
      exact ⟨[], path, .quiet (s1 := ⟨rest, path, b, ss, rev⟩) (by simp [pathStep, hn']) (.refl _), hp,
        fun _ => rfl, by simp⟩
    | some v =>
      by_cases h : v ∈ ss
      · refine ⟨[path], path, .emit (s1 := ⟨rest, path, b, ss, rev⟩) (by simp [pathStep, hn', h]) (.refl _), hp,
          fun _ => rfl, ?_⟩
        simp only [List.contains_iff_mem, h, if_true]
        refine .cons ⟨hp, ?_, fun _ _ => rfl⟩ .nil
        rw [rank_term hn]
        intro l x s hl; omega
      · exact ⟨[], path, .quiet (s1 := ⟨rest, path, b, ss, rev⟩) (by simp [pathStep, hn', h]) (.refl _), hp,
          fun _ => rfl, by simp [h]⟩
  intro r
  induction r with
  | zero =>
    intro i li hr hN
    obtain ⟨x, hn⟩ := li.node
    cases x with
    | term t => exact hterm i t hn
    | nt h ch =>
      obtain ⟨hd, _, _, hrk, _⟩ := wf.nt li hn
      omega
  | succ r ih =>
    intro i li hr hN
    obtain ⟨x, hn⟩ := li.node
    cases x with
    | term t => exact hterm i t hn
    | nt h ch =>
      obtain ⟨hd, hh, hl, hrk, _, hpos, hk⟩ := wf.nt li hn
      have hx := hz hd (List.mem_of_getElem? hh)
      have loop : ∀ (cs : List Nat) (j : Nat), (∀ c ∈ cs, c ∈ ch) → j + cs.length = ch.length →
          ∃ ds, FamK m ss hd.level j cs ds ∧
            ∀ (rest : List SV) (path : AMap String Nat), path.NodupKeys → Base vs rev (hd.level + 1) path →
            ∃ os path', Enum.Steps (pathStep m)
                ⟨branches hd.label rev (ch.length - 1) j cs ++ rest, path, b, ss, rev⟩ os ⟨rest, path', b, ss, rev⟩ ∧
              path'.NodupKeys ∧ (∀ x, path.get x = path'.get x) ∧
              List.Forall₂ (Over vs rev (hd.level + 1) path) ds os := by
        intro cs
        induction cs with
        | nil =>
          intro j _ _
          exact ⟨[], .nil _ _, fun rest path hp _ => ⟨[], path, .refl _, hp, fun _ => rfl, .nil⟩⟩
        | cons c cs ihc =>
          intro j hsub hlen
          simp only [List.length_cons] at hlen
          obtain ⟨lc, rc⟩ := hk c (hsub c List.mem_cons_self)
          obtain ⟨d0, f0, st0⟩ := ih c lc (by omega) (by omega)
          obtain ⟨ds, f1, st1⟩ := ihc (j + 1) (fun x hx => hsub x (List.mem_cons_of_mem _ hx)) (by omega)
          refine ⟨_, .cons wf lc rc f0 f1, fun rest path hp hb => ?_⟩
          have supp : ∀ d ∈ d0, ∀ l, m.rank c ≤ l → d l = 0 := by
            intro d hd l hl
            obtain ⟨v, _, hv⟩ := (f0.mem d).1 hd
            exact wf.lab_supp hv lc l hl
          -- the first child
          have first : ∃ os path', Enum.Steps (pathStep m)
              ⟨(if j = 0 then [SV.node c] else [.push hd.label (if rev then ch.length - 1 - j else j), .node c,
                .pop hd.label]) ++ (branches hd.label rev (ch.length - 1) (j + 1) cs ++ rest), path, b, ss, rev⟩ os
              ⟨branches hd.label rev (ch.length - 1) (j + 1) cs ++ rest, path', b, ss, rev⟩ ∧
              path'.NodupKeys ∧ (∀ x, path.get x = path'.get x) ∧
              List.Forall₂ (Over vs rev (hd.level + 1) path) (d0.map (fun d => upd d hd.level j)) os := by
            by_cases hj : j = 0
            · obtain ⟨os, path', k1, k2, k3, k4⟩ := st0 (branches hd.label rev (ch.length - 1) (j + 1) cs ++ rest)
                path hp (fun l x s hl => hb l x s (by omega))
              refine ⟨os, path', by rw [if_pos hj]; exact k1, k2, k3, ?_⟩
              rw [List.forall₂_map_left_iff]
              refine List.Forall₂.imp (fun d o hdo => hdo) ?_
              have : List.Forall₂ (fun d o => d ∈ d0 ∧ Over vs rev (m.rank c) path d o) d0 os := by
                refine List.forall₂_iff_get.2 ⟨k4.length_eq, fun k h1 h2 => ⟨List.getElem_mem _, ?_⟩⟩
                exact (List.forall₂_iff_get.1 k4).2 k h1 h2
              refine this.imp ?_
              rintro d o ⟨hd0, ho⟩
              rw [upd_id (by rw [supp d hd0 _ rc, hj])]
              exact ho.up nd (by omega) hb (supp d hd0)
            · have e : (if rev then ch.length - 1 - j else j) = stOf rev hd.edgeNum j := by
                unfold stOf; rw [hl]
              rw [if_neg hj, e]
              have hb1 : Base vs rev hd.level (path.insert hd.label (stOf rev hd.edgeNum j)) := by
                intro l x s hl hv
                rw [AMap.get_insert_ne _ _ (fun e => by subst e; have := names_inj nd hx hv; omega)]
                exact hb l x s (by omega) hv
              obtain ⟨os, path', k1, k2, k3, k4⟩ := st0
                (.pop hd.label :: (branches hd.label rev (ch.length - 1) (j + 1) cs ++ rest))
                (path.insert hd.label (stOf rev hd.edgeNum j)) (AMap.nodup_insert hp _ _)
                (fun l x s hl => hb1 l x s (by omega))
              have hbg : b.get hd.label = some (stOf rev hd.edgeNum 0) := hbl _ _ _ (by omega) hx
              refine ⟨os ++ [], path'.insert hd.label (stOf rev hd.edgeNum 0), ?_, AMap.nodup_insert k2 _ _, ?_, ?_⟩
              · refine .quiet (s1 := ⟨_, path.insert hd.label (stOf rev hd.edgeNum j), b, ss, rev⟩) rfl (k1.trans ?_)
                exact .quiet (s1 := ⟨_, path'.insert hd.label (stOf rev hd.edgeNum 0), b, ss, rev⟩)
                  (by simp [pathStep, hbg]) (.refl _)
              · intro x
                rw [AMap.get_insert]
                split
                · rename_i e; subst e
                  exact hb _ _ _ (Nat.lt_succ_self _) hx
                · rename_i e
                  rw [← k3 x, AMap.get_insert_ne _ _ e]
              · rw [List.append_nil, List.forall₂_map_left_iff]
                have : List.Forall₂ (fun d o => d ∈ d0 ∧
                    Over vs rev (m.rank c) (path.insert hd.label (stOf rev hd.edgeNum j)) d o) d0 os := by
                  refine List.forall₂_iff_get.2 ⟨k4.length_eq, fun k h1 h2 => ⟨List.getElem_mem _, ?_⟩⟩
                  exact (List.forall₂_iff_get.1 k4).2 k h1 h2
                refine this.imp ?_
                rintro d o ⟨hd0, ho⟩
                exact (ho.up nd rc hb1 (supp d hd0)).push nd hx
          obtain ⟨os0, path1, k1, k2, k3, k4⟩ := first
          obtain ⟨os1, path2, q1, q2, q3, q4⟩ := st1 rest path1 k2
            (fun l x s hl hv => by rw [← k3]; exact hb l x s hl hv)
          refine ⟨os0 ++ os1, path2, ?_, q2, fun x => (k3 x).trans (q3 x), ?_⟩
          · simp only [branches, List.append_assoc]
            exact k1.trans q1
          · exact List.rel_append k4 (q4.imp fun d o ho => ho.same fun x => (k3 x).symm)
      obtain ⟨ds, f, st⟩ := loop ch 0 (fun _ h => h) (by omega)
      refine ⟨ds, f.famL wf li hn hh, fun rest path hp hb => ?_⟩
      rw [hrk] at hb ⊢
      obtain ⟨os, path', k1, k2, k3, k4⟩ := st rest path hp hb
      refine ⟨os, path', ?_, k2, k3, k4⟩
      have hlab : m.label? i = some hd.label := by simp [label?, hn, hh]
      have hne : ch ≠ [] := by
        rintro rfl
        simp at hl
        omega
      have hn' : m.node? i = some (.nt h ch) := hn
      exact .quiet (s1 := ⟨branches hd.label rev (ch.length - 1) 0 ch ++ rest, path, b, ss, rev⟩)
        (by simp [pathStep, hn', hlab, hne]) k1

end
end Zma
end DD
