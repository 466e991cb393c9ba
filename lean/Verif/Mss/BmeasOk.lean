import Verif.Mss.ProbOk

/-!
# Correctness of `bmeas` on MDDs and MTMDDs
-/

set_option autoImplicit false
set_option linter.unusedSectionVars false
set_option linter.unusedVariables false

namespace DD
open Arena
namespace Mda
variable {T : Type} [DecidableEq T] [Fixed T] {m : Arena T} {R' : List Nat → Prop}

/-! ## Topological order -/

/-- State of the search: `o` is sorted; visited nodes that are not in `o` have rank at least `k`. -/
structure TOK (m : Arena T) (k : Nat) (v o : List Nat) : Prop where
  topo : Bdd.Topo m o
  sub : ∀ j ∈ o, j ∈ v
  anc : ∀ j ∈ v, j ∉ o → k ≤ m.rank j
  live : ∀ j ∈ o, m.Live j

theorem topoF_ok (wf : WF R' m) : ∀ (fuel x : Nat) (v o : List Nat), m.Live x → m.rank x < fuel →
    TOK m (m.rank x + 1) v o → ∃ v' o', topoF m fuel x (v, o) = some (v', o') ∧ TOK m (m.rank x + 1) v' o' ∧
      (∀ j, j ∈ o' ↔ j ∈ o ∨ Reach m x j) ∧ (∀ j, j ∈ v' ↔ j ∈ v ∨ Reach m x j) := by
  intro fuel
  induction fuel with
  | zero => intro x v o _ h; omega
  | succ n ih =>
    intro x v o hx hr ht
    by_cases hv : x ∈ v
    · have ho : x ∈ o := Decidable.byContradiction fun h => by have := ht.anc x hv h; omega
      refine ⟨v, o, by simp only [topoF, if_pos hv], ht, fun j => ?_, fun j => ?_⟩
      · exact ⟨.inl, fun h => h.elim id (ht.topo.closed ho)⟩
      · exact ⟨.inl, fun h => h.elim id (fun h => ht.sub j (ht.topo.closed ho h))⟩
    · obtain ⟨nd, hn⟩ := hx.node
      have hk : ∀ c ∈ nd.kids, m.Live c ∧ m.rank c < m.rank x := by
        cases nd with
        | term t => intro c hc; cases hc
        | nt h ch => exact wf.kid x h ch hx hn
      have loop : ∀ (cs : List Nat), (∀ c ∈ cs, c ∈ nd.kids) → ∀ (v o : List Nat), TOK m (m.rank x) v o →
          ∃ v' o', topoKids (topoF m n) cs (v, o) = some (v', o') ∧ TOK m (m.rank x) v' o' ∧
            (∀ j, j ∈ o' ↔ j ∈ o ∨ ∃ c ∈ cs, Reach m c j) ∧ (∀ j, j ∈ v' ↔ j ∈ v ∨ ∃ c ∈ cs, Reach m c j) := by
        intro cs
        induction cs with
        | nil => intro _ v o h; exact ⟨v, o, rfl, h, by simp, by simp⟩
        | cons c cs ihc =>
          intro hsub v o ht
          have hc := hk c (hsub c List.mem_cons_self)
          obtain ⟨v1, o1, h1, h2, h3, h4⟩ := ih c v o hc.1 (by omega)
            ⟨ht.topo, ht.sub, fun j hj hj' => by have := ht.anc j hj hj'; omega, ht.live⟩
          have h2' : TOK m (m.rank x) v1 o1 := by
            refine ⟨h2.topo, h2.sub, fun j hj hj' => ?_, h2.live⟩
            have hno : j ∉ o ∧ ¬ Reach m c j := by
              rw [h3] at hj'
              exact ⟨fun h => hj' (.inl h), fun h => hj' (.inr h)⟩
            exact ht.anc j (((h4 j).1 hj).resolve_right hno.2) hno.1
          obtain ⟨v2, o2, k1, k2, k3, k4⟩ := ihc (fun y hy => hsub y (List.mem_cons_of_mem _ hy)) v1 o1 h2'
          refine ⟨v2, o2, by simp only [topoKids, h1, k1], k2, fun j => ?_, fun j => ?_⟩
          · rw [k3, h3]; simp [or_assoc]
          · rw [k4, h4]; simp [or_assoc]
      have ho : x ∉ o := fun h => hv (ht.sub x h)
      obtain ⟨v1, o1, h1, h2, h3, h4⟩ := loop nd.kids (fun _ h => h) (x :: v) o (by
        refine ⟨ht.topo, fun j hj => List.mem_cons_of_mem _ (ht.sub j hj), fun j hj hj' => ?_, ht.live⟩
        rcases List.mem_cons.1 hj with rfl | hj
        · exact Nat.le_refl _
        · have := ht.anc j hj hj'; omega)
      have hx1 : x ∉ o1 := by
        intro hm
        rcases (h3 x).1 hm with h | ⟨c, hc, h⟩
        · exact ho h
        · have := wf.reach_rank_le (hk c hc).1 h
          have := (hk c hc).2
          omega
      have hreach : ∀ j, Reach m x j ↔ j = x ∨ ∃ c ∈ nd.kids, Reach m c j := by
        intro j
        constructor
        · intro hj
          rcases hj.cases_head with h | ⟨h', ch', c, e1, e2, e3⟩
          · exact .inl h.symm
          · rw [hn] at e1; cases e1; exact .inr ⟨c, e2, e3⟩
        · rintro (rfl | ⟨c, hc, hj⟩)
          · exact .refl _
          · cases nd with
            | term t => cases hc
            | nt h ch => exact ((Reach.refl x).step hn hc).trans hj
      refine ⟨v1, x :: o1, by simp only [topoF, if_neg hv, hn, h1], ?_, fun j => ?_, fun j => ?_⟩
      · refine ⟨.cons hx1 ?_ h2.topo, ?_, ?_, ?_⟩
        · intro n' hn' c hc
          rw [hn] at hn'; cases hn'
          exact (h3 c).2 (.inr ⟨c, hc, .refl _⟩)
        · intro j hj
          rcases List.mem_cons.1 hj with rfl | hj
          · exact (h4 j).2 (.inl List.mem_cons_self)
          · exact h2.sub j hj
        · intro j hj hj'
          rw [List.mem_cons, not_or] at hj'
          have hno : j ∉ o ∧ ¬ ∃ c ∈ nd.kids, Reach m c j := by
            have := hj'.2
            rw [h3] at this
            exact ⟨fun h => this (.inl h), fun h => this (.inr h)⟩
          rcases List.mem_cons.1 (((h4 j).1 hj).resolve_right hno.2) with h | h
          · exact absurd h hj'.1
          · exact ht.anc j h hno.1
        · intro j hj
          rcases List.mem_cons.1 hj with rfl | hj
          · exact hx
          · exact h2.live j hj
      · rw [List.mem_cons, h3, hreach]
        tauto
      · rw [h4, hreach, List.mem_cons]
        tauto

theorem topo_ok (wf : WF R' m) {x : Nat} (hx : m.Live x) :
    ∃ l, topo m x = some l ∧ Bdd.Topo m l ∧ (∀ j, j ∈ l ↔ Reach m x j) := by
  obtain ⟨v, o, h1, h2, h3, _⟩ := topoF_ok wf (m.rank x + 1) x [] [] hx (Nat.lt_succ_self _)
    ⟨.nil, by simp, by simp, by simp⟩
  exact ⟨o, by simp only [topo, h1, Option.map_some], h2.topo, fun j => by rw [h3]; simp⟩

/-! ## The loop -/

section
variable {R : Type} [CommRing R]

theorem bump_get (g : AMap Nat R) (e k : Nat) (x : R) :
    ((g.insert e ((g.get e).getD 0 + x)).get k).getD 0 = (g.get k).getD 0 + if e = k then x else 0 := by
  rw [AMap.get_insert]
  by_cases h : e = k
  · subst h; simp
  · simp [h]

theorem edgeLoop_ok (wf : WF R' m) {s : Sel T} (hs : ∀ t, s.und t = true → s.sel t = false)
    {pv : String → Option (List R)} {q : Nat → Nat → R} (hq : Reads m pv q) (w : R) (pj : List R) (qj : Nat → R) :
    ∀ (es : List Nat) (j : Nat) (grad cache : AMap Nat R), (∀ e ∈ es, m.Live e ∧ TableOK m pv e) →
      (∀ k, k < es.length → pj[j + k]? = some (qj (j + k))) → MemoP (fun j r => r = psum m s q j) cache →
      ∃ grad' cache', edgeLoop m pv s w pj j es grad cache = some (grad', cache', es.map (psum m s q)) ∧
        MemoP (fun j r => r = psum m s q j) cache' ∧
        ∀ (l : List Nat) (D : Nat → R), l.Nodup → (∀ e ∈ es, e ∈ l) →
          (l.map (fun g => (grad'.get g).getD 0 * D g)).sum = (l.map (fun g => (grad.get g).getD 0 * D g)).sum +
            ∑ k ∈ Finset.range es.length, w * qj (j + k) * D (es.getD k 0) := by
  intro es
  induction es with
  | nil => intro j grad cache _ _ hc; exact ⟨grad, cache, rfl, hc, by simp⟩
  | cons e es ih =>
    intro j grad cache he hp hc
    obtain ⟨c1, h1, h2⟩ := probC_ok wf hs hq (he e List.mem_cons_self).1 (he e List.mem_cons_self).2 hc
    have hp0 := hp 0 (by simp)
    rw [Nat.add_zero] at hp0
    obtain ⟨g2, c2, k1, k2, k3⟩ := ih (j + 1) (grad.insert e ((grad.get e).getD 0 + w * qj j)) c1
      (fun x hx => he x (List.mem_cons_of_mem _ hx))
      (fun k hk => by
        have := hp (k + 1) (by simpa using hk)
        rwa [show j + 1 + k = j + (k + 1) by omega]) h2
    refine ⟨g2, c2, by simp only [edgeLoop, hp0, h1, k1, List.map_cons], k2, fun l D hn hl => ?_⟩
    rw [k3 l D hn (fun x hx => hl x (List.mem_cons_of_mem _ hx))]
    simp only [bump_get]
    rw [Bdd.sum_bump hn (hl e List.mem_cons_self) (fun g => (grad.get g).getD 0) D, List.length_cons,
      Finset.sum_range_succ']
    simp only [List.getD_cons_zero, List.getD_cons_succ, Nat.add_zero]
    have : ∀ k, j + 1 + k = j + (k + 1) := fun k => by omega
    simp only [this]
    ring

theorem getD_set (l : List R) (d e : Nat) (x : R) (hd : d < l.length) :
    (l.set d x).getD e 0 = if d = e then x else l.getD e 0 := by
  simp only [List.getD_eq_getElem?_getD, List.getElem?_set]
  by_cases h : d = e
  · subst h; simp [hd]
  · simp [h]

theorem addDiffs_ok (w : R) (probs : List R) : ∀ (ds : List Nat) (slot : List R), ds.Nodup →
    (∀ d ∈ ds, d < slot.length ∧ d + 1 < probs.length) →
    ∃ slot', addDiffs w probs ds slot = some slot' ∧ slot'.length = slot.length ∧
      ∀ d, slot'.getD d 0 = slot.getD d 0 + if d ∈ ds then w * (probs.getD (d + 1) 0 - probs.getD d 0) else 0 := by
  intro ds
  induction ds with
  | nil => intro slot _ _; exact ⟨slot, rfl, rfl, by simp⟩
  | cons d ds ih =>
    intro slot hn h
    obtain ⟨h1, h2⟩ := h d List.mem_cons_self
    rw [List.nodup_cons] at hn
    obtain ⟨s', k1, k2, k3⟩ := ih (slot.set d (slot[d] + w * (probs[d + 1] - probs[d]))) hn.2
      (fun e he => by rw [List.length_set]; exact h e (List.mem_cons_of_mem _ he))
    refine ⟨s', ?_, by rw [k2, List.length_set], fun e => ?_⟩
    · simp only [addDiffs, List.getElem?_eq_getElem h1, List.getElem?_eq_getElem h2,
        List.getElem?_eq_getElem (show d < probs.length by omega)]
      exact k1
    · rw [k3, getD_set _ _ _ _ h1]
      by_cases he : d = e
      · subst he
        simp only [if_true, hn.1, if_false, List.mem_cons, true_or, List.getD_eq_getElem?_getD,
          List.getElem?_eq_getElem h1, List.getElem?_eq_getElem h2,
          List.getElem?_eq_getElem (show d < probs.length by omega), Option.getD_some]
        ring
      · simp [he, Ne.symm he]

/-- The recurrence behind the loop, for the variable labelled `x0` and its step `d → d + 1`. -/
structure Grad (m : Arena T) (s : Sel T) (q : Nat → Nat → R) (x0 : String) (d : Nat) (D : Nat → R) : Prop where
  term : ∀ j t, m.nodes[j]? = some (.term t) → D j = 0
  nt : ∀ j h ch hd, m.Live j → m.nodes[j]? = some (.nt h ch) → m.headers[h]? = some hd →
    D j = ∑ k ∈ Finset.range ch.length, q hd.level k * D (ch.getD k 0) +
      if hd.label = x0 ∧ d + 1 < ch.length then psum m s q (ch.getD (d + 1) 0) - psum m s q (ch.getD d 0) else 0

/-- Entry of the result, 0 if absent. -/
def evAt (ev : AMap String (List R)) (x : String) (d : Nat) : R := ((ev.get x).getD []).getD d 0

/-- The vectors have one entry less than the number of states. -/
def EvOK (m : Arena T) (ev : AMap String (List R)) : Prop :=
  ∀ x v, ev.get x = some v → ∃ hd ∈ m.headers, hd.label = x ∧ v.length = hd.edgeNum - 1

/-- Labels of the non-terminals in a list. -/
def labelsOf (m : Arena T) (l : List Nat) : List String := l.filterMap m.label?

theorem bmeasLoop_ok (wf : WF R' m) {s : Sel T} (hs : ∀ t, s.und t = true → s.sel t = false)
    (hlab : ∀ hd ∈ m.headers, ∀ hd' ∈ m.headers, hd.label = hd'.label → hd = hd')
    {pv : String → Option (List R)} {q : Nat → Nat → R} (hq : Reads m pv q) :
    ∀ (l : List Nat), Bdd.Topo m l → (∀ j ∈ l, m.Live j ∧ TableOK m pv j) →
      ∀ (grad cache : AMap Nat R) (ev : AMap String (List R)), MemoP (fun j r => r = psum m s q j) cache → EvOK m ev →
      ∃ ev', bmeasLoop m pv s l grad cache ev = some ev' ∧ EvOK m ev' ∧
        (∀ x, (ev'.get x).isSome ↔ (ev.get x).isSome ∨ x ∈ labelsOf m l) ∧
        ∀ x0 d D, Grad m s q x0 d D →
          evAt ev' x0 d = evAt ev x0 d + (l.map (fun j => (grad.get j).getD 0 * D j)).sum := by
  intro l
  induction l with
  | nil => intro _ _ grad cache ev _ he; exact ⟨ev, rfl, he, by simp [labelsOf], by simp⟩
  | cons f l ih =>
    intro ht hl grad cache ev hc he
    cases ht with
    | cons hnm hkids ht =>
      have hl' : ∀ j ∈ l, m.Live j ∧ TableOK m pv j := fun j hj => hl j (List.mem_cons_of_mem _ hj)
      obtain ⟨lf, tf⟩ := hl f List.mem_cons_self
      obtain ⟨nd, hn⟩ := lf.node
      cases nd with
      | term t =>
        obtain ⟨ev', h1, h0, h2, h3⟩ := ih ht hl' grad cache ev hc he
        refine ⟨ev', by simp only [bmeasLoop, hn, h1], h0, ?_, ?_⟩
        · intro x
          rw [h2]
          simp [labelsOf, label?, hn]
        · intro x0 d D hD
          rw [h3 x0 d D hD, List.map_cons, List.sum_cons, hD.term f _ hn]; ring
      | nt h ch =>
        obtain ⟨hd, hh, hlen, hrk, _, _, hk⟩ := wf.nt lf hn
        have hm := List.mem_of_getElem? hh
        have hpos := wf.pos hd hm
        have hlb := label?_nt hn hh
        obtain ⟨fp, f1, f2⟩ := tf f h ch hd (.refl _) hn hh
        obtain ⟨g1, c1, e1, e2, e3⟩ := edgeLoop_ok wf hs hq ((grad.get f).getD 0) fp (q hd.level) ch 0 grad cache
          (fun e hce => hl' e (hkids _ hn e hce))
          (fun k hk => by rw [Nat.zero_add]; exact hq hd hm fp f1 k (by omega)) hc
        have hslot : ((ev.get hd.label).getD (List.replicate (ch.length - 1) 0)).length = ch.length - 1 := by
          cases eg : ev.get hd.label with
          | none => simp
          | some v =>
            obtain ⟨hd', a1, a2, a3⟩ := he _ _ eg
            rw [hlab hd' a1 hd hm a2] at a3
            simp [a3, hlen]
        obtain ⟨slot', s1, s2, s3⟩ := addDiffs_ok ((grad.get f).getD 0) (ch.map (psum m s q))
          (List.range (ch.length - 1)) ((ev.get hd.label).getD (List.replicate (ch.length - 1) 0)) List.nodup_range
          (fun d hd' => by
            have := List.mem_range.1 hd'
            rw [hslot, List.length_map]
            omega)
        have he' : EvOK m (ev.insert hd.label slot') := by
          intro x v hx
          rw [AMap.get_insert] at hx
          split at hx
          · rename_i e
            cases hx
            exact ⟨hd, hm, e, by rw [s2, hslot, hlen]⟩
          · exact he x v hx
        obtain ⟨ev', h1, h0, h2, h3⟩ := ih ht hl' g1 c1 (ev.insert hd.label slot') e2 he'
        refine ⟨ev', ?_, h0, ?_, ?_⟩
        · simp only [bmeasLoop, hn, hlb, f1, e1]
          rw [if_neg (by omega)]
          simp only [s1]
          exact h1
        · intro x
          rw [h2]
          have : labelsOf m (f :: l) = hd.label :: labelsOf m l := by simp [labelsOf, hlb]
          rw [this, List.mem_cons, AMap.get_insert]
          by_cases hx : hd.label = x
          · subst hx; simp
          · simp [hx, Ne.symm hx]
        · intro x0 d D hD
          rw [h3 x0 d D hD, e3 l D ht.nodup (fun e hce => hkids _ hn e hce), List.map_cons, List.sum_cons,
            hD.nt f h ch hd lf hn hh]
          have hev : evAt (ev.insert hd.label slot') x0 d = evAt ev x0 d + (grad.get f).getD 0 *
              if hd.label = x0 ∧ d + 1 < ch.length then psum m s q (ch.getD (d + 1) 0) - psum m s q (ch.getD d 0)
              else 0 := by
            unfold evAt
            rw [AMap.get_insert]
            by_cases hx : hd.label = x0
            · subst hx
              rw [if_pos rfl, Option.getD_some, s3]
              have a1 : ((ev.get hd.label).getD (List.replicate (ch.length - 1) 0)).getD d 0 =
                  ((ev.get hd.label).getD []).getD d 0 := by
                cases ev.get hd.label with
                | some v => rfl
                | none =>
                  simp only [Option.getD_none, List.getD_eq_getElem?_getD, List.getElem?_replicate]
                  split <;> simp
              rw [a1]
              congr 1
              by_cases hdl : d + 1 < ch.length
              · rw [if_pos (List.mem_range.2 (by omega)), if_pos ⟨rfl, hdl⟩]
                simp only [List.getD_eq_getElem?_getD, List.getElem?_map, List.getElem?_eq_getElem hdl,
                  List.getElem?_eq_getElem (show d < ch.length by omega), Option.map_some, Option.getD_some]
              · rw [if_neg (fun h => hdl (by have := List.mem_range.1 h; omega)), if_neg (fun h => hdl h.2), mul_zero]
            · rw [if_neg hx, if_neg (fun h => hx h.1), mul_zero, add_zero]
          rw [hev, mul_add, Finset.mul_sum]
          have a2 : ∀ k, (grad.get f).getD 0 * (q hd.level k * D (ch.getD k 0)) =
              (grad.get f).getD 0 * q hd.level (0 + k) * D (ch.getD k 0) := fun k => by rw [Nat.zero_add]; ring
          simp only [a2]
          ring

/-- `q` with the weights of level `l0` concentrated on the state `k`. -/
def setq (q : Nat → Nat → R) (l0 k : Nat) : Nat → Nat → R :=
  fun l j => if l = l0 then (if j = k then 1 else 0) else q l j

theorem setq_below (wf : WF R' m) (s : Sel T) (q : Nat → Nat → R) {l0 i : Nat} (hi : m.Live i)
    (hr : m.rank i ≤ l0) (k : Nat) : psum m s (setq q l0 k) i = psum m s q i :=
  psum_congr wf s _ i hi (Nat.le_refl _) (fun l hl j => by unfold setq; rw [if_neg (by omega)])

theorem grad_ok (wf : WF R' m) {s : Sel T} {q : Nat → Nat → R} {x0 : String} {l0 n0 : Nat}
    (hx : ∀ hd ∈ m.headers, (hd.label = x0 ↔ hd.level = l0) ∧ (hd.level = l0 → hd.edgeNum = n0)) {d : Nat} (hd0 : d + 1 < n0) :
    Grad m s q x0 d (fun j => psum m s (setq q l0 (d + 1)) j - psum m s (setq q l0 d) j) := by
  refine ⟨fun j t hn => by simp only [psum_term _ _ hn, sub_self], fun j h ch hd lj hn hh => ?_⟩
  obtain ⟨hd', hh', hlen, hrk, _, _, hk⟩ := wf.nt lj hn
  rw [hh] at hh'; cases hh'
  obtain ⟨x1, x2⟩ := hx hd (List.mem_of_getElem? hh)
  rw [psum_nt wf s _ lj hn hh, psum_nt wf s _ lj hn hh]
  by_cases hl : hd.level = l0
  · have hd1 : d + 1 < ch.length := by rw [hlen, x2 hl]; exact hd0
    rw [if_pos ⟨x1.2 hl, hd1⟩]
    have low : ∀ k, k < ch.length → ∀ e, psum m s (setq q l0 e) (ch.getD k 0) = psum m s q (ch.getD k 0) := by
      intro k hk' e
      obtain ⟨lc, rc⟩ := hk _ (getD_mem hk')
      exact setq_below wf s q lc (by omega) e
    have one : ∀ e, e < ch.length → ∑ k ∈ Finset.range ch.length, setq q l0 e hd.level k *
        psum m s (setq q l0 e) (ch.getD k 0) = psum m s q (ch.getD e 0) := by
      intro e he
      rw [Finset.sum_eq_single e]
      · simp only [setq, hl, if_true, one_mul]
        exact low e he e
      · intro k _ hke
        simp [setq, hl, hke]
      · intro h; exact absurd (Finset.mem_range.2 he) h
    rw [one _ hd1, one _ (by omega)]
    have z : ∑ k ∈ Finset.range ch.length, q hd.level k *
        (psum m s (setq q l0 (d + 1)) (ch.getD k 0) - psum m s (setq q l0 d) (ch.getD k 0)) = 0 := by
      refine Finset.sum_eq_zero fun k hk' => ?_
      have hk' := Finset.mem_range.1 hk'
      rw [low k hk', low k hk', sub_self, mul_zero]
    rw [z, zero_add]
  · rw [if_neg (fun h => hl (x1.1 h.1)), add_zero, ← Finset.sum_sub_distrib]
    refine Finset.sum_congr rfl fun k _ => ?_
    simp only [setq, hl, if_false]
    ring

theorem bmeas_ok (wf : WF R' m) {s : Sel T} (hs : ∀ t, s.und t = true → s.sel t = false)
    (hlab : ∀ hd ∈ m.headers, ∀ hd' ∈ m.headers, hd.label = hd'.label → hd = hd')
    {pv : String → Option (List R)} {q : Nat → Nat → R} (hq : Reads m pv q) {i : Nat} (hi : m.Live i)
    (ht : TableOK m pv i) :
    ∃ ev, bmeas m pv s i = some ev ∧ EvOK m ev ∧
      (∀ x, (ev.get x).isSome ↔ ∃ j, Reach m i j ∧ m.label? j = some x) ∧
      ∀ x0 l0 n0, (∀ hd ∈ m.headers, (hd.label = x0 ↔ hd.level = l0) ∧ (hd.level = l0 → hd.edgeNum = n0)) →
        ∀ d, d + 1 < n0 → evAt ev x0 d = psum m s (setq q l0 (d + 1)) i - psum m s (setq q l0 d) i := by
  obtain ⟨l, h1, h2, h3⟩ := topo_ok wf hi
  obtain ⟨ev, k1, k2, k3, k4⟩ := bmeasLoop_ok wf hs hlab hq l h2
    (fun j hj => ⟨wf.reach_live ((h3 j).1 hj) hi, fun j' h ch hd hr => ht j' h ch hd (((h3 j).1 hj).trans hr)⟩)
    ((AMap.empty).insert i 1) AMap.empty AMap.empty (memoP_empty _) (by intro x v hx; simp at hx)
  refine ⟨ev, by simp only [bmeas, h1, k1], k2, fun x => ?_, fun x0 l0 n0 hx d hd => ?_⟩
  · rw [k3]
    simp only [AMap.get_empty, Option.isSome_none, Bool.false_eq_true, false_or, labelsOf, List.mem_filterMap, h3]
  · rw [k4 x0 d _ (grad_ok wf hx hd)]
    have e1 : evAt (AMap.empty : AMap String (List R)) x0 d = 0 := by simp [evAt]
    have e2 : ∀ j, (((AMap.empty : AMap Nat R).insert i 1).get j).getD 0 = 0 + if i = j then 1 else 0 := by
      intro j
      rw [AMap.get_insert]
      by_cases h : i = j <;> simp [h]
    simp only [e1, e2, zero_add]
    have e3 := Bdd.sum_bump h2.nodup ((h3 i).2 (.refl _)) (fun _ => (0 : R))
      (fun j => psum m s (setq q l0 (d + 1)) j - psum m s (setq q l0 d) j) 1
    simp only [zero_add, zero_mul, List.map_const', List.sum_replicate, smul_zero, one_mul] at e3
    exact e3

end
end Mda
end DD
