import Verif.Bss.Queries
import Verif.Bss.BmeasOk
import Verif.Bss.PathOk
import Verif.Props.BddSession
import Mathlib.Algebra.Ring.Rat

/-!
# Properties of the BDD analyses: C12, C13, C14, C15, C19
-/

set_option autoImplicit false
set_option linter.unusedSectionVars false
set_option linter.unusedVariables false

namespace DD.Props
open Arena

variable {w : World}

/-- `n` is one more than the level of the highest variable `F` depends on, 0 for a constant. -/
def Height (F : BFun) (n : Nat) : Prop := DependsBelow n F ∧ ∀ k, DependsBelow k F → n ≤ k

/-- An assignment of the variables `0 … n-1` (`false` elsewhere). -/
def extend {n : Nat} (a : Fin n → Bool) : Nat → Bool := fun l => if h : l < n then a ⟨l, h⟩ else false

theorem extA_extend {n : Nat} (a : Fin n → Bool) :
    extA (D := fun _ => Bool) (fun _ b => b) false a = extend a := rfl

theorem rank_height {A : Abs} (R : Rel w A) {i : Nat} {F : BFun} (h : Den w.mgr.bdd.arena i F) {n : Nat}
    (hn : Height F n) : w.mgr.bdd.arena.rank i = n :=
  Nat.le_antisymm (Bdd.rank_le_of_indep R.mok.inv R.mok.inj h hn.1)
    (hn.2 _ (Bdd.dependsBelow_rank R.mok.inv h))

theorem nodup_getElem?_inj {l : List String} (h : l.Nodup) {i j : Nat} {x : String} (h1 : l[i]? = some x)
    (h2 : l[j]? = some x) : i = j := by
  obtain ⟨a1, a2⟩ := List.getElem?_eq_some_iff.1 h1
  obtain ⟨b1, b2⟩ := List.getElem?_eq_some_iff.1 h2
  exact (List.Nodup.getElem_inj_iff h).1 (a2.trans b2.symm)

theorem denotes_get {A : Abs} (R : Rel w A) {f : Nat} {F : BFun} (hf : w.Denotes f F) :
    ∃ i, w.held.get f = some i ∧ Den w.mgr.bdd.arena i F := R.get (R.denotes_iff.1 hf)

/-- **C02.** `get_label` is the name and `get_header` the header id of the highest variable the function
depends on, `None` for a constant. -/
theorem C02_label (hw : w.Reachable) {f : Nat} {F : BFun} (hf : w.Denotes f F) {names : List String}
    (hn : Names w names) : ∃ t, IsTop F t ∧ w.bddHeader f = some t ∧
      w.bddLabel f = some (t.bind (fun l => names[l]?)) ∧ ∀ l ∈ t, l < names.length := by
  obtain ⟨A, R⟩ := hw.rel
  obtain ⟨i, h1, h2⟩ := denotes_get R hf
  rw [names_iff R] at hn
  subst hn
  cases Bdd.den_cases R.mok.inv R.mok.inj h2 with
  | const b e1 _ e3 =>
    have e1' : w.mgr.bdd.arena.nodes[i]? = _ := e1
    exact ⟨none, fun a b => by rw [e3, e3], by simp only [World.bddHeader, h1, e1],
      by simp only [World.bddLabel, h1, label?, e1', Option.bind_none], by simp⟩
  | node hh lo hi hd e1 e2 e3 e4 e5 e6 =>
    have e1' : w.mgr.bdd.arena.nodes[i]? = _ := e1
    have e2' := e2
    rw [R.mok.hdrs, mkHeaders_get] at e2'
    obtain ⟨s, hs, rfl⟩ := e2'
    refine ⟨some hh, e6, by simp only [World.bddHeader, h1, e1], ?_, ?_⟩
    · simp only [World.bddLabel, h1, label?, e1', e2, Option.map_some, Option.bind_some, hs]
    · rintro l ⟨⟩
      exact (List.getElem?_eq_some_iff.1 hs).1

/-- **C02.** Two handles have the same id exactly when they denote the same function. -/
theorem C02_id (hw : w.Reachable) {f g : Nat} {F G : BFun} (hf : w.Denotes f F) (hg : w.Denotes g G) :
    w.bddId f = w.bddId g ↔ F = G := by
  obtain ⟨A, R⟩ := hw.rel
  obtain ⟨i, h1, h2⟩ := denotes_get R hf
  obtain ⟨j, h3, h4⟩ := denotes_get R hg
  simp only [World.bddId, h1, h3, Option.some.injEq]
  constructor
  · rintro rfl
    exact funext fun a => T3.ofBool_inj ((h2.val a).det (h4.val a))
  · rintro rfl
    exact Bdd.canon R.mok.inv R.mok.inj h2 h4

/-- Every handle has a height, and it is at most the number of variables. -/
theorem height_exists (hw : w.Reachable) {f : Nat} {F : BFun} (hf : w.Denotes f F) {names : List String}
    (hn : Names w names) : ∃ n, Height F n ∧ n ≤ names.length := by
  obtain ⟨A, R⟩ := hw.rel
  obtain ⟨i, h1, h2⟩ := denotes_get R hf
  rw [names_iff R] at hn
  refine ⟨w.mgr.bdd.arena.rank i, ⟨Bdd.dependsBelow_rank R.mok.inv h2,
    fun k hk => Bdd.rank_le_of_indep R.mok.inv R.mok.inj h2 hk⟩, ?_⟩
  rw [hn]
  cases Bdd.den_cases R.mok.inv R.mok.inj h2 with
  | const b k1 => rw [rank_term (show w.mgr.bdd.arena.nodes[i]? = _ from k1)]; omega
  | node h lo hi hd k1 k2 =>
    rw [rank_nt (show w.mgr.bdd.arena.nodes[i]? = _ from k1) k2]
    rw [R.mok.hdrs, mkHeaders_get] at k2
    obtain ⟨x, h1, rfl⟩ := k2
    exact (List.getElem?_eq_some_iff.1 h1).1

/-! ## C12 -/

/-- **C12.** `bdd_count(ss)` is the number of assignments of the variables up to the top one whose value
is in `ss`. -/
theorem C12_count (hw : w.Reachable) {f : Nat} {F : BFun} (hf : w.Denotes f F) {n : Nat}
    (hn : Height F n) (ss : List Bool) :
    w.bddCount ss f = some (Finset.univ.filter (fun a : Fin n → Bool => F (extend a) ∈ ss)).card := by
  obtain ⟨A, R⟩ := hw.rel
  obtain ⟨i, h1, h2⟩ := denotes_get R hf
  unfold World.bddCount
  rw [h1]
  simp only
  rw [Bdd.count_ok R.mok.inv R.mok.inj h2, rank_height R h2 hn]
  congr 1
  unfold bsum wsum
  rw [Finset.card_filter]
  refine Finset.sum_congr rfl fun a _ => ?_
  simp only [Finset.prod_const_one, one_mul, Bdd.ind]
  rfl

/-! ## C13 -/

/-- The literals of an assignment, lowest level first: `x` or `~x`. -/
def literals (names : List String) {n : Nat} (a : Fin n → Bool) : List String :=
  List.ofFn (fun k => (if a k then "" else "~") ++ names.getD k "")

theorem lits_eq {names : List String} {n : Nat} (a : Nat → Bool) :
    Bdd.lits names n a = literals names (fun k : Fin n => a k) := by
  unfold Bdd.lits literals
  rw [List.ofFn_eq_map, ← List.map_coe_finRange_eq_range, List.map_map]
  refine List.map_congr_left fun k _ => ?_
  simp only [Function.comp, Bdd.lit]
  by_cases h : a k = true <;> simp [h]

/-- **C13.** Iterating `bdd_extract(ss)` ends and yields, without repetition, exactly the literal lists of
the assignments of the variables up to the top one whose value is in `ss`; their number is
`BddPath::len`, i.e. `bdd_count(ss)`. -/
theorem C13_extract (hw : w.Reachable) {f : Nat} {F : BFun} (hf : w.Denotes f F) {n : Nat}
    (hn : Height F n) {names : List String} (hnm : Names w names) (ss : List Bool) :
    ∃ st out, w.bddExtract ss f = some st ∧ Enum.Yields w.bddNext st out ∧ out.Nodup ∧
      (∀ r, r ∈ out ↔ ∃ a : Fin n → Bool, F (extend a) ∈ ss ∧ r = literals names a) ∧
      w.bddPathLen f st = some out.length ∧ w.bddCount ss f = some out.length := by
  obtain ⟨A, R⟩ := hw.rel
  obtain ⟨i, h1, h2⟩ := denotes_get R hf
  have hrk := rank_height R h2 hn
  rw [names_iff R] at hnm
  subst hnm
  obtain ⟨st, h3, h4⟩ := Bdd.path_ok R.mok.inv R.mok.hdrs h2 ss
  have hss : st.ss = ss := by
    rw [Bdd.pathNew_ok R.mok.hdrs] at h3; cases h3; rfl
  have hcount : w.bddCount ss f = some (Bdd.outs A.names ss (w.mgr.bdd.arena.rank i) F).length := by
    unfold World.bddCount
    rw [h1]
    simp only
    rw [Bdd.count_ok R.mok.inv R.mok.inj h2, Bdd.outs_length]
  refine ⟨st, Bdd.outs A.names ss (w.mgr.bdd.arena.rank i) F, ?_, h4, Bdd.outs_nodup _ _ _ _, ?_, ?_, hcount⟩
  · unfold World.bddExtract; rw [h1]; exact h3
  · intro r
    rw [Bdd.mem_outs, hrk]
    constructor
    · rintro ⟨a, k1, k2, rfl⟩
      refine ⟨fun k => a k, ?_, lits_eq a⟩
      have : extend (fun k : Fin n => a k) = a := by
        funext l
        unfold extend
        by_cases hl : l < n
        · rw [dif_pos hl]
        · rw [dif_neg hl, k1 l (by omega)]
      rw [this]; exact k2
    · rintro ⟨a, k1, rfl⟩
      refine ⟨extend a, fun k hk => by simp [extend, hk], k1, ?_⟩
      rw [lits_eq]
      congr 1
      funext k
      simp [extend]
  · unfold World.bddPathLen; rw [hss]; exact hcount

/-! ## C14 -/

section
variable {R : Type} [CommRing R]

/-- Probability that the value of `F` lies in `ss`, when variable `i` is independently `true` with
"probability" `p i`. -/
def probSpec (n : Nat) (p : Nat → R) (F : BFun) (ss : List Bool) : R :=
  ∑ a : Fin n → Bool, if F (extend a) ∈ ss then ∏ i : Fin n, (if a i then p i else 1 - p i) else 0

theorem probSpec_eq (n : Nat) (p : Nat → R) (F : BFun) (ss : List Bool) :
    bsum (Bdd.pw p) (Bdd.ind ss) n F = probSpec n p F ss := by
  unfold bsum wsum probSpec
  refine Finset.sum_congr rfl fun a _ => ?_
  show _ * Bdd.ind ss (F (extend a)) = _
  unfold Bdd.ind
  by_cases h : F (extend a) ∈ ss
  · rw [if_pos h, if_pos h, mul_one]; rfl
  · rw [if_neg h, if_neg h, mul_zero]

/-- The probabilities in the order of the variables; 0 if absent. -/
def probs (names : List String) (pv : String → Option R) (i : Nat) : R :=
  (pv (names.getD i "")).getD 0

theorem pvOK_probs {A : Abs} (r : Rel w A) (pv : String → Option R) :
    Bdd.PvOK w.mgr.bdd.arena pv (probs A.names pv) := by
  intro hd hm
  rw [r.mok.hdrs] at hm
  obtain ⟨k, hk⟩ := List.mem_iff_getElem?.1 hm
  rw [mkHeaders_get] at hk
  obtain ⟨x, h1, rfl⟩ := hk
  simp [probs, List.getD_eq_getElem?_getD, h1]

theorem rank_le_names {A : Abs} (r : Rel w A) {i : Nat} (hi : w.mgr.bdd.arena.Live i) :
    w.mgr.bdd.arena.rank i ≤ A.names.length := by
  obtain ⟨nd, hn⟩ := hi.node
  cases nd with
  | term t => rw [rank_term hn]; omega
  | nt h ch =>
    obtain ⟨hd, e1, _, e2, _⟩ := r.mok.inv.wf.nt hi hn
    rw [r.mok.hdrs, mkHeaders_get] at e1
    obtain ⟨x, h1, rfl⟩ := e1
    have := (List.getElem?_eq_some_iff.1 h1).1
    simp only at e2
    omega

/-- **C14.** `prob(pv, ss)` is the probability that the value lies in `ss`, summed over the assignments of
all variables. -/
theorem C14_prob (hw : w.Reachable) {f : Nat} {F : BFun} (hf : w.Denotes f F) {names : List String}
    (hnm : Names w names) (pv : String → Option R) (ss : List Bool) :
    w.bddProb pv ss f = some (probSpec names.length (probs names pv) F ss) := by
  obtain ⟨A, r⟩ := hw.rel
  obtain ⟨i, h1, h2⟩ := denotes_get r hf
  rw [names_iff r] at hnm
  subst hnm
  unfold World.bddProb
  rw [h1]
  simp only
  rw [Bdd.prob_ok r.mok.inv r.mok.inj h2 (pvOK_probs r pv) ss (rank_le_names r h2.live), probSpec_eq]

/-! ## C15 -/

/-- `pv` with the probability of `x` replaced. -/
def setPv (pv : String → Option R) (x : String) (v : R) : String → Option R :=
  fun y => if y = x then some v else pv y

/-- **C15.** For every variable `x`, `bmeas(pv, ss)` at `x` (0 if absent) is `prob` with `pv[x] = 1` minus
`prob` with `pv[x] = 0`.  `x` is present iff it labels a node of the diagram. -/
theorem C15_bmeas (hw : w.Reachable) {f : Nat} {F : BFun} (hf : w.Denotes f F) {names : List String}
    (hnm : Names w names) (pv : String → Option R) (ss : List Bool) :
    ∃ ev, w.bddBmeas pv ss f = some ev ∧
      (∀ x ∈ names, ∃ p1 p0, w.bddProb (setPv pv x 1) ss f = some p1 ∧
        w.bddProb (setPv pv x 0) ss f = some p0 ∧ (ev.get x).getD 0 = p1 - p0) ∧
      ∀ x, (ev.get x).isSome ↔ ∃ i j, w.held.get f = some i ∧ Reach w.mgr.bdd.arena i j ∧
        w.mgr.bdd.arena.label? j = some x := by
  obtain ⟨A, r⟩ := hw.rel
  obtain ⟨i, h1, h2⟩ := denotes_get r hf
  have hnm' := hnm
  rw [names_iff r] at hnm
  subst hnm
  obtain ⟨ev, k1, k2, k3⟩ := Bdd.bmeas_ok r.mok.inv r.mok.inj h2 (pvOK_probs r pv) ss
    (N := A.names.length) (fun j hj => rank_le_names r hj)
  refine ⟨ev, by unfold World.bddBmeas; rw [h1]; exact k1, ?_, ?_⟩
  · intro x hx
    obtain ⟨l0, hl0⟩ := List.mem_iff_getElem?.1 hx
    have hlab : ∀ hd ∈ w.mgr.bdd.arena.headers, hd.label = x ↔ hd.level = l0 := by
      intro hd hm
      rw [r.mok.hdrs] at hm
      obtain ⟨k, hk⟩ := List.mem_iff_getElem?.1 hm
      rw [mkHeaders_get] at hk
      obtain ⟨y, e1, rfl⟩ := hk
      constructor
      · rintro rfl; exact nodup_getElem?_inj r.mok.nodup e1 hl0
      · intro e; simp only at e; subst e; rw [hl0] at e1; cases e1; rfl
    refine ⟨_, _, C14_prob hw hf hnm' _ ss, C14_prob hw hf hnm' _ ss, ?_⟩
    rw [k3 l0 x hlab]
    have key : ∀ v : R, bsum (Bdd.pw (Function.update (probs A.names pv) l0 v)) (Bdd.ind ss) A.names.length F =
        probSpec A.names.length (probs A.names (setPv pv x v)) F ss := by
      intro v
      rw [← probSpec_eq]
      refine Bdd.bsum_sub_same _ _ _ _ _ fun l hl => ?_
      have e1 : A.names[l]? = some A.names[l] := List.getElem?_eq_getElem hl
      by_cases e : l = l0
      · subst e
        rw [hl0] at e1
        simp [probs, setPv, List.getD_eq_getElem?_getD, hl0]
      · rw [Function.update_of_ne e]
        have hne : A.names[l] ≠ x := fun h => e (nodup_getElem?_inj r.mok.nodup (h ▸ e1) hl0)
        simp [probs, setPv, List.getD_eq_getElem?_getD, e1, hne]
    rw [key, key]
  · intro x
    rw [k2]
    constructor
    · rintro ⟨j, e1, e2⟩; exact ⟨i, j, h1, e1, e2⟩
    · rintro ⟨i', j, e0, e1, e2⟩
      rw [h1] at e0; cases e0
      exact ⟨j, e1, e2⟩

end

/-! ## C19 -/

/-- **C19 (BDD).** `size` returns the numbers of distinct reachable non-terminals and terminals, and
twice the first number. -/
theorem C19_bdd_size (hw : w.Reachable) {f i : Nat} (hf : w.held.get f = some i) :
    ∃ nts ts : List Nat, nts.Nodup ∧ ts.Nodup ∧
      (∀ j, j ∈ nts ↔ Reach w.mgr.bdd.arena i j ∧ ∃ h ch, w.mgr.bdd.arena.nodes[j]? = some (.nt h ch)) ∧
      (∀ j, j ∈ ts ↔ Reach w.mgr.bdd.arena i j ∧ ∃ t, w.mgr.bdd.arena.nodes[j]? = some (.term t)) ∧
      w.bddSize f = some (nts.length, ts.length, 2 * nts.length) := by
  obtain ⟨A, r⟩ := hw.rel
  obtain ⟨F, _, h2⟩ := r.heldS f i hf
  obtain ⟨L, k1, k2, k3⟩ := Bdd.nodeSize_ok r.mok.inv h2.live
  refine ⟨L.filter (w.mgr.bdd.arena.isNt ·), L.filter (!w.mgr.bdd.arena.isNt ·), k1.filter _, k1.filter _,
    ?_, ?_, ?_⟩
  · intro j
    rw [List.mem_filter, k2]
    refine and_congr_right fun _ => ?_
    unfold isNt
    cases w.mgr.bdd.arena.nodes[j]? with
    | none => simp
    | some n => cases n <;> simp
  · intro j
    rw [List.mem_filter, k2]
    refine and_congr_right fun hr => ?_
    obtain ⟨n, hn⟩ := (r.mok.inv.wf.reach_live hr h2.live).node
    unfold isNt
    rw [hn]
    cases n <;> simp
  · unfold World.bddSize
    rw [hf, ← List.countP_eq_length_filter, ← List.countP_eq_length_filter]
    exact k3

/-! ## A concrete case

Variables `x`, `y`, `z` (levels 0, 1, 2); handle 4 is `(x ∧ y) ∨ z`, handle 3 is `x ∧ y`. -/

/-- The session. -/
def analysisCmds : List Cmd := [.defvar "x", .defvar "y", .defvar "z", .and 0 1, .or 3 2]

example : (World.new.run analysisCmds).bind (fun p => p.2.bddCount [true] 4) = some 5 ∧
    (World.new.run analysisCmds).bind (fun p => p.2.bddCount [true] 3) = some 1 ∧
    (World.new.run analysisCmds).bind (fun p => p.2.bddCount [true, false] 3) = some 4 ∧
    (World.new.run analysisCmds).bind (fun p => p.2.bddSize 4) = some (3, 2, 6) := by
  decide +kernel

example : (World.new.run analysisCmds).bind (fun p =>
    (p.2.bddExtract [true] 3).bind (fun st => (p.2.bddNext st).bind (fun q =>
      (p.2.bddNext q.2).map (fun q' => (q.1, q'.1))))) = some (some ["x", "y"], none) := by
  decide +kernel

example : (World.new.run analysisCmds).bind (fun p =>
    p.2.bddProb (R := ℚ) (fun s => if s = "z" then some (1/3) else some (1/2)) [true] 4) = some (1/2) := by
  decide +kernel

example : (World.new.run analysisCmds).bind (fun p =>
    (p.2.bddBmeas (R := ℚ) (fun s => if s = "z" then some (1/3) else some (1/2)) [true] 4).map
      (fun e => (e.get "x", e.get "z", e.get "u"))) = some (some (1/3), some (3/4), none) := by
  decide +kernel

end DD.Props
