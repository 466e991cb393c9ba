import Verif.Bdd.Reach
import Verif.Mdd.Reach
import Verif.Mtmdd.Reach
import Verif.Mtmdd2.Reach
import Verif.Zmdd.Reach
import Verif.Zdd.Model

/-!
# C69: an operation repeated at once is answered from the cache
-/

set_option autoImplicit false

namespace DD.Props

theorem memo_again {S : Type} {get : S → Option Nat} {put : S → Nat → S} {body body' : S → Option (Nat × S)}
    {s s' : S} {r : Nat} (h : memo get put body s = some (r, s')) (hp : ∀ t, get (put t r) = some r) :
    memo get put body' s' = some (r, s') := by
  unfold memo at h ⊢
  cases hg : get s with
  | some x =>
    rw [hg] at h
    cases h
    rw [hg]
  | none =>
    rw [hg] at h
    cases hb : body s with
    | none => rw [hb] at h; cases h
    | some q =>
      rw [hb] at h
      obtain ⟨r', t⟩ := q
      cases h
      rw [hp t]

theorem node_kept {T : Type} {m m' : Arena T} (h : Arena.Step m m') {i : Nat} (hi : m.Live i) : m'.node? i = m.node? i :=
  (h.keep i hi).2

/-! ## BDD -/

section bdd
open Bdd

/-- The connectives with a cache entry of their own; the others are compositions of these. -/
def _root_.DD.BddOp.memoised : BddOp → Bool
  | .not _ | .and _ _ | .or _ _ | .xor _ _ | .ite _ _ _ => true
  | _ => false

theorem bddGet {op f g r : Nat} (hr : r < EMPTY) (t : Bdd) : cacheGet op f g (cachePut op f g t r) = some r :=
  ComputeCache.get_put_self _ (Nat.ne_of_lt hr)

theorem bddIte {f g h r : Nat} (hr : r < EMPTY) (t : Bdd) : iteCacheGet f g h (iteCachePut f g h t r) = some r :=
  ComputeCache.get_put_self _ (Nat.ne_of_lt hr)

theorem bdd_and_again {f g : Nat} {s s' : Bdd} {r : Nat} (h : s.and f g = some (r, s')) (hr : r < EMPTY) :
    s'.and f g = some (r, s') ∧ s'.and g f = some (r, s') := by
  simp only [Bdd.and, andF] at h ⊢
  by_cases hfg : f = g
  · subst hfg
    rw [if_pos rfl] at h ⊢
    cases h
    exact ⟨rfl, rfl⟩
  · rw [if_neg hfg] at h ⊢
    rw [if_neg (Ne.symm hfg), Nat.min_comm g f, Nat.max_comm g f]
    exact ⟨memo_again h (bddGet hr), memo_again h (bddGet hr)⟩

theorem bdd_or_again {f g : Nat} {s s' : Bdd} {r : Nat} (h : s.or f g = some (r, s')) (hr : r < EMPTY) :
    s'.or f g = some (r, s') ∧ s'.or g f = some (r, s') := by
  simp only [Bdd.or, orF] at h ⊢
  by_cases hfg : f = g
  · subst hfg
    rw [if_pos rfl] at h ⊢
    cases h
    exact ⟨rfl, rfl⟩
  · rw [if_neg hfg] at h ⊢
    rw [if_neg (Ne.symm hfg), Nat.min_comm g f, Nat.max_comm g f]
    exact ⟨memo_again h (bddGet hr), memo_again h (bddGet hr)⟩

theorem bdd_xor_again {f g : Nat} {s s' : Bdd} {r : Nat} (h : s.xor f g = some (r, s')) (hr : r < EMPTY) :
    s'.xor f g = some (r, s') ∧ s'.xor g f = some (r, s') := by
  simp only [Bdd.xor, xorF] at h ⊢
  by_cases hfg : f = g
  · subst hfg
    rw [if_pos rfl] at h ⊢
    cases h
    exact ⟨rfl, rfl⟩
  · rw [if_neg hfg] at h ⊢
    rw [if_neg (Ne.symm hfg), Nat.min_comm g f, Nat.max_comm g f]
    exact ⟨memo_again h (bddGet hr), memo_again h (bddGet hr)⟩

theorem bdd_ite_again {f g h' : Nat} {s s' : Bdd} {r : Nat} (h : s.ite f g h' = some (r, s')) (hr : r < EMPTY)
    (hk : s'.arena.node? f = s.arena.node? f) : s'.ite f g h' = some (r, s') := by
  simp only [Bdd.ite, iteF] at h ⊢
  rw [hk]
  cases hn : s.arena.node? f with
  | none => rw [hn] at h; cases h
  | some nd =>
    rw [hn] at h
    cases nd with
    | term t => cases t <;> (cases h; rfl)
    | nt hx ch =>
      simp only at h ⊢
      by_cases hgh : g = h'
      · rw [if_pos hgh] at h ⊢
        cases h
        rfl
      · rw [if_neg hgh] at h ⊢
        exact memo_again h (bddIte hr)

/-- **C69**, BDD. -/
theorem C69_bdd {s : Bdd} (hs : Bdd.Reachable s) (o : BddOp) (ho : o.memoised = true)
    (hl : ∀ i ∈ o.args, s.arena.Live i) {r : Nat} {s' : Bdd} (h : o.run s = some (r, s')) (hr : r < EMPTY) :
    o.run s' = some (r, s') := by
  obtain ⟨_, _, h1, _, h3, _⟩ := Bdd.op_ok hs.inv o hl
  rw [h] at h1
  cases h1
  cases o with
  | not f =>
    simp only [BddOp.run, Bdd.not, notF] at h ⊢
    exact memo_again h (bddGet hr)
  | and f g => exact (bdd_and_again h hr).1
  | or f g => exact (bdd_or_again h hr).1
  | xor f g => exact (bdd_xor_again h hr).1
  | ite f g k => exact bdd_ite_again h hr (node_kept h3 (hl f (by simp [BddOp.args])))
  | _ => cases ho

/-- **C69**, BDD: the commutative connectives also answer at once with the operands swapped. -/
theorem C69_bdd_swap {s s' : Bdd} {f g r : Nat} (hr : r < EMPTY) :
    (s.and f g = some (r, s') → s'.and g f = some (r, s')) ∧ (s.or f g = some (r, s') → s'.or g f = some (r, s')) ∧
    (s.xor f g = some (r, s') → s'.xor g f = some (r, s')) :=
  ⟨fun h => (bdd_and_again h hr).2, fun h => (bdd_or_again h hr).2, fun h => (bdd_xor_again h hr).2⟩

end bdd

/-! ## MDD -/

section mdd
open Mdd

@[inherit_doc BddOp.memoised]
def _root_.DD.MddOp.memoised : MddOp → Bool
  | .not _ | .and _ _ | .or _ _ | .xor _ _ | .ite _ _ _ | .replace _ _ => true
  | _ => false

theorem mddGet {op f g r : Nat} (hr : r < EMPTY) (t : Mdd) : cacheGet op f g (cachePut op f g t r) = some r :=
  ComputeCache.get_put_self _ (Nat.ne_of_lt hr)

theorem mddIte {f g h r : Nat} (hr : r < EMPTY) (t : Mdd) : iteCacheGet f g h (iteCachePut f g h t r) = some r :=
  ComputeCache.get_put_self _ (Nat.ne_of_lt hr)

theorem mdd_and_again {f g : Nat} {s s' : Mdd} {r : Nat} (h : s.and f g = some (r, s')) (hr : r < EMPTY) :
    s'.and f g = some (r, s') ∧ s'.and g f = some (r, s') := by
  simp only [Mdd.and, andF] at h ⊢
  rw [Nat.min_comm g f, Nat.max_comm g f]
  exact ⟨memo_again h (mddGet hr), memo_again h (mddGet hr)⟩

theorem mdd_or_again {f g : Nat} {s s' : Mdd} {r : Nat} (h : s.or f g = some (r, s')) (hr : r < EMPTY) :
    s'.or f g = some (r, s') ∧ s'.or g f = some (r, s') := by
  simp only [Mdd.or, orF] at h ⊢
  rw [Nat.min_comm g f, Nat.max_comm g f]
  exact ⟨memo_again h (mddGet hr), memo_again h (mddGet hr)⟩

theorem mdd_xor_again {f g : Nat} {s s' : Mdd} {r : Nat} (h : s.xor f g = some (r, s')) (hr : r < EMPTY) :
    s'.xor f g = some (r, s') ∧ s'.xor g f = some (r, s') := by
  simp only [Mdd.xor, xorF] at h ⊢
  rw [Nat.min_comm g f, Nat.max_comm g f]
  exact ⟨memo_again h (mddGet hr), memo_again h (mddGet hr)⟩

theorem mdd_ite_again {f g h' : Nat} {s s' : Mdd} {r : Nat} (h : s.ite f g h' = some (r, s')) (hr : r < EMPTY)
    (hk : s'.arena.node? f = s.arena.node? f) : s'.ite f g h' = some (r, s') := by
  simp only [Mdd.ite, iteF] at h ⊢
  rw [hk]
  cases hn : s.arena.node? f with
  | none => rw [hn] at h; cases h
  | some nd =>
    rw [hn] at h
    cases nd with
    | term t => cases t <;> (cases h; rfl)
    | nt hx ch =>
      simp only at h ⊢
      by_cases hgh : g = h'
      · rw [if_pos hgh] at h ⊢
        cases h
        rfl
      · rw [if_neg hgh] at h ⊢
        exact memo_again h (mddIte hr)

/-- **C69**, MDD. -/
theorem C69_mdd {s : Mdd} (hs : Mdd.Reachable s) (o : MddOp) (ho : o.memoised = true)
    (hl : ∀ i ∈ o.args, s.arena.Live i) {r : Nat} {s' : Mdd} (h : o.run s = some (r, s')) (hr : r < EMPTY) :
    o.run s' = some (r, s') := by
  obtain ⟨_, _, h1, _, h3, _⟩ := Mdd.op_ok hs.inv o hl
  rw [h] at h1
  cases h1
  cases o with
  | not f =>
    simp only [MddOp.run, Mdd.not, notF] at h ⊢
    exact memo_again h (mddGet hr)
  | and f g => exact (mdd_and_again h hr).1
  | or f g => exact (mdd_or_again h hr).1
  | xor f g => exact (mdd_xor_again h hr).1
  | ite f g k => exact mdd_ite_again h hr (node_kept h3 (hl f (by simp [MddOp.args])))
  | replace f g =>
    simp only [MddOp.run, Mdd.replace, replaceF] at h ⊢
    exact memo_again h (mddGet hr)
  | _ => cases ho

/-- **C69**, MDD: the commutative connectives also answer at once with the operands swapped. -/
theorem C69_mdd_swap {s s' : Mdd} {f g r : Nat} (hr : r < EMPTY) :
    (s.and f g = some (r, s') → s'.and g f = some (r, s')) ∧ (s.or f g = some (r, s') → s'.or g f = some (r, s')) ∧
    (s.xor f g = some (r, s') → s'.xor g f = some (r, s')) :=
  ⟨fun h => (mdd_and_again h hr).2, fun h => (mdd_or_again h hr).2, fun h => (mdd_xor_again h hr).2⟩

end mdd

/-! ## MTMDD -/

section mt
open Mtmdd

theorem mtGet {op f g r : Nat} (hr : r < EMPTY) (t : Mtmdd) : cacheGet op f g (cachePut op f g t r) = some r :=
  ComputeCache.get_put_self _ (Nat.ne_of_lt hr)

theorem early_iff {s : Mtmdd} {tt : Int → Int → Option (Option Int)} {f g : Nat} (h : s.early tt f g = true) :
    ∃ a b, s.arena.node? f = some (.term (some a)) ∧ s.arena.node? g = some (.term (some b)) ∧ tt a b = some none := by
  unfold early at h
  split at h
  · rename_i a b h1 h2
    exact ⟨a, b, h1, h2, by simpa using h⟩
  · cases h

theorem bin_again {op : Nat} {comm : Bool} {tt : Int → Int → Option (Option Int)} {f g : Nat} {s s' : Mtmdd} {r : Nat}
    (h : bin op comm tt s f g = some (r, s')) (hr : r < EMPTY) (lf : s.arena.Live f) (lg : s.arena.Live g)
    (hk : Arena.Step s.arena s'.arena) : bin op comm tt s' f g = some (r, s') := by
  have lF : s.arena.Live (if comm = true then Min.min f g else f) := by
    split
    · rw [Nat.min_def]; split <;> assumption
    · exact lf
  have lG : s.arena.Live (if comm = true then Max.max f g else g) := by
    split
    · rw [Nat.max_def]; split <;> assumption
    · exact lg
  have kF := node_kept hk lF
  have kG := node_kept hk lG
  simp only [bin, binF] at h ⊢
  generalize (if comm = true then Min.min f g else f) = F at *
  generalize (if comm = true then Max.max f g else g) = G at *
  by_cases he : s.early tt F G = true
  · obtain ⟨a, b, h1, h2, h3⟩ := early_iff he
    unfold memo at h ⊢
    cases hg : cacheGet op F G s with
    | some x =>
      rw [hg] at h
      cases h
      rw [hg]
    | none =>
      simp only [hg, h1, h2, h3, he, if_true] at h
      cases h
      simp only [hg, h1, h2, h3, he, if_true]
  · have he' : ¬ s'.early tt F G = true := by
      unfold early at he ⊢
      rw [kF, kG]
      exact he
    unfold memo at h ⊢
    cases hg : cacheGet op F G s with
    | some x =>
      rw [hg] at h
      cases h
      rw [hg]
    | none =>
      rw [hg] at h
      simp only at h
      split at h
      · cases h
      · rename_i r' t hb
        cases h
        split at he'
        · rename_i ht
          rw [if_pos ht] at kF kG
          exact absurd ht he'
        · rename_i ht
          rw [if_neg ht, mtGet hr]

/-- **C69**, MTMDD. -/
theorem C69_mtmdd {s : Mtmdd} (hs : Mtmdd.Reachable s) (o : MtOp) (hl : ∀ i ∈ o.args, s.arena.Live i) {r : Nat}
    {s' : Mtmdd} (h : o.run s = some (r, s')) (hr : r < EMPTY) : o.run s' = some (r, s') := by
  obtain ⟨_, _, h1, _, h3, _⟩ := Mtmdd.op_ok hs.inv o hl
  rw [h] at h1
  cases h1
  cases o with
  | replace f g =>
    simp only [MtOp.run, Mtmdd.replace, replaceF] at h ⊢
    exact memo_again h (mtGet hr)
  | _ f g =>
    simp only [MtOp.run, add, sub, mul, div, rem, Mtmdd.min, Mtmdd.max] at h ⊢
    exact bin_again h hr (hl f (by simp [MtOp.args])) (hl g (by simp [MtOp.args])) h3

end mt

/-! ## MTMDD with boolean and value nodes -/

section m2
open Mtmdd2

theorem m2b {op f g r : Nat} (hr : r < EMPTY) (t : Mtmdd2) : bcacheGet op f g (bcachePut op f g t r) = some r :=
  ComputeCache.get_put_self _ (Nat.ne_of_lt hr)

theorem m2v {op f g r : Nat} (hr : r < EMPTY) (t : Mtmdd2) : vcacheGet op f g (vcachePut op f g t r) = some r :=
  ComputeCache.get_put_self _ (Nat.ne_of_lt hr)

theorem m2i {f g h r : Nat} (hr : r < EMPTY) (t : Mtmdd2) : viteGet f g h (vitePut f g h t r) = some r :=
  ComputeCache.get_put_self _ (Nat.ne_of_lt hr)

/-- **C69**, comparisons of value nodes. -/
theorem C69_compare {s s' : Mtmdd2} {f g r : Nat} (hr : r < EMPTY) :
    (s.veq f g = some (r, s') → s'.veq f g = some (r, s')) ∧
    (s.vlt f g = some (r, s') → s'.vlt f g = some (r, s')) := by
  constructor <;> intro h <;> simp only [veq, vlt, cmp, cmpF] at h ⊢ <;> exact memo_again h (m2b hr)

/-- **C69**, the one-armed conditional. -/
theorem C69_vif {s s' : Mtmdd2} {f g r : Nat} (hr : r < EMPTY) (h : s.vif f g = some (r, s')) :
    s'.vif f g = some (r, s') := by
  simp only [vif, vifF] at h ⊢
  exact memo_again h (m2v hr)

/-- **C69**, the conditional. -/
theorem C69_vite {s s' : Mtmdd2} (hs : Mtmdd2.Reachable s) {f g h' r : Nat} (hr : r < EMPTY)
    (lf : s.mdd.arena.Live f) (lg : s.mtmdd.arena.Live g) (lh : s.mtmdd.arena.Live h')
    (h : s.vite f g h' = some (r, s')) : s'.vite f g h' = some (r, s') := by
  obtain ⟨_, _, h1, _, h3, _⟩ := vite_ok hs.inv lf lg lh
  rw [h] at h1
  cases h1
  have hk := node_kept h3.1 lf
  simp only [vite, viteF] at h ⊢
  rw [hk]
  cases hn : s.mdd.arena.node? f with
  | none => rw [hn] at h; cases h
  | some nd =>
    rw [hn] at h
    cases nd with
    | term t => cases t <;> (cases h; rfl)
    | nt hx ch =>
      simp only at h ⊢
      by_cases hgh : g = h'
      · rw [if_pos hgh] at h ⊢
        cases h
        rfl
      · rw [if_neg hgh] at h ⊢
        exact memo_again h (m2i hr)

end m2

/-! ## ZDD and ZMDD -/

section zdd
open Zdd

theorem zddGet {op f g r : Nat} (t : Zdd) : cacheGet op f g (cachePut op f g t r) = some r :=
  AMap.get_insert_self _ _ _

/-- **C69**, ZDD. -/
theorem C69_zdd {s s' : Zdd} {f g r : Nat} :
    (s.union f g = some (r, s') → s'.union f g = some (r, s')) ∧
    (s.intersect f g = some (r, s') → s'.intersect f g = some (r, s')) ∧
    (s.setdiff f g = some (r, s') → s'.setdiff f g = some (r, s')) ∧
    (s.product f g = some (r, s') → s'.product f g = some (r, s')) ∧
    (s.divide f g = some (r, s') → s'.divide f g = some (r, s')) := by
  refine ⟨?_, ?_, ?_, ?_, ?_⟩ <;> intro h <;>
    simp only [union, unionF, intersect, intersectF, setdiff, setdiffF, product, productF, divide, divideF] at h ⊢
  · by_cases hfg : f = g
    · rw [if_pos hfg] at h ⊢; cases h; rfl
    · rw [if_neg hfg] at h ⊢; exact memo_again h zddGet
  · by_cases hfg : f = g
    · rw [if_pos hfg] at h ⊢; cases h; rfl
    · rw [if_neg hfg] at h ⊢; exact memo_again h zddGet
  · by_cases hfg : f = g
    · rw [if_pos hfg] at h ⊢; cases h; rfl
    · rw [if_neg hfg] at h ⊢; exact memo_again h zddGet
  · exact memo_again h zddGet
  · exact memo_again h zddGet

end zdd

section zmdd
open Zmdd

theorem zmGet {op f g r : Nat} (hr : r < EMPTY) (t : Zmdd) : cacheGet op f g (cachePut op f g t r) = some r :=
  ComputeCache.get_put_self _ (Nat.ne_of_lt hr)

/-- **C69**, ZMDD. -/
theorem C69_zmdd {s s' : Zmdd} {f g r : Nat} (hr : r < EMPTY) :
    (s.intersect f g = some (r, s') → s'.intersect f g = some (r, s') ∧ s'.intersect g f = some (r, s')) ∧
    (s.setdiff f g = some (r, s') → s'.setdiff f g = some (r, s')) := by
  constructor <;> intro h <;> simp only [intersect, intersectF, setdiff, setdiffF] at h ⊢
  · rw [Nat.min_comm g f, Nat.max_comm g f]
    exact ⟨memo_again h (zmGet hr), memo_again h (zmGet hr)⟩
  · exact memo_again h (zmGet hr)

end zmdd

/-- `x ∧ y`, then `y ∧ x`: the second call finds the entry of the first. -/
example : (let (hx, s) := Bdd.new.createHeader 0 "x"
    let (hy, s) := s.createHeader 1 "y"
    match s.createNode hx Bdd.zero Bdd.one with
    | none => none
    | some (x, s) =>
      match s.createNode hy Bdd.zero Bdd.one with
      | none => none
      | some (y, s) =>
        match s.and x y with
        | none => none
        | some (r, s1) =>
          match s1.and y x with
          | none => none
          | some (r', s2) => some (r == r', s.arena.nodes.length, s1.arena.nodes.length, s2.arena.nodes.length)) =
    some (true, 5, 6, 6) := by
  decide +kernel

end DD.Props
