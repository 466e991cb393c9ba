import Verif.Common.AMap

/-!
# Reference-counted roots

The `GcState` of the three wrappers (/repo/bss/src/bdd.rs:21-28, /repo/bss/src/zdd.rs,
/repo/mss/src/mdd.rs) and the bookkeeping of handle creation (`from_weak`) and `Drop`.
-/

set_option autoImplicit false
set_option linter.unusedSectionVars false

namespace DD

/-- /repo/bss/src/bdd.rs:21-28 -/
structure GcState (K : Type) where
  roots : AMap K Nat
  threshold : Nat
  floor : Nat

variable {K : Type} [DecidableEq K]

/-- `*roots.entry(node).or_insert(0) += 1`, /repo/bss/src/bdd.rs:83-85. -/
def pinR (r : AMap K Nat) (k : K) : AMap K Nat :=
  match r.get k with
  | some c => r.insert k (c + 1)
  | none => r.insert k 1

/-- /repo/bss/src/bdd.rs:110-115 (counts in the table are at least 1, see `RootsOK`). -/
def unpinR (r : AMap K Nat) (k : K) : AMap K Nat :=
  match r.get k with
  | none => r
  | some c => if c - 1 = 0 then r.remove k else r.insert k (c - 1)

/-- The table counts the occurrences in `L`, the list of nodes of all live handles. -/
structure RootsOK (r : AMap K Nat) (L : List K) : Prop where
  get : ∀ k, r.get k = if L.count k = 0 then none else some (L.count k)

theorem RootsOK.mem_keys {r : AMap K Nat} {L : List K} (h : RootsOK r L) {k : K} :
    k ∈ r.keys ↔ k ∈ L := by
  rw [AMap.mem_keys_iff, h.get]
  by_cases hc : L.count k = 0
  · simp only [hc, if_true]
    simp [List.count_eq_zero.1 hc]
  · simp only [hc, if_false]
    constructor
    · intro _
      exact Decidable.byContradiction fun hn => hc (List.count_eq_zero.2 hn)
    · intro _; exact ⟨_, rfl⟩

theorem RootsOK.congr {r : AMap K Nat} {L L' : List K} (h : RootsOK r L)
    (e : ∀ k, L.count k = L'.count k) : RootsOK r L' := ⟨fun k => by rw [h.get, e]⟩

theorem rootsOK_empty : RootsOK (AMap.empty : AMap K Nat) [] := ⟨fun k => by simp⟩

theorem RootsOK.pin {r : AMap K Nat} {L : List K} (h : RootsOK r L) (k : K) :
    RootsOK (pinR r k) (k :: L) where
  get k' := by
    have hk := h.get k
    unfold pinR
    rw [hk]
    by_cases hc : L.count k = 0
    · simp only [hc, if_true]
      rw [AMap.get_insert, h.get, List.count_cons]
      by_cases he : k = k'
      · subst he; simp [hc]
      · simp [he]
    · simp only [hc, if_false]
      rw [AMap.get_insert, h.get, List.count_cons]
      by_cases he : k = k'
      · subst he; simp
      · simp [he]

theorem RootsOK.unpin {r : AMap K Nat} {L : List K} {k : K} (h : RootsOK r (k :: L)) :
    RootsOK (unpinR r k) L where
  get k' := by
    have hk := h.get k
    rw [List.count_cons_self] at hk
    simp only [Nat.add_eq_zero_iff, Nat.succ_ne_self, and_false, if_false] at hk
    unfold unpinR
    rw [hk]
    have hk' := h.get k'
    rw [List.count_cons] at hk'
    simp only [Nat.add_sub_cancel]
    by_cases hc : L.count k = 0
    · simp only [hc, if_true]
      rw [AMap.get_remove]
      by_cases he : k = k'
      · subst he; simp [hc]
      · simp only [he, if_false, hk']; simp [he]
    · simp only [hc, if_false]
      rw [AMap.get_insert]
      by_cases he : k = k'
      · subst he; simp [hc]
      · simp only [he, if_false, hk']; simp [he]

/-! ## Values of a map -/

namespace AMap

variable {I : Type} [DecidableEq I]

/-- All values. -/
def vals (m : AMap I K) : List K := m.kvs.map (·.2)

theorem mem_vals_of_get {m : AMap I K} {i : I} {k : K} (h : m.get i = some k) : k ∈ m.vals :=
  List.mem_map.2 ⟨_, mem_of_get h, rfl⟩

theorem get_of_mem_vals {m : AMap I K} (nd : m.NodupKeys) {k : K} (h : k ∈ m.vals) :
    ∃ i, m.get i = some k := by
  obtain ⟨⟨i, k'⟩, h1, h2⟩ := List.mem_map.1 h
  cases h2
  exact ⟨i, get_of_mem nd h1⟩

theorem remove_absent {m : AMap I K} {i : I} (h : m.get i = none) : m.remove i = m := by
  obtain ⟨l⟩ := m
  unfold remove
  congr 1
  rw [List.filter_eq_self]
  intro p hp
  rw [get_eq_none_iff] at h
  simp only [ne_eq, decide_not, Bool.not_eq_eq_eq_not, Bool.not_true, decide_eq_false_iff_not]
  intro he
  exact h (List.mem_map.2 ⟨p, hp, he⟩)

theorem vals_insert_fresh {m : AMap I K} {i : I} (k : K) (h : m.get i = none) :
    (m.insert i k).vals = k :: m.vals := by
  unfold insert
  rw [remove_absent h]
  rfl

theorem len_insert_fresh {m : AMap I K} {i : I} (k : K) (h : m.get i = none) :
    (m.insert i k).len = m.len + 1 := by
  unfold insert
  rw [remove_absent h]
  rfl

theorem count_vals_remove {m : AMap I K} (nd : m.NodupKeys) {i : I} {k : K} (h : m.get i = some k)
    (k' : K) : m.vals.count k' = (k :: (m.remove i).vals).count k' := by
  obtain ⟨l⟩ := m
  induction l with
  | nil => cases h
  | cons p ps ih =>
    obtain ⟨j, v⟩ := p
    unfold NodupKeys keys at nd
    simp only [List.map_cons, List.nodup_cons] at nd
    by_cases hj : j = i
    · subst hj
      have hv : v = k := by simpa [get] using h
      subst hv
      have : (AMap.remove (⟨(j, v) :: ps⟩ : AMap I K) j) = ⟨ps⟩ := by
        unfold remove
        simp only [ne_eq, decide_not, List.filter_cons, decide_true, Bool.not_true]
        congr 1
        simp only [Bool.false_eq_true, if_false]
        rw [List.filter_eq_self]
        intro q hq
        have : ¬ q.1 = j := fun he => nd.1 (List.mem_map.2 ⟨q, hq, he⟩)
        simp [this]
      rw [this]
      rfl
    · have h' : (⟨ps⟩ : AMap I K).get i = some k := by
        unfold get at h ⊢
        simpa [List.find?_cons, hj] using h
      have := ih nd.2 h'
      have hr : (AMap.remove (⟨(j, v) :: ps⟩ : AMap I K) i).vals
          = v :: (AMap.remove (⟨ps⟩ : AMap I K) i).vals := by
        simp [remove, vals, hj]
      rw [hr]
      have hl : (⟨(j, v) :: ps⟩ : AMap I K).vals = v :: (⟨ps⟩ : AMap I K).vals := rfl
      rw [hl, List.count_cons, this, List.count_cons, List.count_cons, List.count_cons]
      omega

theorem mem_vals_remove {m : AMap I K} {i : I} {k : K} (h : k ∈ (m.remove i).vals) : k ∈ m.vals := by
  obtain ⟨p, hp, he⟩ := List.mem_map.1 h
  exact List.mem_map.2 ⟨p, (List.mem_filter.1 hp).1, he⟩

end AMap
end DD
