/-!
# Finite maps

Model of `BddHashMap` / `std::collections::HashMap`
(/repo/common/src/common.rs, type aliases `BddHashMap`, `BddHashSet`).

A map is an association list.  Only the operations used by the code base are modelled:
`get`, `insert`, `remove`, `retain`, `keys`, `len`.

Simplification: hashing and probing are not modelled; iteration order is the list order.  All
theorems are stated for arbitrary maps, hence for every iteration order.
-/

set_option autoImplicit false

namespace DD

/-- Association list standing for a Rust hash map. -/
structure AMap (K : Type) (V : Type) where
  kvs : List (K × V)
deriving Repr, DecidableEq

namespace AMap

variable {K V : Type} [DecidableEq K]

/-- `HashMap::default()`. -/
def empty : AMap K V := ⟨[]⟩

/-- `HashMap::get`. -/
def get (m : AMap K V) (k : K) : Option V :=
  (m.kvs.find? (fun p => decide (p.1 = k))).map (·.2)

/-- `HashMap::remove`. -/
def remove (m : AMap K V) (k : K) : AMap K V :=
  ⟨m.kvs.filter (fun p => decide (p.1 ≠ k))⟩

/-- `HashMap::insert` (replaces an existing entry). -/
def insert (m : AMap K V) (k : K) (v : V) : AMap K V :=
  ⟨(k, v) :: (m.remove k).kvs⟩

/-- `HashMap::retain` with a predicate on the value. -/
def retain (m : AMap K V) (p : V → Bool) : AMap K V :=
  ⟨m.kvs.filter (fun e => p e.2)⟩

/-- `HashMap::keys`. -/
def keys (m : AMap K V) : List K := m.kvs.map (·.1)

/-- `HashMap::len`. -/
def len (m : AMap K V) : Nat := m.kvs.length

/-- Keys are pairwise distinct: true of every map built by the operations. -/
def NodupKeys (m : AMap K V) : Prop := m.keys.Nodup

@[simp] theorem get_empty (k : K) : (empty : AMap K V).get k = none := rfl

theorem find_filter_ne (l : List (K × V)) (k k' : K) :
    (l.filter (fun p => decide (p.1 ≠ k))).find? (fun p => decide (p.1 = k'))
      = if k = k' then none else l.find? (fun p => decide (p.1 = k')) := by
  induction l with
  | nil => simp
  | cons x xs ih =>
    by_cases hx : x.1 = k
    · by_cases hk : k = k'
      · subst hk
        simp only [List.filter_cons, hx, ne_eq, not_true_eq_false, decide_false]
        simp_all
      · have : ¬ x.1 = k' := fun h => hk (hx ▸ h)
        simp only [List.filter_cons, hx, ne_eq, not_true_eq_false, decide_false,
          List.find?_cons, hk, if_false]
        simp only [hk, if_false] at ih
        simpa [this, hk] using ih
    · simp only [List.filter_cons, hx, ne_eq, not_false_eq_true, decide_true, if_true,
        List.find?_cons]
      by_cases hk : x.1 = k'
      · have : ¬ k = k' := fun h => hx (hk.trans h.symm)
        simp [hk, this]
      · simp only [hk, decide_false]
        exact ih

theorem get_remove (m : AMap K V) (k k' : K) :
    (m.remove k).get k' = if k = k' then none else m.get k' := by
  unfold get remove
  rw [find_filter_ne]
  split <;> rfl

theorem get_insert (m : AMap K V) (k k' : K) (v : V) :
    (m.insert k v).get k' = if k = k' then some v else m.get k' := by
  by_cases h : k = k'
  · subst h
    simp [get, insert]
  · have := get_remove m k k'
    simp only [h, if_false] at this ⊢
    rw [← this]
    simp [get, insert, h]

@[simp] theorem get_insert_self (m : AMap K V) (k : K) (v : V) :
    (m.insert k v).get k = some v := by simp [get_insert]

theorem get_insert_ne (m : AMap K V) {k k' : K} (v : V) (h : k ≠ k') :
    (m.insert k v).get k' = m.get k' := by simp [get_insert, h]

theorem mem_of_get {m : AMap K V} {k : K} {v : V} (h : m.get k = some v) : (k, v) ∈ m.kvs := by
  unfold get at h
  cases hf : m.kvs.find? (fun p => decide (p.1 = k)) with
  | none => simp [hf] at h
  | some p =>
    simp [hf] at h
    have h1 := List.find?_some hf
    have h2 := List.mem_of_find?_eq_some hf
    simp at h1
    obtain ⟨a, b⟩ := p
    simp at h h1
    subst h; subst h1
    exact h2

theorem get_of_mem {m : AMap K V} (nd : m.NodupKeys) {k : K} {v : V} (h : (k, v) ∈ m.kvs) :
    m.get k = some v := by
  obtain ⟨l⟩ := m
  unfold get NodupKeys keys at *
  simp only at *
  induction l with
  | nil => simp at h
  | cons x xs ih =>
    simp only [List.map_cons, List.nodup_cons] at nd
    rcases List.mem_cons.1 h with rfl | h'
    · simp
    · have hne : ¬ x.1 = k := by
        intro he
        exact nd.1 (List.mem_map.2 ⟨(k, v), h', he.symm⟩)
      simpa [List.find?_cons, hne] using ih nd.2 h'

theorem get_eq_none_iff {m : AMap K V} {k : K} : m.get k = none ↔ k ∉ m.keys := by
  unfold get keys
  simp only [Option.map_eq_none_iff, List.find?_eq_none, decide_eq_true_eq, List.mem_map, not_exists,
    not_and]

theorem mem_keys_iff {m : AMap K V} {k : K} : k ∈ m.keys ↔ ∃ v, m.get k = some v := by
  rw [← Option.isSome_iff_exists, ← Option.ne_none_iff_isSome, Ne, get_eq_none_iff, Decidable.not_not]

omit [DecidableEq K] in
theorem nodup_empty : (empty : AMap K V).NodupKeys := List.nodup_nil

theorem nodup_remove {m : AMap K V} (nd : m.NodupKeys) (k : K) : (m.remove k).NodupKeys :=
  nd.sublist (List.Sublist.map _ List.filter_sublist)

theorem nodup_insert {m : AMap K V} (nd : m.NodupKeys) (k : K) (v : V) :
    (m.insert k v).NodupKeys := by
  unfold NodupKeys
  have h1 : (m.insert k v).keys = k :: (m.remove k).keys := rfl
  rw [h1, List.nodup_cons]
  refine ⟨?_, nodup_remove nd k⟩
  rw [← get_eq_none_iff, get_remove]
  simp

omit [DecidableEq K] in
theorem nodup_retain {m : AMap K V} (nd : m.NodupKeys) (p : V → Bool) :
    (m.retain p).NodupKeys :=
  nd.sublist (List.Sublist.map _ List.filter_sublist)

theorem get_retain {m : AMap K V} (nd : m.NodupKeys) (p : V → Bool) (k : K) :
    (m.retain p).get k = (m.get k).filter p := by
  have key : ∀ v, (m.retain p).get k = some v ↔ (m.get k).filter p = some v := by
    intro v
    constructor
    · intro h
      have h' := mem_of_get h
      unfold retain at h'
      simp only [List.mem_filter] at h'
      have := get_of_mem nd h'.1
      simp [this, h'.2]
    · intro h
      rw [Option.filter_eq_some_iff] at h
      have h' := mem_of_get h.1
      apply get_of_mem (nodup_retain nd p)
      unfold retain
      simp only [List.mem_filter]
      exact ⟨h', h.2⟩
  cases h : (m.get k).filter p with
  | none =>
    cases h2 : (m.retain p).get k with
    | none => rfl
    | some v => rw [(key v).1 h2] at h; cases h
  | some v => exact (key v).2 h

end AMap
end DD
