/-!
# The direct-mapped, lossy compute cache

Model of /repo/common/src/compute_cache.rs (`ComputeCache`).

Simplifications: the slot vector is a function on indices together with its length `2 ^ bits`
(`with_bits` is the only constructor and `grow` the only resizer, so the length is a power of two
and `trailing_zeros` of it is `bits`); key words are natural numbers, i.e. `as u32` is the identity.
-/

set_option autoImplicit false

namespace DD

/-- /repo/common/src/compute_cache.rs:16 `const EMPTY: u32 = u32::MAX`. -/
def EMPTY : Nat := 4294967295

/-- /repo/common/src/compute_cache.rs:19 -/
def INIT_BITS : Nat := 14

/-- /repo/common/src/compute_cache.rs:21 -/
def MAX_BITS : Nat := 24

/-- One slot `[k0, k1, k2, val]` (/repo/common/src/compute_cache.rs:31). -/
structure Slot where
  k0 : Nat
  k1 : Nat
  k2 : Nat
  val : Nat
deriving DecidableEq, Repr

/-- /repo/common/src/compute_cache.rs:30-34; `slots.len() = 2 ^ bits`, `mask = 2 ^ bits - 1`. -/
structure ComputeCache where
  bits : Nat
  slots : Nat → Slot
  len : Nat

/-- Liveness test `live[i0] && live[i1] && …` with Rust's short-circuit evaluation and
bounds-checked indexing (`none` = index panic); /repo/common/src/compute_cache.rs:114, 129. -/
def allLive (live : List Bool) : List Nat → Option Bool
  | [] => some true
  | i :: is =>
    match live[i]? with
    | none => none
    | some false => some false
    | some true => allLive live is

namespace ComputeCache

/-- Number of slots. -/
def size (c : ComputeCache) : Nat := 2 ^ c.bits

/-- /repo/common/src/compute_cache.rs:47-50 -/
def withBits (bits : Nat) : ComputeCache :=
  { bits := bits, slots := fun _ => ⟨0, 0, 0, EMPTY⟩, len := 0 }

/-- /repo/common/src/compute_cache.rs:43-45 -/
def new : ComputeCache := withBits INIT_BITS

/-- /repo/common/src/compute_cache.rs:55-58, wrapping 64-bit arithmetic. -/
def hash (k0 k1 k2 : Nat) : Nat :=
  let h := k0
  let h := (h * 0x9E3779B97F4A7C15 + k1) % 2 ^ 64
  let h := (h * 0x9E3779B97F4A7C15 + k2) % 2 ^ 64
  h ^^^ (h >>> 29)

/-- /repo/common/src/compute_cache.rs:52-60 -/
def index (c : ComputeCache) (k0 k1 k2 : Nat) : Nat :=
  hash k0 k1 k2 &&& (c.size - 1)

/-- /repo/common/src/compute_cache.rs:62-70 -/
def get (c : ComputeCache) (k0 k1 k2 : Nat) : Option Nat :=
  let s := c.slots (c.index k0 k1 k2)
  if s.val ≠ EMPTY ∧ s.k0 = k0 ∧ s.k1 = k1 ∧ s.k2 = k2 then some s.val else none

/-- /repo/common/src/compute_cache.rs:82-90 -/
def putNogrow (c : ComputeCache) (k0 k1 k2 v : Nat) : ComputeCache :=
  let i := c.index k0 k1 k2
  { c with
    slots := fun j => if j = i then ⟨k0, k1, k2, v⟩ else c.slots j
    len := if (c.slots i).val = EMPTY then c.len + 1 else c.len }

/-- The re-insertion loop of `grow` over the old slots
(/repo/common/src/compute_cache.rs:98-102). -/
def rehash (old : Nat → Slot) (is : List Nat) (c : ComputeCache) : ComputeCache :=
  is.foldl (fun c i =>
    let s := old i
    if s.val ≠ EMPTY then c.putNogrow s.k0 s.k1 s.k2 s.val else c) c

/-- /repo/common/src/compute_cache.rs:92-103 -/
def grow (c : ComputeCache) : ComputeCache :=
  let bits := c.bits + 1
  if bits > MAX_BITS then c
  else rehash c.slots (List.range c.size) (withBits bits)

/-- /repo/common/src/compute_cache.rs:72-80 -/
def put (c : ComputeCache) (k0 k1 k2 v : Nat) : ComputeCache :=
  let c := if c.len * 4 ≥ c.size * 3 then c.grow else c
  c.putNogrow k0 k1 k2 v

/-- The loop of `retain_live` and `retain_live3` over the slots, keeping `len`; `ids` lists the words checked; `none` = index
panic or underflow of `len -= 1`. -/
def prune (ids : Slot → List Nat) (live : List Bool) (slots : Nat → Slot) (len : Nat) : List Nat → Option Nat
  | [] => some len
  | i :: is =>
    if (slots i).val = EMPTY then prune ids live slots len is
    else
      match allLive live (ids (slots i)) with
      | none => none
      | some true => prune ids live slots len is
      | some false => if len = 0 then none else prune ids live slots (len - 1) is

/-- Common part of `retain_live` and `retain_live3`: each iteration looks at and changes its own slot only, so the slots
after the loop are written as one function. -/
def retainBy (ids : Slot → List Nat) (c : ComputeCache) (live : List Bool) :
    Option ComputeCache :=
  match prune ids live c.slots c.len (List.range c.size) with
  | none => none
  | some len =>
    some { c with
      slots := fun i =>
        let s := c.slots i
        if s.val ≠ EMPTY ∧ allLive live (ids s) = some false then { s with val := EMPTY } else s
      len := len }

/-- /repo/common/src/compute_cache.rs:110-120; `none` = index panic. -/
def retainLive (c : ComputeCache) (live : List Bool) : Option ComputeCache :=
  retainBy (fun s => [s.k1, s.k2, s.val]) c live

/-- /repo/common/src/compute_cache.rs:125-135; `none` = index panic. -/
def retainLive3 (c : ComputeCache) (live : List Bool) : Option ComputeCache :=
  retainBy (fun s => [s.k0, s.k1, s.k2, s.val]) c live

/-- /repo/common/src/compute_cache.rs:137-142 -/
def clear (c : ComputeCache) : ComputeCache :=
  { c with slots := fun i => { c.slots i with val := EMPTY }, len := 0 }

/-! ## Lemmas -/

theorem size_pos (c : ComputeCache) : 0 < c.size := Nat.pow_pos (by decide)

theorem index_lt (c : ComputeCache) (k0 k1 k2 : Nat) : c.index k0 k1 k2 < c.size := by
  have h := c.size_pos
  have := @Nat.and_le_right (hash k0 k1 k2) (c.size - 1)
  unfold index
  omega

/-- Every occupied slot sits at its key's index. -/
def Placed (c : ComputeCache) : Prop :=
  ∀ i, i < c.size → (c.slots i).val ≠ EMPTY →
    c.index (c.slots i).k0 (c.slots i).k1 (c.slots i).k2 = i

/-- `len` is the number of occupied slots. -/
def LenOK (c : ComputeCache) : Prop :=
  c.len = ((List.range c.size).filter (fun i => (c.slots i).val ≠ EMPTY)).length

/-- `len` is at least the number of occupied slots (so that the decrements in `retain_live` do not underflow). -/
def LenLe (c : ComputeCache) : Prop :=
  ((List.range c.size).filter (fun i => (c.slots i).val ≠ EMPTY)).length ≤ c.len

theorem LenOK.le {c : ComputeCache} (h : c.LenOK) : c.LenLe := Nat.le_of_eq h.symm

theorem get_eq_some {c : ComputeCache} {k0 k1 k2 w : Nat} :
    c.get k0 k1 k2 = some w ↔
      c.slots (c.index k0 k1 k2) = ⟨k0, k1, k2, w⟩ ∧ w ≠ EMPTY := by
  unfold get
  constructor
  · intro h
    simp only at h
    split at h
    · rename_i hc
      obtain ⟨h1, h2, h3, h4⟩ := hc
      simp only [Option.some.injEq] at h
      cases hs : c.slots (c.index k0 k1 k2)
      rw [hs] at h1 h2 h3 h4 h
      simp only at h1 h2 h3 h4 h
      subst h2 h3 h4 h
      exact ⟨rfl, h1⟩
    · cases h
  · rintro ⟨h, hw⟩
    simp [h, hw]

theorem get_withBits (b k0 k1 k2 : Nat) : (withBits b).get k0 k1 k2 = none := by
  simp [get, withBits]

theorem get_clear (c : ComputeCache) (k0 k1 k2 : Nat) : c.clear.get k0 k1 k2 = none := by
  simp [get, clear]

theorem index_putNogrow (c : ComputeCache) (a b d v k0 k1 k2 : Nat) :
    (c.putNogrow a b d v).index k0 k1 k2 = c.index k0 k1 k2 := rfl

theorem get_putNogrow_self (c : ComputeCache) {k0 k1 k2 v : Nat} (hv : v ≠ EMPTY) :
    (c.putNogrow k0 k1 k2 v).get k0 k1 k2 = some v := by
  rw [get_eq_some, index_putNogrow]
  simp [putNogrow, hv]

theorem get_putNogrow_ne (c : ComputeCache) {k0 k1 k2 v a b d : Nat}
    (hne : (a, b, d) ≠ (k0, k1, k2)) :
    (c.putNogrow k0 k1 k2 v).get a b d = none ∨
      (c.putNogrow k0 k1 k2 v).get a b d = c.get a b d := by
  by_cases hi : c.index a b d = c.index k0 k1 k2
  · left
    cases h : (c.putNogrow k0 k1 k2 v).get a b d with
    | none => rfl
    | some w =>
      exfalso
      rw [get_eq_some, index_putNogrow] at h
      simp only [putNogrow, hi, if_true, Slot.mk.injEq] at h
      apply hne
      simp [h.1]
  · right
    unfold get
    rw [index_putNogrow]
    simp only [putNogrow, hi, if_false]

theorem get_putNogrow {c : ComputeCache} {k0 k1 k2 v a b d w : Nat}
    (h : (c.putNogrow k0 k1 k2 v).get a b d = some w) :
    (a, b, d, w) = (k0, k1, k2, v) ∨ c.get a b d = some w := by
  by_cases hne : (a, b, d) = (k0, k1, k2)
  · left
    obtain ⟨rfl, rfl, rfl⟩ := by simpa using hne
    rw [get_eq_some, index_putNogrow] at h
    simp only [putNogrow, if_true, Slot.mk.injEq] at h
    simp [h.1]
  · rcases get_putNogrow_ne c (v := v) hne with h' | h' <;> rw [h'] at h
    · cases h
    · exact Or.inr h

theorem placed_withBits (b : Nat) : (withBits b).Placed := by
  intro i _ h
  simp [withBits] at h

theorem placed_clear (c : ComputeCache) : c.clear.Placed := by
  intro i _ h
  simp [clear] at h

theorem placed_putNogrow {c : ComputeCache} (hp : c.Placed) (k0 k1 k2 v : Nat) :
    (c.putNogrow k0 k1 k2 v).Placed := by
  intro i hi h
  rw [index_putNogrow]
  by_cases hic : i = c.index k0 k1 k2
  · simp only [putNogrow, hic, if_true]
  · simp only [putNogrow, hic, if_false] at h ⊢
    exact hp i hi h

theorem rehash_cons (old : Nat → Slot) (i : Nat) (is : List Nat) (c : ComputeCache) :
    rehash old (i :: is) c =
      rehash old is (if (old i).val ≠ EMPTY then
        c.putNogrow (old i).k0 (old i).k1 (old i).k2 (old i).val else c) := rfl

theorem placed_rehash (old : Nat → Slot) (is : List Nat) :
    ∀ c : ComputeCache, c.Placed → (rehash old is c).Placed := by
  induction is with
  | nil => intro c h; exact h
  | cons i is ih =>
    intro c h
    rw [rehash_cons]
    apply ih
    split
    · exact placed_putNogrow h _ _ _ _
    · exact h

/-- Re-insertion never invents an entry. -/
theorem get_rehash (old : Nat → Slot) (is : List Nat) :
    ∀ (c : ComputeCache) {a b d w : Nat}, (rehash old is c).get a b d = some w →
      (∃ i ∈ is, old i = ⟨a, b, d, w⟩ ∧ w ≠ EMPTY) ∨ c.get a b d = some w := by
  induction is with
  | nil => intro c a b d w h; exact Or.inr h
  | cons i is ih =>
    intro c a b d w h
    rw [rehash_cons] at h
    rcases ih _ h with ⟨j, hj, hs⟩ | h'
    · exact Or.inl ⟨j, List.mem_cons_of_mem _ hj, hs⟩
    · split at h'
      · rename_i hne
        rcases get_putNogrow h' with he | h''
        · left
          refine ⟨i, List.mem_cons_self, ?_, ?_⟩
          · cases hs : old i
            rw [hs] at he
            simpa using he.symm
          · rw [(Prod.mk.inj (Prod.mk.inj (Prod.mk.inj he).2).2).2]
            exact hne
        · exact Or.inr h''
      · exact Or.inr h'

theorem get_grow {c : ComputeCache} (hp : c.Placed) {a b d w : Nat}
    (h : c.grow.get a b d = some w) : c.get a b d = some w := by
  unfold grow at h
  simp only at h
  split at h
  · exact h
  · rcases get_rehash _ _ _ h with ⟨i, hi, hs, hw⟩ | h'
    · rw [List.mem_range] at hi
      have := hp i hi (by rw [hs]; exact hw)
      rw [hs] at this
      rw [get_eq_some]
      simp only at this
      rw [this]
      exact ⟨hs, hw⟩
    · rw [get_withBits] at h'; cases h'

theorem placed_grow {c : ComputeCache} (hp : c.Placed) : c.grow.Placed := by
  unfold grow
  simp only
  split
  · exact hp
  · exact placed_rehash _ _ _ (placed_withBits _)

theorem placed_put {c : ComputeCache} (hp : c.Placed) (k0 k1 k2 v : Nat) :
    (c.put k0 k1 k2 v).Placed := by
  unfold put
  simp only
  apply placed_putNogrow
  split
  · exact placed_grow hp
  · exact hp

/-- A stored entry can be read back at once. -/
theorem get_put_self (c : ComputeCache) {k0 k1 k2 v : Nat} (hv : v ≠ EMPTY) :
    (c.put k0 k1 k2 v).get k0 k1 k2 = some v := get_putNogrow_self _ hv

/-- Storing never invents or alters another entry. -/
theorem get_put {c : ComputeCache} (hp : c.Placed) {k0 k1 k2 v a b d w : Nat}
    (h : (c.put k0 k1 k2 v).get a b d = some w) :
    (a, b, d, w) = (k0, k1, k2, v) ∨ c.get a b d = some w := by
  unfold put at h
  simp only at h
  rcases get_putNogrow h with h' | h'
  · exact Or.inl h'
  · right
    split at h'
    · exact get_grow hp h'
    · exact h'

theorem filter_split (l : List Nat) (p q : Nat → Bool) (h : ∀ i ∈ l, q i = true → p i = true) :
    (l.filter p).length - (l.filter q).length = (l.filter (fun i => p i && !q i)).length ∧
      (l.filter q).length ≤ (l.filter p).length := by
  induction l with
  | nil => simp
  | cons x xs ih =>
    obtain ⟨ih, ih2⟩ := ih (fun i hi => h i (List.mem_cons_of_mem _ hi))
    have hx := h x List.mem_cons_self
    cases hp : p x <;> cases hq : q x <;> simp_all <;> omega

theorem prune_iff {ids : Slot → List Nat} {live : List Bool} {slots : Nat → Slot} {is : List Nat} {len n : Nat} :
    prune ids live slots len is = some n ↔
      (∀ i ∈ is, (slots i).val ≠ EMPTY → (allLive live (ids (slots i))).isSome) ∧
      (is.filter (fun i => decide ((slots i).val ≠ EMPTY ∧ allLive live (ids (slots i)) = some false))).length ≤ len ∧
      n = len - (is.filter (fun i =>
        decide ((slots i).val ≠ EMPTY ∧ allLive live (ids (slots i)) = some false))).length := by
  induction is generalizing len with
  | nil =>
    constructor
    · intro h
      exact ⟨fun i hi => (nomatch hi), Nat.zero_le _, (Option.some.inj h).symm⟩
    · rintro ⟨_, _, h⟩
      exact congrArg some h.symm
  | cons i is ih =>
    simp only [prune, List.forall_mem_cons]
    by_cases he : (slots i).val = EMPTY
    · rw [if_pos he, ih, List.filter_cons_of_neg (by rw [decide_eq_true_eq]; exact fun h => h.1 he)]
      exact and_congr_left fun _ => ⟨fun h => ⟨fun hn => absurd he hn, h⟩, fun h => h.2⟩
    · rw [if_neg he]
      cases ha : allLive live (ids (slots i)) with
      | none => simp [he]
      | some b =>
        cases b with
        | true =>
          simp only
          rw [ih, List.filter_cons_of_neg (by rw [decide_eq_true_eq, ha]; exact fun h => nomatch h.2)]
          exact and_congr_left fun _ => ⟨fun h => ⟨fun _ => rfl, h⟩, fun h => h.2⟩
        | false =>
          simp only
          have hf : (i :: is).filter (fun i =>
              decide ((slots i).val ≠ EMPTY ∧ allLive live (ids (slots i)) = some false)) =
            i :: is.filter (fun i => decide ((slots i).val ≠ EMPTY ∧ allLive live (ids (slots i)) = some false)) :=
            List.filter_cons_of_pos (by simp [he, ha])
          rw [hf]
          simp only [Option.isSome_some, implies_true, true_and, List.length_cons]
          by_cases h0 : len = 0
          · rw [if_pos h0]
            simp only [reduceCtorEq, false_iff, not_and]
            intro _ h; omega
          · rw [if_neg h0, ih]
            refine and_congr_right fun _ => ?_
            constructor
            · rintro ⟨h1, h2⟩; exact ⟨by omega, by omega⟩
            · rintro ⟨h1, h2⟩; exact ⟨by omega, by omega⟩

theorem retainBy_some {ids : Slot → List Nat} {c c' : ComputeCache} {live : List Bool}
    (h : retainBy ids c live = some c') :
    (∀ i, i < c.size → (c.slots i).val ≠ EMPTY → (allLive live (ids (c.slots i))).isSome) ∧
    c' = { c with
      slots := fun i =>
        let s := c.slots i
        if s.val ≠ EMPTY ∧ allLive live (ids s) = some false then { s with val := EMPTY } else s
      len := c.len - ((List.range c.size).filter (fun i =>
        (c.slots i).val ≠ EMPTY ∧ allLive live (ids (c.slots i)) = some false)).length } := by
  unfold retainBy at h
  split at h
  · cases h
  · rename_i n hn
    obtain ⟨h1, h2, rfl⟩ := prune_iff.1 hn
    exact ⟨fun i hi => h1 i (List.mem_range.2 hi), (Option.some.inj h).symm⟩

/-- Pruning succeeds when every occupied slot's words are in range. -/
theorem retainBy_isSome {ids : Slot → List Nat} {c : ComputeCache} {live : List Bool}
    (hl : c.LenLe)
    (h : ∀ i, i < c.size → (c.slots i).val ≠ EMPTY → (allLive live (ids (c.slots i))).isSome) :
    ∃ c', retainBy ids c live = some c' := by
  unfold retainBy
  rw [prune_iff.2 ⟨fun i hi => h i (List.mem_range.1 hi), ?_, rfl⟩]
  · exact ⟨_, rfl⟩
  · exact Nat.le_trans (filter_split (List.range c.size) (fun i => decide ((c.slots i).val ≠ EMPTY))
      (fun i => decide ((c.slots i).val ≠ EMPTY ∧ allLive live (ids (c.slots i)) = some false))
      (by intro i _ hq; simp at hq ⊢; exact hq.1)).2 hl

theorem allLive_isSome {live : List Bool} {l : List Nat} (h : ∀ i ∈ l, i < live.length) :
    (allLive live l).isSome := by
  induction l with
  | nil => rfl
  | cons i is ih =>
    unfold allLive
    have hi := h i List.mem_cons_self
    rw [List.getElem?_eq_getElem hi]
    cases live[i] with
    | false => rfl
    | true => exact ih (fun j hj => h j (List.mem_cons_of_mem _ hj))

theorem allLive_eq_true {live : List Bool} {l : List Nat} :
    allLive live l = some true ↔ ∀ i ∈ l, live[i]? = some true := by
  induction l with
  | nil => simp [allLive]
  | cons i is ih =>
    unfold allLive
    cases h : live[i]? with
    | none => simp [h]
    | some b => cases b <;> simp [h, ih]

theorem get_retainBy {ids : Slot → List Nat} {c c' : ComputeCache} {live : List Bool}
    (h : retainBy ids c live = some c') {a b d w : Nat} :
    c'.get a b d = some w ↔
      c.get a b d = some w ∧ ∀ i ∈ ids ⟨a, b, d, w⟩, live[i]? = some true := by
  obtain ⟨hall, rfl⟩ := retainBy_some h
  rw [get_eq_some, get_eq_some]
  have hidx : ∀ (s : Nat → Slot) (n : Nat),
      (ComputeCache.mk c.bits s n).index a b d = c.index a b d := fun _ _ => rfl
  simp only [hidx]
  have hi := c.index_lt a b d
  have hall := hall _ hi
  generalize hs : c.slots (c.index a b d) = s at *
  constructor
  · rintro ⟨h1, hw⟩
    split at h1
    · simp only [Slot.mk.injEq] at h1
      exact absurd h1.2.2.2.symm hw
    · rename_i hn
      refine ⟨⟨h1, hw⟩, ?_⟩
      rw [← allLive_eq_true, ← h1]
      have hv : s.val ≠ EMPTY := by rw [h1]; exact hw
      cases ha : allLive live (ids s) with
      | none => simp [ha] at hall; exact absurd hall hv
      | some bb =>
        cases bb with
        | true => rfl
        | false => exact absurd ⟨hv, ha⟩ hn
  · rintro ⟨⟨h1, hw⟩, h2⟩
    rw [← allLive_eq_true, ← h1] at h2
    refine ⟨?_, hw⟩
    rw [if_neg]
    · exact h1
    · rintro ⟨_, h3⟩
      rw [h2] at h3
      cases h3

theorem placed_retainBy {ids : Slot → List Nat} {c c' : ComputeCache} {live : List Bool}
    (h : retainBy ids c live = some c') (hp : c.Placed) : c'.Placed := by
  obtain ⟨_, rfl⟩ := retainBy_some h
  intro i hi hv
  have hidx : ∀ (s : Nat → Slot) (n x y z : Nat),
      (ComputeCache.mk c.bits s n).index x y z = c.index x y z := fun _ _ _ _ _ => rfl
  rw [hidx]
  simp only at hv ⊢
  split at hv
  · simp at hv
  · rename_i hn
    rw [if_neg hn]
    exact hp i hi hv

/-! ### The occupancy counter -/

theorem filter_length_congr_of_ne {l : List Nat} (nd : l.Nodup) {p q : Nat → Bool} {j : Nat}
    (hj : j ∈ l) (hp : p j = false) (hq : q j = true) (h : ∀ i ∈ l, i ≠ j → p i = q i) :
    (l.filter q).length = (l.filter p).length + 1 := by
  induction l with
  | nil => cases hj
  | cons x xs ih =>
    rw [List.nodup_cons] at nd
    by_cases hx : x = j
    · subst hx
      have : xs.filter q = xs.filter p := by
        apply List.filter_congr
        intro i hi
        exact (h i (List.mem_cons_of_mem _ hi) (fun he => nd.1 (he ▸ hi))).symm
      simp [hp, hq, this]
    · have hj' : j ∈ xs := by
        rcases List.mem_cons.1 hj with h1 | h1
        · exact absurd h1.symm hx
        · exact h1
      have ih' := ih nd.2 hj' (fun i hi => h i (List.mem_cons_of_mem _ hi))
      have hxe := h x List.mem_cons_self hx
      simp only [List.filter_cons, hxe]
      split <;> simp [ih']

theorem lenOK_withBits (b : Nat) : (withBits b).LenOK := by
  unfold LenOK
  rw [List.filter_eq_nil_iff.2]
  · rfl
  · simp [withBits]

theorem lenOK_clear (c : ComputeCache) : c.clear.LenOK := by
  unfold LenOK
  rw [List.filter_eq_nil_iff.2]
  · rfl
  · simp [clear]

theorem lenOK_putNogrow {c : ComputeCache} (h : c.LenOK) {k0 k1 k2 v : Nat} (hv : v ≠ EMPTY) :
    (c.putNogrow k0 k1 k2 v).LenOK := by
  unfold LenOK at *
  have hi := c.index_lt k0 k1 k2
  have hsz : (c.putNogrow k0 k1 k2 v).size = c.size := rfl
  have hsl : ∀ j, (c.putNogrow k0 k1 k2 v).slots j =
    if j = c.index k0 k1 k2 then ⟨k0, k1, k2, v⟩ else c.slots j := fun _ => rfl
  have hln : (c.putNogrow k0 k1 k2 v).len =
    if (c.slots (c.index k0 k1 k2)).val = EMPTY then c.len + 1 else c.len := rfl
  rw [hsz, hln]
  generalize c.putNogrow k0 k1 k2 v = c' at *
  generalize c.index k0 k1 k2 = ix at *
  split
  · rename_i he
    rw [h]
    symm
    apply filter_length_congr_of_ne List.nodup_range (List.mem_range.2 hi)
    · simp [he]
    · simp [hsl, hv]
    · intro i _ hne
      simp [hsl, hne]
  · rename_i he
    rw [h]
    congr 1
    apply List.filter_congr
    intro i _
    by_cases hie : i = ix
    · simp [hsl, hie, he, hv]
    · simp [hsl, hie]

theorem lenOK_rehash (old : Nat → Slot) (is : List Nat) :
    ∀ c : ComputeCache, c.LenOK → (rehash old is c).LenOK := by
  induction is with
  | nil => intro c h; exact h
  | cons i is ih =>
    intro c h
    rw [rehash_cons]
    apply ih
    split
    · rename_i hne; exact lenOK_putNogrow h hne
    · exact h

theorem lenOK_grow {c : ComputeCache} (h : c.LenOK) : c.grow.LenOK := by
  unfold grow
  simp only
  split
  · exact h
  · exact lenOK_rehash _ _ _ (lenOK_withBits _)

theorem lenOK_put {c : ComputeCache} (h : c.LenOK) {k0 k1 k2 v : Nat} (hv : v ≠ EMPTY) :
    (c.put k0 k1 k2 v).LenOK := by
  unfold put
  simp only
  apply lenOK_putNogrow _ hv
  split
  · exact lenOK_grow h
  · exact h

theorem lenOK_retainBy {ids : Slot → List Nat} {c c' : ComputeCache} {live : List Bool}
    (h : retainBy ids c live = some c') (hl : c.LenOK) : c'.LenOK := by
  obtain ⟨_, rfl⟩ := retainBy_some h
  unfold LenOK at *
  have hsz : ∀ (s : Nat → Slot) (n : Nat), (ComputeCache.mk c.bits s n).size = c.size :=
    fun _ _ => rfl
  rw [hsz]
  simp only
  rw [hl]
  rw [(filter_split (List.range c.size) (fun i => decide ((c.slots i).val ≠ EMPTY))
    (fun i => decide ((c.slots i).val ≠ EMPTY ∧ allLive live (ids (c.slots i)) = some false))
    (by intro i _ hq; simp at hq ⊢; exact hq.1)).1]
  congr 1
  apply List.filter_congr
  intro i _
  by_cases h1 : (c.slots i).val = EMPTY <;>
    by_cases h2 : allLive live (ids (c.slots i)) = some false <;> simp [h1, h2]

theorem lenLe_putNogrow {c : ComputeCache} (h : c.LenLe) (k0 k1 k2 v : Nat) :
    (c.putNogrow k0 k1 k2 v).LenLe := by
  unfold LenLe at *
  have hi := c.index_lt k0 k1 k2
  have hsz : (c.putNogrow k0 k1 k2 v).size = c.size := rfl
  have hsl : ∀ j, (c.putNogrow k0 k1 k2 v).slots j =
    if j = c.index k0 k1 k2 then ⟨k0, k1, k2, v⟩ else c.slots j := fun _ => rfl
  have hln : (c.putNogrow k0 k1 k2 v).len =
    if (c.slots (c.index k0 k1 k2)).val = EMPTY then c.len + 1 else c.len := rfl
  rw [hsz, hln]
  generalize c.putNogrow k0 k1 k2 v = c' at *
  generalize c.index k0 k1 k2 = ix at *
  have sub : ((c.slots ix).val = EMPTY → v = EMPTY) →
      ((List.range c.size).filter (fun i => decide ((c'.slots i).val ≠ EMPTY))).length ≤
        ((List.range c.size).filter (fun i => decide ((c.slots i).val ≠ EMPTY))).length := by
    intro hx
    refine (filter_split _ (fun i => decide ((c.slots i).val ≠ EMPTY)) (fun i => decide ((c'.slots i).val ≠ EMPTY)) ?_).2
    intro i _ hq
    simp only [decide_eq_true_eq, hsl] at hq ⊢
    by_cases hie : i = ix
    · subst hie
      rw [if_pos rfl] at hq
      exact fun he => hq (hx he)
    · rw [if_neg hie] at hq
      exact hq
  split
  · rename_i he
    by_cases hv : v = EMPTY
    · have := sub (fun _ => hv)
      omega
    · rw [filter_length_congr_of_ne (p := fun i => decide ((c.slots i).val ≠ EMPTY)) List.nodup_range (List.mem_range.2 hi)
        (by simp [he]) (by simp [hsl, hv]) (by intro i _ hne; simp [hsl, hne])]
      omega
  · rename_i he
    have := sub (fun e => absurd e he)
    omega

theorem lenLe_grow {c : ComputeCache} (h : c.LenLe) : c.grow.LenLe := by
  unfold grow
  simp only
  split
  · exact h
  · exact (lenOK_rehash _ _ _ (lenOK_withBits _)).le

theorem lenLe_put {c : ComputeCache} (h : c.LenLe) (k0 k1 k2 v : Nat) : (c.put k0 k1 k2 v).LenLe := by
  unfold put
  simp only
  apply lenLe_putNogrow
  split
  · exact lenLe_grow h
  · exact h

theorem lenLe_retainBy {ids : Slot → List Nat} {c c' : ComputeCache} {live : List Bool}
    (h : retainBy ids c live = some c') (hl : c.LenLe) : c'.LenLe := by
  obtain ⟨_, rfl⟩ := retainBy_some h
  unfold LenLe at *
  have hsz : ∀ (s : Nat → Slot) (n : Nat), (ComputeCache.mk c.bits s n).size = c.size :=
    fun _ _ => rfl
  rw [hsz]
  simp only
  have := (filter_split (List.range c.size) (fun i => decide ((c.slots i).val ≠ EMPTY))
    (fun i => decide ((c.slots i).val ≠ EMPTY ∧ allLive live (ids (c.slots i)) = some false))
    (by intro i _ hq; simp at hq ⊢; exact hq.1))
  refine Nat.le_trans (Nat.le_of_eq ?_) (Nat.sub_le_sub_right hl _)
  rw [this.1]
  congr 1
  apply List.filter_congr
  intro i _
  by_cases h1 : (c.slots i).val = EMPTY <;>
    by_cases h2 : allLive live (ids (c.slots i)) = some false <;> simp [h1, h2]

end ComputeCache
end DD
