import Verif.Common.ComputeCache

/-!
# What `put` and `grow` of the compute cache keep
-/

set_option autoImplicit false

namespace DD.ComputeCache

/-- The slot of a slot's key in a table of `2 ^ b` slots. -/
def _root_.DD.Slot.home (s : Slot) (b : Nat) : Nat := hash s.k0 s.k1 s.k2 % 2 ^ b

theorem index_eq (c : ComputeCache) (k0 k1 k2 : Nat) : c.index k0 k1 k2 = hash k0 k1 k2 % 2 ^ c.bits := by
  unfold index size
  exact Nat.and_two_pow_sub_one_eq_mod _ _

theorem mod_mod_succ (n b : Nat) : n % 2 ^ (b + 1) % 2 ^ b = n % 2 ^ b :=
  Nat.mod_mod_of_dvd n ⟨2, by rw [Nat.pow_succ]⟩

theorem bits_putNogrow (c : ComputeCache) (k0 k1 k2 v : Nat) : (c.putNogrow k0 k1 k2 v).bits = c.bits := rfl

theorem bits_rehash (old : Nat → Slot) (is : List Nat) : ∀ c : ComputeCache, (rehash old is c).bits = c.bits := by
  induction is with
  | nil => intro c; rfl
  | cons i is ih =>
    intro c
    rw [rehash_cons, ih]
    split <;> rfl

theorem bits_grow (c : ComputeCache) : c.grow.bits = if c.bits < MAX_BITS then c.bits + 1 else c.bits := by
  unfold grow
  simp only
  by_cases h : c.bits < MAX_BITS
  · rw [if_neg (by omega), if_pos h, bits_rehash]; rfl
  · rw [if_pos (by omega), if_neg h]

theorem rehash_slots {old : Nat → Slot} {b : Nat} : ∀ (is : List Nat),
    (∀ i ∈ is, (old i).val ≠ EMPTY → (old i).home b = i) → is.Nodup → ∀ c : ComputeCache, c.bits = b + 1 →
    ∀ j, (rehash old is c).slots j =
      if j % 2 ^ b ∈ is ∧ (old (j % 2 ^ b)).val ≠ EMPTY ∧ (old (j % 2 ^ b)).home (b + 1) = j then old (j % 2 ^ b)
      else c.slots j := by
  intro is
  induction is with
  | nil => intro _ _ c _ j; rw [if_neg (by rintro ⟨h, _⟩; cases h)]; rfl
  | cons i is ih =>
    intro hp nd c hc j
    rw [rehash_cons]
    have hp' : ∀ i ∈ is, (old i).val ≠ EMPTY → (old i).home b = i := fun i hi => hp i (List.mem_cons_of_mem _ hi)
    have nd' := (List.nodup_cons.1 nd)
    by_cases ho : (old i).val ≠ EMPTY
    · rw [if_pos ho, ih hp' nd'.2 (c.putNogrow (old i).k0 (old i).k1 (old i).k2 (old i).val) hc j]
      have hi := hp i List.mem_cons_self ho
      have hidx : c.index (old i).k0 (old i).k1 (old i).k2 = (old i).home (b + 1) := by rw [index_eq, hc]; rfl
      have hmod : (old i).home (b + 1) % 2 ^ b = i := by
        have : (old i).home (b + 1) % 2 ^ b = (old i).home b := mod_mod_succ _ _
        rw [this, hi]
      by_cases hj : (old i).home (b + 1) = j
      · have hji : j % 2 ^ b = i := by rw [← hj]; exact hmod
        rw [hji, if_neg (fun h => nd'.1 h.1), if_pos ⟨List.mem_cons_self, ho, hj⟩]
        simp only [putNogrow, hidx, hj, if_true]
      · by_cases h2 : j % 2 ^ b ∈ is ∧ (old (j % 2 ^ b)).val ≠ EMPTY ∧ (old (j % 2 ^ b)).home (b + 1) = j
        · rw [if_pos h2, if_pos ⟨List.mem_cons_of_mem _ h2.1, h2.2⟩]
        · rw [if_neg h2, if_neg]
          · simp only [putNogrow, hidx]
            rw [if_neg (fun h => hj h.symm)]
          · rintro ⟨h3, h4, h5⟩
            rcases List.mem_cons.1 h3 with h3 | h3
            · rw [h3] at h5; exact hj h5
            · exact h2 ⟨h3, h4, h5⟩
    · rw [if_neg ho, ih hp' nd'.2 _ hc j]
      by_cases h2 : j % 2 ^ b ∈ is ∧ (old (j % 2 ^ b)).val ≠ EMPTY ∧ (old (j % 2 ^ b)).home (b + 1) = j
      · rw [if_pos h2, if_pos ⟨List.mem_cons_of_mem _ h2.1, h2.2⟩]
      · rw [if_neg h2, if_neg]
        rintro ⟨h3, h4, h5⟩
        rcases List.mem_cons.1 h3 with h3 | h3
        · rw [h3] at h4; exact ho h4
        · exact h2 ⟨h3, h4, h5⟩

/-- Growing loses no entry. -/
theorem get_grow_eq {c : ComputeCache} (hp : c.Placed) (k0 k1 k2 : Nat) : c.grow.get k0 k1 k2 = c.get k0 k1 k2 := by
  unfold grow
  simp only
  split
  · rfl
  · have hb : (withBits (c.bits + 1)).bits = c.bits + 1 := rfl
    have key := rehash_slots (old := c.slots) (b := c.bits) (List.range c.size) (by
      intro i hi ho
      have := hp i (List.mem_range.1 hi) ho
      rw [index_eq] at this
      exact this) List.nodup_range _ hb
    have hidx : (rehash c.slots (List.range c.size) (withBits (c.bits + 1))).index k0 k1 k2 =
        hash k0 k1 k2 % 2 ^ (c.bits + 1) := by rw [index_eq, bits_rehash, hb]
    have hmod : hash k0 k1 k2 % 2 ^ (c.bits + 1) % 2 ^ c.bits = c.index k0 k1 k2 := by
      rw [mod_mod_succ, index_eq]
    unfold get
    simp only
    rw [hidx, key, hmod]
    have hr : c.index k0 k1 k2 ∈ List.range c.size := List.mem_range.2 (c.index_lt _ _ _)
    by_cases hk : (c.slots (c.index k0 k1 k2)).val ≠ EMPTY ∧ (c.slots (c.index k0 k1 k2)).k0 = k0 ∧
        (c.slots (c.index k0 k1 k2)).k1 = k1 ∧ (c.slots (c.index k0 k1 k2)).k2 = k2
    · have hh : (c.slots (c.index k0 k1 k2)).home (c.bits + 1) = hash k0 k1 k2 % 2 ^ (c.bits + 1) := by
        unfold Slot.home; rw [hk.2.1, hk.2.2.1, hk.2.2.2]
      rw [if_pos hk, if_pos (show _ ∧ _ from ⟨hr, hk.1, hh⟩), if_pos hk]
    · rw [if_neg hk]
      split
      · rfl
      · rw [if_neg]
        rintro ⟨h, _⟩
        exact h rfl

/-- What `get` finds after `put`. -/
theorem get_put_eq {c : ComputeCache} (hp : c.Placed) {k0 k1 k2 v : Nat} (hv : v ≠ EMPTY) (a b d : Nat) :
    (c.put k0 k1 k2 v).get a b d = if (a, b, d) = (k0, k1, k2) then some v
      else if hash a b d % 2 ^ (c.put k0 k1 k2 v).bits = hash k0 k1 k2 % 2 ^ (c.put k0 k1 k2 v).bits then none
      else c.get a b d := by
  have key : ∀ c' : ComputeCache, c'.get a b d = c.get a b d →
      (c'.putNogrow k0 k1 k2 v).get a b d = if (a, b, d) = (k0, k1, k2) then some v
      else if hash a b d % 2 ^ c'.bits = hash k0 k1 k2 % 2 ^ c'.bits then none
      else c.get a b d := by
    intro c' hc'
    by_cases he : (a, b, d) = (k0, k1, k2)
    · rw [if_pos he]
      cases he
      exact get_putNogrow_self _ hv
    · rw [if_neg he]
      split
      · rename_i hs
        rw [← index_eq, ← index_eq] at hs
        unfold get
        simp only
        rw [if_neg]
        rw [index_putNogrow]
        simp only [putNogrow, hs, if_true]
        rintro ⟨_, rfl, rfl, rfl⟩
        exact he rfl
      · rename_i hs
        rw [← index_eq, ← index_eq] at hs
        rw [← hc']
        unfold get
        simp only
        rw [index_putNogrow]
        simp only [putNogrow, if_neg hs]
  unfold put
  simp only
  split
  · exact key _ (get_grow_eq hp _ _ _)
  · exact key _ rfl

theorem bits_put (c : ComputeCache) (k0 k1 k2 v : Nat) : (c.put k0 k1 k2 v).bits =
    if c.size * 3 ≤ c.len * 4 ∧ c.bits < MAX_BITS then c.bits + 1 else c.bits := by
  unfold put
  simp only [bits_putNogrow]
  by_cases h : c.size * 3 ≤ c.len * 4
  · rw [if_pos h, bits_grow]
    by_cases h2 : c.bits < MAX_BITS
    · rw [if_pos h2, if_pos ⟨h, h2⟩]
    · rw [if_neg h2, if_neg (fun h => h2 h.2)]
  · rw [if_neg h, if_neg (fun h' => h h'.1)]

theorem len_putNogrow_le (c : ComputeCache) (k0 k1 k2 v : Nat) : (c.putNogrow k0 k1 k2 v).len ≤ c.len + 1 := by
  unfold putNogrow
  simp only
  split <;> omega

/-- `rehash` inserts at most as many entries as there are occupied old slots. -/
theorem len_rehash_le (old : Nat → Slot) (is : List Nat) : ∀ c : ComputeCache,
    (rehash old is c).len ≤ c.len + (is.filter (fun i => (old i).val ≠ EMPTY)).length := by
  induction is with
  | nil => intro c; exact Nat.le_refl _
  | cons i is ih =>
    intro c
    rw [rehash_cons]
    refine Nat.le_trans (ih _) ?_
    by_cases h : (old i).val ≠ EMPTY
    · rw [if_pos h, List.filter_cons_of_pos (by simpa using h), List.length_cons]
      have := len_putNogrow_le c (old i).k0 (old i).k1 (old i).k2 (old i).val
      omega
    · rw [if_neg h, List.filter_cons_of_neg (by simpa using h)]
      exact Nat.le_refl _

theorem len_grow_le {c : ComputeCache} (h : c.LenOK) : c.grow.len ≤ c.len := by
  unfold grow
  simp only
  split
  · exact Nat.le_refl _
  · refine Nat.le_trans (len_rehash_le _ _ _) ?_
    rw [h]
    show 0 + _ ≤ _
    omega

theorem LenOK.le_size {c : ComputeCache} (h : c.LenOK) : c.len ≤ c.size := by
  rw [h]
  refine Nat.le_trans (List.length_filter_le _ _) ?_
  simp

/-- At most three quarters full, up to the entry just put, unless at the largest size. -/
def Loaded (c : ComputeCache) : Prop := c.bits ≤ MAX_BITS ∧ (c.bits = MAX_BITS ∨ c.len * 4 < c.size * 3 + 4)

theorem loaded_new : Loaded new := by
  refine ⟨show 14 ≤ 24 by omega, .inr ?_⟩
  show 0 * 4 < size _ * 3 + 4
  omega

theorem Loaded.put {c : ComputeCache} (h : c.Loaded) (hl : c.LenOK) (k0 k1 k2 v : Nat) :
    (c.put k0 k1 k2 v).Loaded := by
  have hb := bits_put c k0 k1 k2 v
  have hlen : (c.put k0 k1 k2 v).len ≤ c.len + 1 := by
    unfold ComputeCache.put
    simp only
    refine Nat.le_trans (len_putNogrow_le _ _ _ _ _) ?_
    split
    · have := len_grow_le hl; omega
    · omega
  have hle := hl.le_size
  unfold Loaded
  by_cases hg : c.size * 3 ≤ c.len * 4 ∧ c.bits < MAX_BITS
  · rw [if_pos hg] at hb
    refine ⟨by omega, .inr ?_⟩
    have : (c.put k0 k1 k2 v).size = 2 * c.size := by
      unfold ComputeCache.size; rw [hb, Nat.pow_succ]; omega
    have := c.size_pos
    omega
  · rw [if_neg hg] at hb
    have hs : (c.put k0 k1 k2 v).size = c.size := by unfold ComputeCache.size; rw [hb]
    obtain ⟨h1, h2⟩ := h
    refine ⟨by omega, ?_⟩
    by_cases hm : c.bits = MAX_BITS
    · exact .inl (by omega)
    · refine .inr ?_
      have : ¬ c.size * 3 ≤ c.len * 4 := fun h => hg ⟨h, by omega⟩
      omega

theorem len_prune {ids : Slot → List Nat} {live : List Bool} {slots : Nat → Slot} : ∀ {is : List Nat} {len n : Nat},
    prune ids live slots len is = some n → n ≤ len := by
  intro is
  induction is with
  | nil => intro len n h; cases h; exact Nat.le_refl _
  | cons i is ih =>
    intro len n h
    unfold prune at h
    split at h
    · exact ih h
    · split at h
      · cases h
      · exact ih h
      · split at h
        · cases h
        · have := ih h; omega

theorem retainBy_shape {ids : Slot → List Nat} {c c' : ComputeCache} {live : List Bool}
    (h : retainBy ids c live = some c') : c'.bits = c.bits ∧ c'.len ≤ c.len := by
  unfold retainBy at h
  split at h
  · cases h
  · rename_i n hn
    cases h
    exact ⟨rfl, len_prune hn⟩

end DD.ComputeCache
