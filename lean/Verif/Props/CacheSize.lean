import Verif.Props.C05
import Verif.Common.CacheGrow

/-!
# C68: size and eviction of the compute cache
-/

set_option autoImplicit false

namespace DD.Props

/-- Caches the engines can get: any calls on a new one. -/
def CacheAfter (os : List CacheCall) (c : ComputeCache) : Prop :=
  (∀ o ∈ os, Sane o) ∧ cacheRun ComputeCache.new os = some c

/-- The two keys share a slot in a table of `2 ^ bits` slots. -/
def Collide (bits : Nat) (k k' : Nat × Nat × Nat) : Prop :=
  ComputeCache.hash k.1 k.2.1 k.2.2 % 2 ^ bits = ComputeCache.hash k'.1 k'.2.1 k'.2.2 % 2 ^ bits

instance (bits : Nat) (k k' : Nat × Nat × Nat) : Decidable (Collide bits k k') := inferInstanceAs (Decidable (_ = _))

theorem CacheAfter.inv {os : List CacheCall} {c : ComputeCache} (h : CacheAfter os c) : c.Placed ∧ c.LenOK := by
  have := cache_inv os _ _ (fun _ => none) h.1 (ComputeCache.placed_withBits _) (ComputeCache.lenOK_withBits _)
    (by intro a b d w hw; rw [ComputeCache.get_withBits] at hw; cases hw) h.2
  exact ⟨this.1, this.2.1⟩

theorem cacheRun_snoc (os : List CacheCall) (o : CacheCall) : ∀ (c c' : ComputeCache),
    cacheRun c (os ++ [o]) = some c' → ∃ c1, cacheRun c os = some c1 ∧ o.run c1 = some c' := by
  induction os with
  | nil =>
    intro c c' h
    simp only [List.nil_append, cacheRun] at h
    cases ho : o.run c with
    | none => rw [ho] at h; cases h
    | some c1 => rw [ho] at h; cases h; exact ⟨c, rfl, ho⟩
  | cons p os ih =>
    intro c c' h
    simp only [List.cons_append, cacheRun] at h ⊢
    cases hp : p.run c with
    | none => rw [hp] at h; cases h
    | some c1 => rw [hp] at h; exact ih c1 c' h

theorem CacheAfter.ind {P : ComputeCache → Prop} (h0 : P ComputeCache.new)
    (hs : ∀ os (o : CacheCall) c c', CacheAfter os c → P c → o.run c = some c' → P c') :
    ∀ {os : List CacheCall} {c : ComputeCache}, CacheAfter os c → P c := by
  have : ∀ (n : Nat) (os : List CacheCall), os.length = n → ∀ c, CacheAfter os c → P c := by
    intro n
    induction n with
    | zero =>
      intro os hn c h
      cases os with
      | nil => rw [← Option.some.inj h.2]; exact h0
      | cons _ _ => cases hn
    | succ n ih =>
      intro os hn c h
      have hne : os ≠ [] := by intro h; rw [h] at hn; cases hn
      have e := List.dropLast_concat_getLast hne
      have h2 := h.2
      rw [← e] at h2
      obtain ⟨c1, k1, k2⟩ := cacheRun_snoc _ _ _ _ h2
      have ha : CacheAfter os.dropLast c1 := ⟨fun o ho => h.1 o (List.dropLast_subset _ ho), k1⟩
      exact hs _ _ _ _ ha (ih _ (by rw [List.length_dropLast]; omega) c1 ha) k2
  intro os c h
  exact this _ os rfl c h

/-- **C68.** A table starts with 2¹⁴ slots, never has more than 2²⁴, and as long as it can still grow it is at most
three quarters full, up to the entry put last. -/
theorem C68_load {os : List CacheCall} {c : ComputeCache} (h : CacheAfter os c) :
    14 ≤ c.bits ∧ c.bits ≤ 24 ∧ c.len ≤ 2 ^ c.bits ∧ (c.bits < 24 → 4 * c.len < 3 * 2 ^ c.bits + 4) := by
  have key : 14 ≤ c.bits ∧ c.Loaded := by
    refine CacheAfter.ind (P := fun c => 14 ≤ c.bits ∧ c.Loaded) ?_ ?_ h
    · exact ⟨Nat.le_refl 14, ComputeCache.loaded_new⟩
    · intro os o c c' ha hc ho
      obtain ⟨h1, h2⟩ := hc
      cases o with
      | put k0 k1 k2 v =>
        cases ho
        refine ⟨?_, h2.put ha.inv.2 _ _ _ _⟩
        rw [ComputeCache.bits_put]
        split <;> omega
      | lookup k0 k1 k2 => cases ho; exact ⟨h1, h2⟩
      | clear =>
        cases ho
        refine ⟨h1, h2.1, .inr ?_⟩
        show 0 * 4 < _
        omega
      | prune live =>
        obtain ⟨e1, e2⟩ := ComputeCache.retainBy_shape (show c.retainLive live = some c' from ho)
        have e3 : c'.size = c.size := by unfold ComputeCache.size; rw [e1]
        refine ⟨by omega, by have := h2.1; omega, ?_⟩
        rcases h2.2 with h | h
        · exact .inl (by omega)
        · exact .inr (by omega)
      | prune3 live =>
        obtain ⟨e1, e2⟩ := ComputeCache.retainBy_shape (show c.retainLive3 live = some c' from ho)
        have e3 : c'.size = c.size := by unfold ComputeCache.size; rw [e1]
        refine ⟨by omega, by have := h2.1; omega, ?_⟩
        rcases h2.2 with h | h
        · exact .inl (by omega)
        · exact .inr (by omega)
  obtain ⟨h1, h2, h3⟩ := key
  have hm : MAX_BITS = 24 := rfl
  refine ⟨h1, by omega, h.inv.2.le_size, fun hb => ?_⟩
  rcases h3 with h3 | h3
  · omega
  · have : c.size = 2 ^ c.bits := rfl
    omega

/-- **C68.** Only `put` changes the number of slots, and only by doubling when the table is three quarters full and
has fewer than 2²⁴ slots. -/
theorem C68_grows {c c' : ComputeCache} {o : CacheCall} (h : o.run c = some c') :
    c'.bits = c.bits ∨ ∃ k0 k1 k2 v, o = .put k0 k1 k2 v ∧ c'.bits = c.bits + 1 ∧ c.bits < 24 ∧
      3 * 2 ^ c.bits ≤ 4 * c.len := by
  cases o with
  | put k0 k1 k2 v =>
    cases h
    rw [ComputeCache.bits_put]
    have hm : MAX_BITS = 24 := rfl
    have hs : c.size = 2 ^ c.bits := rfl
    split
    · rename_i hg
      exact .inr ⟨k0, k1, k2, v, rfl, rfl, by omega, by omega⟩
    · exact .inl rfl
  | lookup k0 k1 k2 => cases h; exact .inl rfl
  | clear => cases h; exact .inl rfl
  | prune live => exact .inl (ComputeCache.retainBy_shape (show c.retainLive live = some c' from h)).1
  | prune3 live => exact .inl (ComputeCache.retainBy_shape (show c.retainLive3 live = some c' from h)).1

/-- **C68.** A `put` on a table three quarters full doubles it. -/
theorem C68_must_grow (c : ComputeCache) (k0 k1 k2 v : Nat) (hb : c.bits < 24) (hl : 3 * 2 ^ c.bits ≤ 4 * c.len) :
    (c.put k0 k1 k2 v).bits = c.bits + 1 := by
  have hm : MAX_BITS = 24 := rfl
  have hs : c.size = 2 ^ c.bits := rfl
  rw [ComputeCache.bits_put, if_pos ⟨by omega, by omega⟩]

/-- **C68.** A `put` evicts only entries of the slot it writes; growing evicts nothing. -/
theorem C68_put_exact {os : List CacheCall} {c : ComputeCache} (h : CacheAfter os c) {v : Nat} (hv : v < EMPTY)
    (k k' : Nat × Nat × Nat) :
    (c.put k.1 k.2.1 k.2.2 v).get k'.1 k'.2.1 k'.2.2 =
      if k' = k then some v else if Collide (c.put k.1 k.2.1 k.2.2 v).bits k' k then none
      else c.get k'.1 k'.2.1 k'.2.2 := by
  obtain ⟨k0, k1, k2⟩ := k
  obtain ⟨a, b, d⟩ := k'
  have e := ComputeCache.get_put_eq h.inv.1 (k0 := k0) (k1 := k1) (k2 := k2) (Nat.ne_of_lt hv) a b d
  rw [e]
  by_cases h1 : (a, b, d) = (k0, k1, k2)
  · rw [if_pos h1, if_pos h1]
  · rw [if_neg h1, if_neg h1]
    by_cases h2 : Collide (c.put k0 k1 k2 v).bits (a, b, d) (k0, k1, k2)
    · rw [if_pos h2, if_pos (by exact h2)]
    · rw [if_neg h2, if_neg (by exact h2)]

/-- A full table of two slots: the next `put` doubles it and everything is still found. -/
example : ((cacheRun (ComputeCache.withBits 1) [.put 0 0 1 7, .put 0 0 2 8, .put 0 0 3 9]).map
    fun c => (c.bits, c.len, [c.get 0 0 1, c.get 0 0 2, c.get 0 0 3, c.get 0 0 5])) =
    some (2, 3, [some 7, some 8, some 9, none]) := by
  decide +kernel

/-- In a table of two slots key 1 evicts key 3. -/
example : Collide 1 (0, 0, 3) (0, 0, 1) ∧ ((cacheRun (ComputeCache.withBits 1) [.put 0 0 3 9, .put 0 0 1 7]).map
    fun c => (c.bits, c.get 0 0 3, c.get 0 0 1)) = some (1, none, some 7) := by
  decide +kernel

end DD.Props
