import Verif.Common.ComputeCache

/-!
# C05: the lossy compute cache never returns a wrong entry

Reference: a perfect, unbounded map from keys to the value put last.
-/

set_option autoImplicit false

namespace DD.Props

/-- Calls on a compute cache. -/
inductive CacheCall where
  | put (k0 k1 k2 v : Nat)
  | lookup (k0 k1 k2 : Nat)
  | clear
  /-- prune after a collection, operation-keyed cache (`retain_live`) -/
  | prune (live : List Bool)
  /-- prune after a collection, three-node cache (`retain_live3`) -/
  | prune3 (live : List Bool)

/-- The implementation; `none` = index panic. -/
def CacheCall.run (c : ComputeCache) : CacheCall → Option ComputeCache
  | .put k0 k1 k2 v => some (c.put k0 k1 k2 v)
  | .lookup _ _ _ => some c
  | .clear => some c.clear
  | .prune live => c.retainLive live
  | .prune3 live => c.retainLive3 live

/-- The reference map. -/
def CacheCall.ref (r : Nat × Nat × Nat → Option Nat) : CacheCall → Nat × Nat × Nat → Option Nat
  | .put k0 k1 k2 v => fun k => if k = (k0, k1, k2) then some v else r k
  | .lookup _ _ _ => r
  | .clear => fun _ => none
  | .prune live => fun k => (r k).filter fun v =>
      live[k.2.1]? = some true ∧ live[k.2.2]? = some true ∧ live[v]? = some true
  | .prune3 live => fun k => (r k).filter fun v =>
      live[k.1]? = some true ∧ live[k.2.1]? = some true ∧ live[k.2.2]? = some true ∧
        live[v]? = some true

/-- A sequence of calls. -/
def cacheRun (c : ComputeCache) : List CacheCall → Option ComputeCache
  | [] => some c
  | o :: os => (o.run c).bind fun c => cacheRun c os

@[inherit_doc cacheRun]
def refRun (r : Nat × Nat × Nat → Option Nat) : List CacheCall → Nat × Nat × Nat → Option Nat
  | [] => r
  | o :: os => refRun (o.ref r) os

/-- Values put are below the sentinel. -/
def Sane : CacheCall → Prop
  | .put _ _ _ v => v < EMPTY
  | _ => True

theorem cache_inv (os : List CacheCall) : ∀ (c c' : ComputeCache)
    (r : Nat × Nat × Nat → Option Nat), (∀ o ∈ os, Sane o) → c.Placed → c.LenOK →
    (∀ k0 k1 k2 v, c.get k0 k1 k2 = some v → r (k0, k1, k2) = some v) →
    cacheRun c os = some c' → c'.Placed ∧ c'.LenOK ∧
    ∀ k0 k1 k2 v, c'.get k0 k1 k2 = some v → refRun r os (k0, k1, k2) = some v := by
  induction os with
  | nil => intro c c' r _ hp hl hr h; cases h; exact ⟨hp, hl, hr⟩
  | cons o os ih =>
    intro c c' r hs hp hl hr h
    unfold cacheRun at h
    cases ho : o.run c with
    | none => rw [ho] at h; cases h
    | some c1 =>
      rw [ho] at h
      have h : cacheRun c1 os = some c' := h
      have hso := hs o List.mem_cons_self
      have key : c1.Placed ∧ c1.LenOK ∧
          ∀ k0 k1 k2 v, c1.get k0 k1 k2 = some v → o.ref r (k0, k1, k2) = some v := by
        cases o with
        | put k0 k1 k2 v =>
          cases ho
          have hv : v ≠ EMPTY := Nat.ne_of_lt hso
          refine ⟨ComputeCache.placed_put hp _ _ _ _, ComputeCache.lenOK_put hl hv, ?_⟩
          intro a b d w hw
          simp only [CacheCall.ref]
          split
          · rename_i he
            cases he
            rw [ComputeCache.get_put_self _ hv] at hw
            exact hw
          · rename_i he
            rcases ComputeCache.get_put hp hw with h' | h'
            · cases h'; exact absurd rfl he
            · exact hr _ _ _ _ h'
        | lookup k0 k1 k2 => cases ho; exact ⟨hp, hl, hr⟩
        | clear =>
          cases ho
          refine ⟨ComputeCache.placed_clear _, ComputeCache.lenOK_clear _, ?_⟩
          intro a b d w hw
          rw [ComputeCache.get_clear] at hw; cases hw
        | prune live =>
          have ho : c.retainLive live = some c1 := ho
          refine ⟨ComputeCache.placed_retainBy ho hp, ComputeCache.lenOK_retainBy ho hl, ?_⟩
          intro a b d w hw
          obtain ⟨h1, h2⟩ := (ComputeCache.get_retainBy ho).1 hw
          simp only [CacheCall.ref, hr _ _ _ _ h1, Option.filter]
          have e1 := h2 b (by simp); have e2 := h2 d (by simp); have e3 := h2 w (by simp)
          simp [e1, e2, e3]
        | prune3 live =>
          have ho : c.retainLive3 live = some c1 := ho
          refine ⟨ComputeCache.placed_retainBy ho hp, ComputeCache.lenOK_retainBy ho hl, ?_⟩
          intro a b d w hw
          obtain ⟨h1, h2⟩ := (ComputeCache.get_retainBy ho).1 hw
          simp only [CacheCall.ref, hr _ _ _ _ h1, Option.filter]
          have e0 := h2 a (by simp)
          have e1 := h2 b (by simp); have e2 := h2 d (by simp); have e3 := h2 w (by simp)
          simp [e0, e1, e2, e3]
      exact ih c1 c' _ (fun o ho => hs o (List.mem_cons_of_mem _ ho)) key.1 key.2.1 key.2.2 h

/-- **C05.** After any calls on a cache of any size, a hit is the value a perfect map would hold. -/
theorem C05_hit_is_last_put (bits : Nat) (os : List CacheCall) (hs : ∀ o ∈ os, Sane o)
    (c : ComputeCache) (h : cacheRun (ComputeCache.withBits bits) os = some c)
    (k0 k1 k2 v : Nat) (hit : c.get k0 k1 k2 = some v) :
    refRun (fun _ => none) os (k0, k1, k2) = some v :=
  (cache_inv os _ _ _ hs (ComputeCache.placed_withBits _) (ComputeCache.lenOK_withBits _)
    (by intro a b d w hw; rw [ComputeCache.get_withBits] at hw; cases hw) h).2.2 _ _ _ _ hit

/-- **C05.** `len` is exactly the number of occupied slots. -/
theorem C05_len_exact (bits : Nat) (os : List CacheCall) (hs : ∀ o ∈ os, Sane o)
    (c : ComputeCache) (h : cacheRun (ComputeCache.withBits bits) os = some c) :
    c.len = ((List.range (2 ^ c.bits)).filter
      (fun i => (c.slots i).val ≠ EMPTY)).length :=
  (cache_inv os _ _ (fun _ => none) hs (ComputeCache.placed_withBits _)
    (ComputeCache.lenOK_withBits _)
    (by intro a b d w hw; rw [ComputeCache.get_withBits] at hw; cases hw) h).2.1

/-- **C05.** A value just put is found again. -/
theorem C05_put_hits (bits : Nat) (os : List CacheCall) (k0 k1 k2 v : Nat)
    (hv : v < EMPTY)
    (c : ComputeCache) (h : cacheRun (ComputeCache.withBits bits) (os ++ [.put k0 k1 k2 v]) = some c) :
    c.get k0 k1 k2 = some v := by
  have : ∀ (os : List CacheCall) (d : ComputeCache),
      cacheRun d (os ++ [.put k0 k1 k2 v]) = some c → c.get k0 k1 k2 = some v := by
    intro os
    induction os with
    | nil =>
      intro d h
      cases h
      exact ComputeCache.get_put_self _ (Nat.ne_of_lt hv)
    | cons o os ih =>
      intro d h
      rw [List.cons_append] at h
      unfold cacheRun at h
      cases ho : o.run d with
      | none => rw [ho] at h; cases h
      | some d1 => rw [ho] at h; exact ih d1 h
  exact this os _ h

/-- **C05.** Pruning never panics if all ids are below the length of the mark vector, keeps exactly
the entries all of whose nodes are live, and so never returns a reclaimed node. -/
theorem C05_prune_exact (bits : Nat) (os : List CacheCall) (hs : ∀ o ∈ os, Sane o)
    (c : ComputeCache) (h : cacheRun (ComputeCache.withBits bits) os = some c) (live : List Bool)
    (rng : ∀ k0 k1 k2 v, c.get k0 k1 k2 = some v →
      k1 < live.length ∧ k2 < live.length ∧ v < live.length) :
    ∃ c', c.retainLive live = some c' ∧ ∀ k0 k1 k2 v, c'.get k0 k1 k2 = some v ↔
      c.get k0 k1 k2 = some v ∧ live[k1]? = some true ∧ live[k2]? = some true ∧
        live[v]? = some true := by
  have inv := cache_inv os _ _ (fun _ => none) hs (ComputeCache.placed_withBits _)
    (ComputeCache.lenOK_withBits _)
    (by intro a b d w hw; rw [ComputeCache.get_withBits] at hw; cases hw) h
  have : ∃ c', c.retainLive live = some c' := by
    apply ComputeCache.retainBy_isSome inv.2.1.le
    intro i hi hne
    apply ComputeCache.allLive_isSome
    have hg : c.get (c.slots i).k0 (c.slots i).k1 (c.slots i).k2 = some (c.slots i).val := by
      rw [ComputeCache.get_eq_some]
      rw [inv.1 i hi hne]
      exact ⟨rfl, hne⟩
    have := rng _ _ _ _ hg
    intro j hj
    simp at hj
    rcases hj with rfl | rfl | rfl
    · exact this.1
    · exact this.2.1
    · exact this.2.2
  obtain ⟨c', hc'⟩ := this
  refine ⟨c', hc', fun k0 k1 k2 v => ?_⟩
  rw [ComputeCache.get_retainBy hc']
  simp

/-- Two colliding keys in a one-slot table: the second evicts the first, which then misses. -/
example : cacheRun (ComputeCache.withBits 0) [.put 0 5 6 7, .put 0 8 9 10, .prune (List.replicate 11 true)]
    ≠ none ∧ ((cacheRun (ComputeCache.withBits 0) [.put 0 5 6 7]).bind (·.get 0 5 6)) = some 7 := by
  decide +kernel

/-- Pruning drops an entry whose node 6 is dead and keeps the other. -/
example : ((cacheRun (ComputeCache.withBits 4) [.put 0 5 6 7, .put 0 5 3 7,
      .prune [true, true, true, true, true, true, false, true]]).map
        (fun c => (c.get 0 5 6, c.get 0 5 3, c.len))) = some (none, some 7, 1) := by
  decide +kernel

end DD.Props
