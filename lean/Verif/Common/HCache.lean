import Verif.Common.ComputeCache
import Verif.Common.AMap

/-!
# The hash-map operation cache of the ZDD engine

`cache: BddHashMap<(ZddOperation, u32, u32), u32>` (/repo/bddcore/src/zdd.rs:37).  `u32` casts are the
identity.
-/

set_option autoImplicit false

namespace DD

/-- Keys `(operation code, f, g)`, value a node id. -/
abbrev HCache := AMap (Nat × Nat × Nat) Nat

namespace HCache

/-- `cache.retain(|k, v| live[k.1] && live[k.2] && live[v])`, /repo/bddcore/src/zdd.rs:153-154;
`none` = index panic. -/
def retainLive (c : HCache) (live : List Bool) : Option HCache :=
  if c.kvs.all (fun e => (allLive live [e.1.2.1, e.1.2.2, e.2]).isSome) then
    some ⟨c.kvs.filter (fun e => allLive live [e.1.2.1, e.1.2.2, e.2] == some true)⟩
  else none

/-- Every entry satisfies `Good`. -/
structure OK (Good : Nat → Nat → Nat → Nat → Prop) (c : HCache) : Prop where
  nodup : c.NodupKeys
  good : ∀ op f g r, c.get (op, f, g) = some r → Good op f g r

theorem OK.empty (Good : Nat → Nat → Nat → Nat → Prop) : OK Good (AMap.empty : HCache) where
  nodup := AMap.nodup_empty
  good _ _ _ _ h := by cases h

theorem OK.mono {Good Good' : Nat → Nat → Nat → Nat → Prop} {c : HCache} (h : OK Good c)
    (hg : ∀ op f g r, Good op f g r → Good' op f g r) : OK Good' c :=
  ⟨h.nodup, fun _ _ _ _ hv => hg _ _ _ _ (h.good _ _ _ _ hv)⟩

theorem OK.put {Good : Nat → Nat → Nat → Nat → Prop} {c : HCache} (h : OK Good c) {op f g r : Nat}
    (hv : Good op f g r) : OK Good (c.insert (op, f, g) r) where
  nodup := AMap.nodup_insert h.nodup _ _
  good a b d w hw := by
    rw [AMap.get_insert] at hw
    split at hw
    · rename_i e; cases e; cases hw; exact hv
    · exact h.good _ _ _ _ hw

theorem OK.retainLive {Good Good' : Nat → Nat → Nat → Nat → Prop} {c : HCache} (h : OK Good c)
    {live : List Bool}
    (hlt : ∀ op f g r, Good op f g r → f < live.length ∧ g < live.length ∧ r < live.length)
    (hg : ∀ op f g r, Good op f g r → live[f]? = some true → live[g]? = some true →
      live[r]? = some true → Good' op f g r) :
    ∃ c', HCache.retainLive c live = some c' ∧ OK Good' c' ∧
      ∀ op f g r, c'.get (op, f, g) = some r ↔ c.get (op, f, g) = some r ∧ live[f]? = some true ∧
        live[g]? = some true ∧ live[r]? = some true := by
  have hall : c.kvs.all (fun e => (allLive live [e.1.2.1, e.1.2.2, e.2]).isSome) = true := by
    rw [List.all_eq_true]
    rintro ⟨⟨op, f, g⟩, r⟩ he
    obtain ⟨h1, h2, h3⟩ := hlt _ _ _ _ (h.good _ _ _ _ (AMap.get_of_mem h.nodup he))
    apply ComputeCache.allLive_isSome
    intro i hi
    simp at hi
    rcases hi with rfl | rfl | rfl <;> assumption
  let c' : HCache := ⟨c.kvs.filter (fun e => allLive live [e.1.2.1, e.1.2.2, e.2] == some true)⟩
  have hnd : c'.NodupKeys := h.nodup.sublist (List.Sublist.map _ List.filter_sublist)
  have hget : ∀ op f g r, c'.get (op, f, g) = some r ↔ c.get (op, f, g) = some r ∧
      live[f]? = some true ∧ live[g]? = some true ∧ live[r]? = some true := by
    intro op f g r
    have hp : allLive live [f, g, r] = some true ↔ live[f]? = some true ∧ live[g]? = some true ∧
        live[r]? = some true := by
      rw [ComputeCache.allLive_eq_true]; simp
    constructor
    · intro hv
      have hm := AMap.mem_of_get hv
      simp only [c', List.mem_filter] at hm
      refine ⟨AMap.get_of_mem h.nodup hm.1, hp.1 (by simpa using hm.2)⟩
    · rintro ⟨hv, hl⟩
      apply AMap.get_of_mem hnd
      simp only [c', List.mem_filter]
      exact ⟨AMap.mem_of_get hv, by simpa using hp.2 hl⟩
  refine ⟨c', by unfold HCache.retainLive; rw [if_pos hall], ⟨hnd, ?_⟩, hget⟩
  intro op f g r hv
  obtain ⟨h1, h2, h3, h4⟩ := (hget op f g r).1 hv
  exact hg _ _ _ _ (h.good _ _ _ _ h1) h2 h3 h4

end HCache
end DD
