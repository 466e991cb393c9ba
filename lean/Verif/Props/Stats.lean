import Verif.Props.GcPolicy
import Verif.Bss.Stats
import Verif.Bss.ReachW
import Verif.Bss.BssStep
import Verif.Mss.MssStep
import Verif.Wrap.Pace
import Mathlib.Data.List.Nodup

/-!
# What the managers report about themselves: C56, C57
-/

set_option autoImplicit false
set_option linter.unusedSectionVars false
set_option linter.unusedVariables false

namespace DD.Props
open Arena

/-- Exactly `n` things satisfy `P`. -/
def Exactly {α : Type} (P : α → Prop) (n : Nat) : Prop := ∃ l : List α, l.Nodup ∧ (∀ x, x ∈ l ↔ P x) ∧ l.length = n

/-- A key `(operation, operand, operand)` for which a lookup succeeds. -/
def Stored (c : ComputeCache) (k : Nat × Nat × Nat) : Prop := ∃ v, c.get k.1 k.2.1 k.2.2 = some v

/-- A slot in use that holds a value. -/
def HoldsValue (m : Arena (Option Int)) (i : Nat) : Prop := m.Live i ∧ ∃ v : Int, m.nodes[i]? = some (.term (some v))

/-! ## Helpers -/

theorem Exactly.unique {α : Type} [DecidableEq α] {P : α → Prop} {n k : Nat} (h : Exactly P n) (h' : Exactly P k) : n = k := by
  obtain ⟨l, d, m, rfl⟩ := h
  obtain ⟨l', d', m', rfl⟩ := h'
  exact ((List.perm_ext_iff_of_nodup d d').2 fun x => (m x).trans (m' x).symm).length_eq

theorem exactly_cache {N : Nat} {Good : Nat → Nat → Nat → Nat → Prop} {c : ComputeCache}
    (h : ComputeCache.CacheOK N Good c) (hN : N ≤ EMPTY) : Exactly (Stored c) c.len := by
  refine ⟨((List.range c.size).filter fun i => decide ((c.slots i).val ≠ EMPTY)).map
    (fun i => ((c.slots i).k0, (c.slots i).k1, (c.slots i).k2)), ?_, ?_, ?_⟩
  · refine List.Nodup.map_on ?_ (List.nodup_range.filter _)
    intro i hi j hj e
    simp only [List.mem_filter, List.mem_range, decide_eq_true_eq] at hi hj
    rw [← h.placed i hi.1 hi.2, ← h.placed j hj.1 hj.2]
    simp only [Prod.mk.injEq] at e
    rw [e.1, e.2.1, e.2.2]
  · rintro ⟨k0, k1, k2⟩
    simp only [List.mem_map, List.mem_filter, List.mem_range, decide_eq_true_eq, Prod.mk.injEq, Stored]
    constructor
    · rintro ⟨i, ⟨hi, hv⟩, rfl, rfl, rfl⟩
      exact ⟨_, h.placed.hit hi hv⟩
    · rintro ⟨v, hv⟩
      obtain ⟨h1, h2⟩ := ComputeCache.get_eq_some.1 hv
      exact ⟨_, ⟨c.index_lt k0 k1 k2, by rw [h1]; exact h2⟩, by rw [h1], by rw [h1], by rw [h1]⟩
  · rw [List.length_map]
    exact (h.len hN).symm

theorem exactly_live {T : Type} [DecidableEq T] [Fixed T] {R : List Nat → Prop} {m : Arena T} (wf : WF R m) :
    Exactly m.Live m.liveNodeCount := by
  refine ⟨(List.range m.nodes.length).filter fun i => decide (i ∉ m.free), List.nodup_range.filter _, ?_, wf.occupied_eq.symm⟩
  intro i
  simp only [List.mem_filter, List.mem_range, decide_eq_true_eq]
  rfl

theorem exactly_values {R : List Nat → Prop} {m : Arena (Option Int)} (wf : WF R m) :
    Exactly (HoldsValue m)
      (m.utable.kvs.filter (fun e => match e.1 with | .term _ => true | .nt _ _ => false)).length := by
  have content : ∀ e ∈ m.utable.kvs, m.Live e.2 ∧ m.nodes[e.2]? = some e.1 :=
    fun e he => wf.ut_live (AMap.get_of_mem wf.ut_nodup he)
  refine ⟨(m.utable.kvs.filter (fun e => match e.1 with | .term _ => true | .nt _ _ => false)).map Prod.snd, ?_, ?_,
    List.length_map ..⟩
  · refine List.Nodup.map_on ?_ ((List.Nodup.of_map _ wf.ut_nodup).filter _)
    intro x hx y hy e
    have hx := (List.mem_filter.1 hx).1
    have hy := (List.mem_filter.1 hy).1
    have k := (content x hx).2
    rw [e, (content y hy).2] at k
    exact Prod.ext (Option.some.inj k).symm e
  · intro i
    simp only [List.mem_map, List.mem_filter]
    constructor
    · rintro ⟨⟨k, j⟩, ⟨he, hk⟩, rfl⟩
      cases k with
      | nt h ch => cases hk
      | term t =>
        cases t with
        | none =>
          have := AMap.get_of_mem wf.ut_nodup he
          rw [wf.ut_fixed none 0 rfl] at this
          cases this
        | some v => exact ⟨(content _ he).1, v, (content _ he).2⟩
    · rintro ⟨hl, v, hv⟩
      have := (wf.find_iff (.term (some v)) i).2 ⟨hl, hv⟩
      exact ⟨(.term (some v), i), ⟨AMap.mem_of_get this, rfl⟩, rfl⟩

/-! ## C56 -/

/-- `BddMgr`: the number of variables, of slots ever made, of results a lookup can find; and the number of slots in
use.  The cache counts are for forests with fewer than 2^32 slots (node ids are stored as `u32`). -/
theorem C56_bdd {w : World} (hw : w.Reachable) {names : List String} (hn : w.step .varorder = some (.strs names, w)) :
    w.mgr.size.1 = names.length ∧ w.mgr.size.2.1 = w.mgr.bdd.arena.nodes.length ∧
    (w.mgr.bdd.arena.nodes.length < 2 ^ 32 → Exactly (Stored w.mgr.bdd.cache) w.mgr.size.2.2) ∧
    Exactly w.mgr.bdd.arena.Live w.mgr.liveNodeCount ∧ w.mgr.liveNodeCount ≤ w.mgr.size.2.1 := by
  obtain ⟨A, R⟩ := hw.rel
  obtain ⟨A', hp, _⟩ := R.of_step (c := .varorder) trivial hn
  have e : names = A.names := by
    have := hp.1
    cases this
    rfl
  refine ⟨?_, rfl, fun h => exactly_cache R.mok.inv.cache ?_, exactly_live R.mok.inv.wf, Nat.sub_le _ _⟩
  · show w.mgr.bdd.arena.headers.length = _
    rw [R.mok.hdrs, e]
    simp [mkHeaders]
  · unfold EMPTY; omega

/-- `ZddMgr`: here the cache is a hash map. -/
theorem C56_zdd {w : ZWorld} (hw : w.Reachable) :
    Exactly (fun x => ∃ h, w.mgr.vars.get x = some h) w.mgr.size.1 ∧
    w.mgr.size.2.1 = w.mgr.w.eng.arena.nodes.length ∧
    Exactly (fun k => ∃ r, w.mgr.w.eng.cache.get k = some r) w.mgr.size.2.2 ∧
    Exactly w.mgr.w.eng.arena.Live w.mgr.liveNodeCount ∧ w.mgr.liveNodeCount ≤ w.mgr.size.2.1 := by
  obtain ⟨names, R⟩ := hw.rel
  refine ⟨⟨names, R.mok.nodup, ?_, ?_⟩, rfl, ⟨w.mgr.w.eng.cache.keys, R.mok.ok.inv.cache.nodup, fun k => AMap.mem_keys_iff, ?_⟩,
    exactly_live R.mok.ok.inv.wf, Nat.sub_le _ _⟩
  · intro x
    rw [List.mem_iff_getElem?]
    simp only [R.mok.vars]
  · show _ = w.mgr.w.eng.arena.headers.length
    rw [R.mok.hdrs]
    simp [mkHeaders]
  · exact List.length_map ..

/-- `MddMgr`: the number of variables, of slots of both forests, of values in use, and of results in the five caches
that `size` looks at (the ternary cache of the Boolean forest is not one of them). -/
theorem C56_mdd {w : MWorld} (hw : w.Reachable) {vs : List (String × Nat)} (hn : w.step .varorder = some (.order vs, w)) :
    ∃ nv nc, w.step .size = some (.quad (vs.length,
        w.mgr.w.eng.mtmdd.arena.nodes.length + w.mgr.w.eng.mdd.arena.nodes.length, nv, nc), w) ∧
      Exactly (HoldsValue w.mgr.w.eng.mtmdd.arena) nv ∧
      (w.mgr.w.eng.mtmdd.arena.nodes.length < 2 ^ 32 → w.mgr.w.eng.mdd.arena.nodes.length < 2 ^ 32 →
        ∃ n1 n2 n3 n4 n5, nc = n1 + n2 + n3 + n4 + n5 ∧ Exactly (Stored w.mgr.w.eng.mtmdd.cache) n1 ∧
          Exactly (Stored w.mgr.w.eng.mdd.cache) n2 ∧ Exactly (Stored w.mgr.w.eng.vcache) n3 ∧
          Exactly (Stored w.mgr.w.eng.bcache) n4 ∧ Exactly (Stored w.mgr.w.eng.viteCache) n5) := by
  obtain ⟨vs', R⟩ := hw.rel
  obtain ⟨_, hp, _⟩ := R.of_step (c := .varorder) trivial hn
  have e : vs = vs' := by
    obtain ⟨_, _, h⟩ := hp
    cases h
    rfl
  have inv := R.mok.ok.inv
  refine ⟨_, _, ?_, exactly_values inv.v.wf, fun h1 h2 => ⟨_, _, _, _, _, rfl, exactly_cache inv.v.cache ?_,
    exactly_cache inv.b.cache ?_, exactly_cache inv.vc ?_, exactly_cache inv.bc ?_, exactly_cache inv.ic ?_⟩⟩
  · have : vs.length = w.mgr.w.eng.mtmdd.arena.headers.length := by
      rw [← inv.hdr, R.mok.hdrs, e]
      simp [mkH]
    rw [this]
    rfl
  all_goals (unfold EMPTY; omega)

/-- `MddMgr::live_node_count`: slots in use in the value forest plus those in the Boolean forest. -/
theorem C56_mdd_live {w : MWorld} (hw : w.Reachable) :
    ∃ n k, w.step .liveNodeCount = some (.nat (some (n + k)), w) ∧ Exactly w.mgr.w.eng.mtmdd.arena.Live n ∧
      Exactly w.mgr.w.eng.mdd.arena.Live k := by
  obtain ⟨vs', R⟩ := hw.rel
  have inv := R.mok.ok.inv
  exact ⟨_, _, rfl, exactly_live inv.v.wf, exactly_live inv.b.wf⟩

/-- The ZMDD manager of an `MssMgr`. -/
theorem C56_zmdd {w : MssW} (hw : w.Reachable) :
    ∃ nh nv nc, w.step (.zmdd .size) = some (.zmdd (.quad (nh, w.z.mgr.eng.arena.nodes.length, nv, nc)), w) ∧
      nh = w.z.mgr.eng.arena.headers.length ∧ Exactly (HoldsValue w.z.mgr.eng.arena) nv ∧
      (w.z.mgr.eng.arena.nodes.length < 2 ^ 32 → Exactly (Stored w.z.mgr.eng.cache) nc) := by
  obtain ⟨vs', R⟩ := hw.rel
  have inv := R.z.ok.inv
  refine ⟨_, _, _, rfl, rfl, exactly_values inv.wf, fun h => exactly_cache inv.cache ?_⟩
  unfold EMPTY; omega

/-! ## C57 -/

/-- What the comments of `gc` say: the number of slots that this call gave back. -/
def GcReports (before after n : Nat) : Prop := n + after = before

/-- The code returns the length of the rebuilt free list: all slots that are free afterwards, whether they were
reclaimed now or before. -/
theorem C57_bdd_partial {w : World} (hw : w.Reachable) {keep is : List Nat} (hk : w.nodes keep = some is) :
    ∃ n m, w.mgr.collect is = some (n, m) ∧ w.step (.gc keep) = some (.unit, { w with mgr := m }) ∧
      n + m.liveNodeCount = w.mgr.size.2.1 ∧
      (w.mgr.bdd.arena.free = [] → GcReports w.mgr.liveNodeCount m.liveNodeCount n) := by
  obtain ⟨A, R⟩ := hw.rel
  have hl : ∀ r ∈ w.mgr.gc.roots.keys ++ is, w.mgr.bdd.arena.Live r := by
    intro r hr
    have held : ∀ r ∈ w.held.vals, w.mgr.bdd.arena.Live r := by
      intro r hr; obtain ⟨G, hG⟩ := R.mok.live r hr; exact hG.live
    rcases List.mem_append.1 hr with hr | hr
    · rcases List.mem_append.1 (R.mok.roots.mem_keys.1 hr) with hr | hr
      · exact held r hr
      · obtain ⟨G, hG⟩ := R.mok.varVals hr; exact hG.live
    · have : ∀ (keep is : List Nat), w.nodes keep = some is → ∀ r ∈ is, w.mgr.bdd.arena.Live r := by
        intro keep
        induction keep with
        | nil => intro is h r hr; cases h; cases hr
        | cons f fs ih =>
          intro is h r hr
          simp only [World.nodes] at h
          split at h
          · rename_i i js h1 h2
            cases h
            rcases List.mem_cons.1 hr with rfl | hr
            · obtain ⟨G, _, hG⟩ := R.heldS f _ h1
              exact hG.live
            · exact ih js h2 r hr
          · cases h
      exact this keep is hk r hr
  obtain ⟨n, s', h1, h2, h3, h4, h5, h6, h7, _⟩ := Bdd.gc_ok R.mok.inv (roots := w.mgr.gc.roots.keys ++ is) (fun r hr _ => hl r hr)
  have hc : w.mgr.collect is = some (n, { w.mgr with bdd := s' }) := by
    unfold BddMgr.collect
    rw [h1]
  have hfl : s'.arena.free.length ≤ s'.arena.nodes.length := by
    have := (h2.wf.free_nodup.subperm (l₂ := List.range s'.arena.nodes.length)
      fun i hi => List.mem_range.2 (h2.wf.free_lt i hi)).length_le
    rwa [List.length_range] at this
  have key : n + s'.liveNodeCount = w.mgr.bdd.arena.nodes.length := by
    show n + (s'.arena.nodes.length - s'.arena.free.length) = _
    rw [h7, ← h4]
    omega
  refine ⟨n, _, hc, ?_, key, fun hf => ?_⟩
  · simp only [World.step, hk, hc]
  · show n + s'.liveNodeCount = w.mgr.bdd.arena.nodes.length - w.mgr.bdd.arena.free.length
    rw [hf, key]
    rfl

/-- The same for `MddMgr`, per forest. -/
theorem C57_mdd_partial {w w' : MWorld} (hw : w.Reachable) {keep : List Nat} {o : MOut}
    (hs : w.step (.gc keep) = some (o, w')) :
    ∃ n, o = .pair n ∧
      n.1 + w'.mgr.w.eng.mtmdd.arena.liveNodeCount = w.mgr.w.eng.mtmdd.arena.nodes.length ∧
      n.2 + w'.mgr.w.eng.mdd.arena.liveNodeCount = w.mgr.w.eng.mdd.arena.nodes.length ∧
      (w.mgr.w.eng.mtmdd.arena.free = [] →
        GcReports w.mgr.w.eng.mtmdd.arena.liveNodeCount w'.mgr.w.eng.mtmdd.arena.liveNodeCount n.1) ∧
      (w.mgr.w.eng.mdd.arena.free = [] →
        GcReports w.mgr.w.eng.mdd.arena.liveNodeCount w'.mgr.w.eng.mdd.arena.liveNodeCount n.2) := by
  obtain ⟨vs, R⟩ := hw.rel
  obtain ⟨vs', _, R', _⟩ := R.of_step (c := .gc keep) trivial hs
  have inv' := R'.mok.ok.inv
  have hfl : ∀ {T : Type} [DecidableEq T] [Fixed T] {R : List Nat → Prop} {m : Arena T}, WF R m →
      m.free.length ≤ m.nodes.length := by
    intro T _ _ R m wf
    have := (wf.free_nodup.subperm (l₂ := List.range m.nodes.length)
      fun i hi => List.mem_range.2 (wf.free_lt i hi)).length_le
    rwa [List.length_range] at this
  simp only [MWorld.step, MWorld.onL] at hs
  split at hs
  · cases hs
  · rename_i xs hxs
    split at hs
    · cases hs
    · rename_i n m hc
      cases hs
      unfold MddMgr.collect at hc
      split at hc
      · cases hc
      · rename_i n' e he
        cases hc
        have st : n = (e.mtmdd.arena.free.length, e.mdd.arena.free.length) ∧
            e.mtmdd.arena.nodes = w.mgr.w.eng.mtmdd.arena.nodes ∧ e.mdd.arena.nodes = w.mgr.w.eng.mdd.arena.nodes := by
          have sw : ∀ {T : Type} [DecidableEq T] [Fixed T] {m m' : Arena T} {rs : List Nat} {l : List Bool},
              m.gcA rs = some (l, m') → m'.nodes = m.nodes := by
            intro T _ _ m m' rs l h
            unfold gcA at h
            split at h
            · cases h
            · obtain ⟨q, h1, h2⟩ := Option.map_eq_some_iff.1 h
              cases h2
              unfold sweep at h1
              split at h1
              · cases h1; rfl
              · cases h1
          unfold Mtmdd2.gc at he
          split at he
          · cases he
          · rename_i nv v hv
            split at he
            · cases he
            · rename_i nb b hb
              cases he
              unfold Mtmdd.gc at hv
              unfold Mdd.gc at hb
              split at hv
              · cases hv
              · rename_i g1
                split at hv
                · cases hv
                  split at hb
                  · cases hb
                  · rename_i g2
                    split at hb
                    · cases hb
                      exact ⟨rfl, sw g1, sw g2⟩
                    · cases hb
                · cases hv
        obtain ⟨rfl, h1, h2⟩ := st
        have a := hfl inv'.v.wf
        have b := hfl inv'.b.wf
        have a : e.mtmdd.arena.free.length ≤ e.mtmdd.arena.nodes.length := a
        have b : e.mdd.arena.free.length ≤ e.mdd.arena.nodes.length := b
        rw [h1] at a
        rw [h2] at b
        refine ⟨_, rfl, ?_, ?_, fun hf => ?_, fun hf => ?_⟩
        · show e.mtmdd.arena.free.length + (e.mtmdd.arena.nodes.length - e.mtmdd.arena.free.length) = _
          rw [h1]; omega
        · show e.mdd.arena.free.length + (e.mdd.arena.nodes.length - e.mdd.arena.free.length) = _
          rw [h2]; omega
        · show e.mtmdd.arena.free.length + (e.mtmdd.arena.nodes.length - e.mtmdd.arena.free.length) =
            w.mgr.w.eng.mtmdd.arena.nodes.length - w.mgr.w.eng.mtmdd.arena.free.length
          rw [h1, hf]; simp only [List.length_nil]; omega
        · show e.mdd.arena.free.length + (e.mdd.arena.nodes.length - e.mdd.arena.free.length) =
            w.mgr.w.eng.mdd.arena.nodes.length - w.mgr.w.eng.mdd.arena.free.length
          rw [h2, hf]; simp only [List.length_nil]; omega

/-- A second `gc()` right after the first gives back nothing but returns the first one's number again. -/
def gcTwice : Option (Nat × Nat × Nat) := do
  let (_, w) ← World.new.run [.defvar "x", .defvar "y", .and 0 1, .drop 2, .gc []]
  let (n, m) ← w.mgr.collect []
  return (w.mgr.liveNodeCount, m.liveNodeCount, n)

/-- **C57 is violated.** -/
theorem C57_violated : ∃ b a n, gcTwice = some (b, a, n) ∧ ¬ GcReports b a n :=
  ⟨5, 5, 1, by decide +kernel, by unfold GcReports; decide⟩

example : (World.new.run [.defvar "x", .defvar "y", .and 0 1, .or 0 1, .drop 2]).map (fun p => (p.2.mgr.size,
    p.2.mgr.liveNodeCount)) = some ((2, 7, 6), 7) := by decide +kernel

end DD.Props
