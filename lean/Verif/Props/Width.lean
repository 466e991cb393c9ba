import Verif.Bss.Width
import Verif.Mss.Width
import Verif.Props.BddAnalysis
import Verif.Props.Mss
import Verif.Props.MssAnalysis
import Verif.Props.Zdd

/-!
# Counts are returned in 64-bit integers: C71

`countIn b` is the count as the program computes it, in `u64`, in a build with (`dev`) or without (`release`)
overflow checks; `none` is the overflow panic.  The right-hand sides count in `Nat` and are those of C12, C23, C38
and C47.
-/

set_option autoImplicit false
set_option linter.unusedSectionVars false
set_option linter.unusedVariables false

namespace DD.Props
open Arena

/-- What a build without overflow checks returns for the number `n`. -/
def lowWord (n : Nat) : Nat := n % 2 ^ 64

/-- What a build with overflow checks should return for the number `n`: `n` if it fits, else a panic. -/
def ifFits (n : Nat) : Option Nat := if n < 2 ^ 64 then some n else none

/-! ## BDD -/

section
variable {w : World}

/-- No edge of the diagram below `f` skips 64 or more levels (the terminals count as level −1). -/
def ShortEdges (w : World) (f : Nat) : Prop :=
  ∀ i, w.held.get f = some i → ∀ j h ch, Reach w.mgr.bdd.arena i j → w.mgr.bdd.arena.nodes[j]? = some (.nt h ch) →
    ∀ c ∈ ch, w.mgr.bdd.arena.rank j ≤ w.mgr.bdd.arena.rank c + 64

theorem narrow_iff {m : Arena T3} {i : Nat} : Bdd.Narrow (2 ^ 64) m i ↔
    ∀ j h ch, Reach m i j → m.nodes[j]? = some (.nt h ch) → ∀ c ∈ ch, m.rank j ≤ m.rank c + 64 := by
  constructor
  · intro h j hd ch h1 h2 c hc
    have := (Nat.pow_lt_pow_iff_right (by omega : 1 < 2)).1 (h j hd ch h1 h2 c hc)
    unfold Bdd.gap at this
    omega
  · intro h j hd ch h1 h2 c hc
    have := h j hd ch h1 h2 c hc
    refine (Nat.pow_lt_pow_iff_right (by omega : 1 < 2)).2 ?_
    unfold Bdd.gap
    omega

/-- **C71 (BDD, release).** The count is returned modulo 2^64. -/
theorem C71_bdd_release (hw : w.Reachable) {f : Nat} {F : BFun} (hf : w.Denotes f F) {n : Nat}
    (hn : Height F n) (ss : List Bool) :
    w.countIn .release ss f =
      some (lowWord (Finset.univ.filter (fun a : Fin n → Bool => F (extend a) ∈ ss)).card) := by
  have h := C12_count hw hf hn ss
  obtain ⟨i, h1, _⟩ := hf
  unfold World.bddCount at h
  unfold World.countIn
  rw [h1] at h ⊢
  exact Bdd.countA_wrapping (by decide) h

/-- **C71 (BDD, dev).** With overflow checks a count is returned exactly when it fits in 64 bits and no edge
skips 64 levels; it is then the right one. -/
theorem C71_bdd_dev_partial (hw : w.Reachable) {f : Nat} {F : BFun} (hf : w.Denotes f F) {n : Nat}
    (hn : Height F n) (ss : List Bool) (r : Nat) :
    w.countIn .dev ss f = some r ↔
      r = (Finset.univ.filter (fun a : Fin n → Bool => F (extend a) ∈ ss)).card ∧ r < 2 ^ 64 ∧ ShortEdges w f := by
  have h := C12_count hw hf hn ss
  obtain ⟨A, R⟩ := hw.rel
  obtain ⟨i, h1, _⟩ := hf
  have hS : ShortEdges w f ↔ Bdd.Narrow (2 ^ 64) w.mgr.bdd.arena i := by
    rw [narrow_iff]
    exact ⟨fun h => h i h1, fun h j hj => by rw [h1] at hj; cases hj; exact h⟩
  unfold World.bddCount at h
  unfold World.countIn
  rw [h1] at h ⊢
  obtain ⟨k1, k2⟩ := Bdd.countA_checked R.mok.inv R.mok.inj (M := 2 ^ 64) (by decide) h
  rw [hS]
  constructor
  · intro h2
    obtain ⟨rfl, h3, h4⟩ := k2 r h2
    exact ⟨rfl, h3, h4⟩
  · rintro ⟨rfl, h3, h4⟩
    exact k1 h3 h4

/-- **C71 (BDD, dev).** So functions of the lowest 64 variables are counted correctly in both builds. -/
theorem C71_bdd_dev_low (hw : w.Reachable) {f : Nat} {F : BFun} (hf : w.Denotes f F) {n : Nat}
    (hn : Height F n) (h64 : n ≤ 64) (ss : List Bool) :
    w.countIn .dev ss f =
      ifFits (Finset.univ.filter (fun a : Fin n → Bool => F (extend a) ∈ ss)).card := by
  obtain ⟨A, R⟩ := hw.rel
  obtain ⟨i, h1, h2⟩ := denotes_get R hf
  have hr := rank_height R h2 hn
  have hS : ShortEdges w f := by
    intro i' hi' j h ch hj hn' c hc
    rw [h1] at hi'; cases hi'
    have := R.mok.inv.wf.reach_rank_le h2.live hj
    omega
  unfold ifFits
  split
  · rename_i h3
    exact (C71_bdd_dev_partial hw hf hn ss _).2 ⟨rfl, h3, hS⟩
  · rename_i h3
    cases hc : w.countIn .dev ss f with
    | none => rfl
    | some r =>
      obtain ⟨rfl, h4, _⟩ := (C71_bdd_dev_partial hw hf hn ss r).1 hc
      exact absurd h4 h3

/-- 65 variables and the conjunction of the first and the last. -/
def wideCmds : List Cmd :=
  (List.range 65).map (fun k => .defvar (String.ofList (List.replicate (k + 1) 'x'))) ++ [.and 0 64]

set_option maxRecDepth 10000 in
/-- **C71 fails with overflow checks**: the count of `x₀ ∧ x₆₄` is 2^63 and fits, yet the call panics (computing
2^64 for the edge from the top variable to the terminal 0). -/
theorem C71_violated : ∃ (w : World) (f : Nat) (F : BFun) (n : Nat), w.Reachable ∧ w.Denotes f F ∧ Height F n ∧
    (Finset.univ.filter (fun a : Fin n → Bool => F (extend a) ∈ [true])).card = 2 ^ 63 ∧
    w.countIn .dev [true] f = none ∧ w.countIn .release [true] f = some (2 ^ 63) := by
  have key : (World.new.run wideCmds).map (fun p => (p.2.bddCount [true] 65, p.2.countIn .dev [true] 65)) =
      some (some (2 ^ 63), none) := by decide +kernel
  rw [Option.map_eq_some_iff] at key
  obtain ⟨⟨os, w⟩, hr, key⟩ := key
  simp only [Prod.mk.injEq] at key
  have hw : w.Reachable := (history_of_run _ _ _ _ (by
    intro c hc a b d
    simp only [wideCmds, List.mem_append, List.mem_map, List.mem_singleton] at hc
    rcases hc with ⟨k, _, rfl⟩ | rfl <;> intro e <;> cases e) hr).reachable .new
  obtain ⟨A, R⟩ := hw.rel
  cases hg : w.held.get 65 with
  | none => have := key.1; unfold World.bddCount at this; rw [hg] at this; cases this
  | some i =>
    obtain ⟨F, hF, _⟩ := R.heldS 65 i hg
    have hf := R.denotes_iff.2 hF
    obtain ⟨n, hn, _⟩ := height_exists hw hf ((names_iff R _).2 rfl)
    have hc := C12_count hw hf hn [true]
    rw [key.1] at hc
    refine ⟨w, 65, F, n, hw, hf, hn, (Option.some.inj hc).symm, key.2, ?_⟩
    rw [C71_bdd_release hw hf hn, ← Option.some.inj hc]
    rfl

end

/-! ## ZDD -/

section
variable {w : ZWorld}

/-- **C71 (ZDD).** The number of member sets, modulo 2^64 or with a panic exactly when it does not fit. -/
theorem C71_zdd (hw : w.Reachable) {h : Nat} {𝓕 : Set (Set String)} (hD : w.Denotes h 𝓕) :
    w.countIn .release [true] h = some (lowWord 𝓕.ncard) ∧ w.countIn .dev [true] h = ifFits 𝓕.ncard := by
  obtain ⟨_, hc⟩ := C23_count hw hD
  obtain ⟨i, hi⟩ := hD.held
  unfold ZWorld.count at hc
  unfold ZWorld.countIn
  rw [hi] at hc ⊢
  exact ⟨Zdd.zcountA_wrapping (by decide) hc, Zdd.zcountA_checked (by decide) hc⟩

end

/-! ## MDD -/

section
variable {w : MWorld} {vs : List (String × Nat)}

/-- **C71 (MDD).** Whatever the pass returns in unbounded integers, it returns modulo 2^64, or with a panic exactly
when that does not fit, in machine integers. -/
theorem C71_mdd_words (hw : w.Reachable) (hv : MVars w vs) {f : Nat} {F : MFun} (hf : w.Has f F)
    (h32 : ∀ p ∈ vs, p.2 < 2 ^ 32) {ss : List Int} {n : Nat} (hc : w.count ss f = some n) :
    w.countIn .release ss f = some (lowWord n) ∧ w.countIn .dev ss f = ifFits n := by
  have hE : ∀ {T : Type} [DecidableEq T] [Fixed T] {m : Arena T}, m.headers = mkH vs → (∀ p ∈ vs, 0 < p.2) →
      ∀ hd ∈ m.headers, 0 < hd.edgeNum ∧ hd.edgeNum < 2 ^ 32 := by
    intro T _ _ m hm hp hd hd'
    rw [hm] at hd'
    obtain ⟨k, hk⟩ := List.mem_iff_getElem?.1 hd'
    rw [mkH_get] at hk
    obtain ⟨p, h1, rfl⟩ := hk
    exact ⟨hp p (List.mem_of_getElem? h1), h32 p (List.mem_of_getElem? h1)⟩
  unfold MWorld.count MWorld.query at hc
  unfold MWorld.countIn MWorld.query
  rcases forest hw hv hf ss with ⟨i, hx, h⟩ | ⟨i, hx, h⟩
  · rw [hx] at hc ⊢
    have hE := hE h.hdrs h.pos
    exact ⟨Mda.countA_wrapping (by decide) (fun hd k => (hE hd k).2) hc, Mda.countA_checked (by decide) hE hc⟩
  · rw [hx] at hc ⊢
    have hE := hE h.hdrs h.pos
    exact ⟨Mda.countA_wrapping (by decide) (fun hd k => (hE hd k).2) hc, Mda.countA_checked (by decide) hE hc⟩

/-- **C71 (MDD, integer-valued).** As for ZDDs, when every variable has fewer than 2^32 states; constants and
Booleans are outside C38 already. -/
theorem C71_mdd_value_partial (hw : w.Reachable) (hv : MVars w vs) {f : Nat} {F : MFun} (hf : w.Has f F) {l : Nat}
    (ht : MTop vs F (some l)) (hval : ∀ a, ValidV vs a → (F a).isBool = false) (h32 : ∀ p ∈ vs, p.2 < 2 ^ 32)
    (ss : List Int) : w.countIn .release ss f = some (lowWord (mcountSpec vs (l + 1) ss F)) ∧
      w.countIn .dev ss f = ifFits (mcountSpec vs (l + 1) ss F) :=
  C71_mdd_words hw hv hf h32 (C38_value_partial hw hv hf ht hval ss)

/-- **C71 (MDD, Boolean, each node over one gap).** -/
theorem C71_mdd_bool_partial (hw : w.Reachable) (hv : MVars w vs) {f i : Nat} {F : MFun} (hf : w.Has f F) {l : Nat}
    (ht : MTop vs F (some l)) (hi : w.hs.held.get f = some (.bool i)) (ss : List Int)
    (hg : Mda.OneGap w.mgr.w.eng.mdd.arena (selB ss) i) (h32 : ∀ p ∈ vs, p.2 < 2 ^ 32) :
    w.countIn .release ss f = some (lowWord (mcountSpec vs (l + 1) ss F)) ∧
      w.countIn .dev ss f = ifFits (mcountSpec vs (l + 1) ss F) :=
  C71_mdd_words hw hv hf h32 (C38_bool_partial hw hv hf ht hi ss hg)

end

/-! ## ZMDD -/

/-- **C71 (ZMDD).** The number of vectors whose label is in `ss`, modulo 2^64 or with a panic exactly when it does
not fit. -/
theorem C71_zmdd {w : MssW} (hw : w.Reachable) {h : Nat} {z : ZNd} (hz : w.z.hs.held.get h = some z) (ss : List Int) :
    ∃ as : List (Nat → Nat), as.Nodup ∧ (∀ a, a ∈ as ↔ ∃ v ∈ ss, FamHas w.z h a v) ∧
      w.z.countIn .release ss h = some (lowWord as.length) ∧ w.z.countIn .dev ss h = ifFits as.length := by
  obtain ⟨as, h1, h2, h3⟩ := C47_count hw hz ss
  refine ⟨as, h2, h3, ?_⟩
  have hc : Zma.count w.z.mgr.eng.arena ss z.node = some as.length := by
    simp only [MssW.step, ZMWorld.step, ZMWorld.on1, hz] at h1
    rw [Option.map_eq_some_iff] at h1
    obtain ⟨q, h1, e⟩ := h1
    rw [Option.map_eq_some_iff] at h1
    obtain ⟨k, h1, rfl⟩ := h1
    cases e
    exact h1
  unfold ZMWorld.countIn
  rw [hz]
  exact ⟨Zma.countA_wrapping (by decide) hc, Zma.countA_checked (by decide) hc⟩

/-! ## Concrete cases -/

example : (World.new.run analysisCmds).bind (fun p => p.2.countIn .dev [true] 4) = some 5 ∧
    (World.new.run analysisCmds).bind (fun p => p.2.countIn .release [true] 4) = some 5 := by decide +kernel

set_option maxRecDepth 10000 in
/-- The count of `x₆₄` alone is 2^64: dev panics, release returns 0. -/
example : (World.new.run wideCmds).map (fun p => (p.2.bddCount [true] 64, p.2.countIn .dev [true] 64,
    p.2.countIn .release [true] 64)) = some (some (2 ^ 64), none, some 0) := by decide +kernel

end DD.Props
