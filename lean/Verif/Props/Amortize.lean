import Verif.Props.GcPolicy
import Verif.Wrap.Amortize

/-!
# Doubling the trigger pays for the automatic collections: C78

`Bill` (Verif/Wrap/Amortize.lean) follows a run of public calls and sums up the node slots the calls added and the node
slots in use at the start of every automatic collection.
-/

set_option autoImplicit false
set_option linter.unusedSectionVars false
set_option linter.unusedVariables false

namespace DD.Props
open Arena

/-! ## Helpers -/

theorem bdd_quiet {w w' : World} {c : Cmd} {o : Out} (hw : w.Reachable) (ho : w.Ordered c) (hn : ∀ n, c ≠ .setThreshold n)
    (hs : w.step c = some (o, w')) :
    (∃ w1, CollectsAt bddView (fun x => x.step c) w o w1 w') ∨ bddView.trigger w' = bddView.trigger w := by
  by_cases hc : (∀ h, o ≠ .handle h) ∨ (∃ v, c = .defvar v) ∨ ∃ f, c = .clone f
  · exact .inr (C54_bdd_other hs hc hn).1
  · have h1 : ∃ h, o = .handle h := by
      by_cases h : ∃ h, o = .handle h
      · exact h
      · exact absurd (.inl fun x hx => h ⟨x, hx⟩) hc
    obtain ⟨h, rfl⟩ := h1
    exact (C54_bdd hw ho (fun v hv => hc (.inr (.inl ⟨v, hv⟩))) (fun f hf => hc (.inr (.inr ⟨f, hf⟩))) hs).collects
      (fun _ _ => rfl)

theorem zdd_quiet {w w' : ZWorld} {c : ZCmd} {o : ZOut} (hw : w.Reachable) (hf : ∀ ss, c ≠ .fromSets ss)
    (hn : ∀ n, c ≠ .setThreshold n) (hs : w.step c = some (o, w')) :
    (∃ w1, CollectsAt zddView (fun x => x.step c) w o w1 w') ∨ zddView.trigger w' = zddView.trigger w := by
  by_cases hc : (∀ h, o ≠ .handle h) ∨ ∃ f, c = .clone f
  · exact .inr (C54_zdd_other hs hc hn).1
  · have h1 : ∃ h, o = .handle h := by
      by_cases h : ∃ h, o = .handle h
      · exact h
      · exact absurd (.inl fun x hx => h ⟨x, hx⟩) hc
    obtain ⟨h, rfl⟩ := h1
    exact (C54_zdd hw hf (fun f hf => hc (.inr ⟨f, hf⟩)) hs).collects (fun _ _ => rfl)

theorem mdd_quiet {w w' : MWorld} {c : MCmd} {o : MOut} (hw : w.Reachable) (ho : w.Checked c)
    (hn : ∀ n, c ≠ .setThreshold n) (hs : w.step c = some (o, w')) :
    (∃ w1, CollectsAt mddView (fun x => x.step c) w o w1 w') ∨ mddView.trigger w' = mddView.trigger w := by
  by_cases hc : (∀ h, o ≠ .handle h) ∨ (∃ v n, c = .defvar v n) ∨ ∃ f, c = .clone f
  · exact .inr (C54_mdd_other hs hc hn).1
  · have h1 : ∃ h, o = .handle h := by
      by_cases h : ∃ h, o = .handle h
      · exact h
      · exact absurd (.inl fun x hx => h ⟨x, hx⟩) hc
    obtain ⟨h, rfl⟩ := h1
    exact (C54_mdd hw ho (fun v n hv => hc (.inr (.inl ⟨v, n, hv⟩))) (fun f hf => hc (.inr (.inr ⟨f, hf⟩))) hs).collects
      (fun _ _ => rfl)

theorem bss_minpath_quiet {w w' : BssW} {f : Nat} {o : BssOut} (hs : w.minpath f = some (o, w'))
    (hc : ∀ h, o ≠ .fam (some h)) : w'.zdd = w.zdd := by
  unfold BssW.minpath at hs
  repeat' split at hs
  all_goals first | cases hs; rfl | cases hs; exact absurd rfl (hc _) | cases hs

theorem bss_quiet {w w' : BssW} {c : BssCmd} {o : BssOut} (hw : w.Reachable) (hn : ∀ n, c ≠ .zdd (.setThreshold n))
    (hs : w.step c = some (o, w')) :
    (∃ w1, CollectsAt bssView (fun x => x.step c) w o w1 w') ∨ bssView.trigger w' = bssView.trigger w := by
  by_cases hc : (∃ z h, c = .zdd z ∧ o = .zdd (.handle h) ∧ ∀ f, z ≠ .clone f) ∨ ∃ h, o = .fam (some h)
  · exact (C54_bss hw hs hc).collects (fun _ _ => rfl)
  · right
    have hm : ∀ h, o ≠ .fam (some h) := fun h e => hc (.inr ⟨h, e⟩)
    have same : w'.zdd = w.zdd → bssView.trigger w' = bssView.trigger w := fun e => by
      show w'.zdd.mgr.w.gc.threshold = w.zdd.mgr.w.gc.threshold
      rw [e]
    cases c with
    | bdd c => obtain ⟨p, _, h2⟩ := Option.map_eq_some_iff.1 hs; cases h2; rfl
    | zdd c =>
      have hs : (if c.shared then (w.zdd.step c).map (fun p => (BssOut.zdd p.1, { w with zdd := p.2 })) else none) =
        some (o, w') := hs
      split at hs
      · rename_i hsh
        obtain ⟨p, h1, h2⟩ := Option.map_eq_some_iff.1 hs
        cases h2
        have h1 : w.zdd.step c = some (p.1, p.2) := h1
        refine (C54_zdd_other h1 ?_ ?_).1
        · by_cases h : ∃ f, c = .clone f
          · exact .inr h
          · exact .inl fun x hx => hc (.inl ⟨c, x, rfl, by rw [hx], fun f hf => h ⟨f, hf⟩⟩)
        · rintro n rfl; exact hn n rfl
      · cases hs
    | minpath f => exact same (bss_minpath_quiet hs hm)
    | mincut f =>
      have hs : w.mincut f = some (o, w') := hs
      unfold BssW.mincut at hs
      split at hs
      · split at hs
        · cases hs
        · rename_i d b hd o1 w1 h1
          split at hs
          · cases hs
          · cases hs
            have e := bss_minpath_quiet h1 hm
            exact same e
      · cases hs
    | clearCache => cases hs; rfl

theorem mss_quiet {w w' : MssW} {c : MssCmd} {o : MssOut} (hw : w.Reachable) (hs : w.step c = some (o, w')) :
    (∃ w1, CollectsAt mssView (fun x => x.step c) w o w1 w') ∨ mssView.trigger w' = mssView.trigger w := by
  by_cases hc : (∃ z h, c = .zmdd z ∧ o = .zmdd (.handle h) ∧ ∀ f, z ≠ .clone f) ∨ ∃ h, o = .fam (some h)
  · exact (C54_mss hw hs hc).collects (fun _ _ => rfl)
  · right
    have sol : ∀ top f, w.sol top f = some (o, w') → mssView.trigger w' = mssView.trigger w := by
      intro top f h
      unfold MssW.sol at h
      repeat' split at h
      all_goals first
        | cases h; rfl
        | cases h; exact absurd (.inr ⟨_, rfl⟩) hc
        | cases h
    cases c with
    | mdd c => obtain ⟨p, _, h2⟩ := Option.map_eq_some_iff.1 hs; cases h2; rfl
    | zmdd c =>
      obtain ⟨p, h1, h2⟩ := Option.map_eq_some_iff.1 hs
      cases h2
      have h1 : w.z.step c = some (p.1, p.2) := h1
      cases hwr : ZMWorld.wraps c with
      | false => exact (ZMWorld.step_quiet h1 hwr).1
      | true =>
        obtain ⟨w0, r, F⟩ := ZMWorld.step_form hwr h1
        have e := (F.spec h1).1
        refine absurd (.inl ⟨c, _, rfl, by rw [e], ?_⟩) hc
        rintro f rfl
        cases hwr
    | minpath f => exact sol _ _ hs
    | mincut f => exact sol _ _ hs
    | clearCache => cases hs; rfl

/-! ## The property -/

/-- Calls a session of C78 may contain: everything but `set_gc_threshold`. -/
def bddPlain (w : World) (c : Cmd) : Prop := w.Ordered c ∧ ∀ n, c ≠ .setThreshold n
/-- For `ZddMgr` also without `from_sets`, which may collect several times within the call. -/
def zddPlain (_ : ZWorld) (c : ZCmd) : Prop := (∀ ss, c ≠ .fromSets ss) ∧ ∀ n, c ≠ .setThreshold n
def bssPlain (w : BssW) (c : BssCmd) : Prop := w.Ordered c ∧ ∀ n, c ≠ .zdd (.setThreshold n)
def mddPlain (w : MWorld) (c : MCmd) : Prop := w.Checked c ∧ ∀ n, c ≠ .setThreshold n

/-- `BddMgr`: over any session the automatic collections start from at most twice as many nodes, all together, as the
session added, plus twice the nodes in use at the beginning over the trigger. -/
theorem C78_bdd {w w' : World} (hw : w.Reachable) {cs : List Cmd} {added seen : Nat}
    (h : Bill bddView World.step bddPlain w cs added seen w') :
    seen ≤ 2 * added + (2 * bddView.used w - bddView.trigger w) := by
  have := h.bound (R := World.Reachable) (fun w c o w' R a s => R.step c a.1 s)
    (fun w c o w' R a s => bdd_quiet R a.1 a.2 s) hw
  omega

theorem C78_zdd {w w' : ZWorld} (hw : w.Reachable) {cs : List ZCmd} {added seen : Nat}
    (h : Bill zddView ZWorld.step zddPlain w cs added seen w') :
    seen ≤ 2 * added + (2 * zddView.used w - zddView.trigger w) := by
  have := h.bound (R := ZWorld.Reachable) (fun w c o w' R a s => R.step c s)
    (fun w c o w' R a s => zdd_quiet R a.1 a.2 s) hw
  omega

/-- `MddMgr`: both forests counted together. -/
theorem C78_mdd {w w' : MWorld} (hw : w.Reachable) {cs : List MCmd} {added seen : Nat}
    (h : Bill mddView MWorld.step mddPlain w cs added seen w') :
    seen ≤ 2 * added + (2 * mddView.used w - mddView.trigger w) := by
  have := h.bound (R := MWorld.Reachable) (fun w c o w' R a s => R.step c a.1 s)
    (fun w c o w' R a s => mdd_quiet R a.1 a.2 s) hw
  omega

/-- The family manager of a `BssMgr`. -/
theorem C78_bss {w w' : BssW} (hw : w.Reachable) {cs : List BssCmd} {added seen : Nat}
    (h : Bill bssView BssW.step bssPlain w cs added seen w') :
    seen ≤ 2 * added + (2 * bssView.used w - bssView.trigger w) := by
  have := h.bound (R := BssW.Reachable) (fun w c o w' R a s => R.step c a.1 s)
    (fun w c o w' R a s => bss_quiet R a.2 s) hw
  omega

/-- The family manager of an `MssMgr`; it has no public way to set the trigger. -/
theorem C78_mss {w w' : MssW} (hw : w.Reachable) {cs : List MssCmd} {added seen : Nat}
    (h : Bill mssView MssW.step MssW.Checked w cs added seen w') :
    seen ≤ 2 * added + (2 * mssView.used w - mssView.trigger w) := by
  have := h.bound (R := MssW.Reachable) (fun w c o w' R a s => R.step c a s)
    (fun w c o w' R a s => mss_quiet R s) hw
  omega

/-- From a new manager nothing is added. -/
theorem C78_new {w' : World} {cs : List Cmd} {added seen : Nat}
    (h : Bill bddView World.step bddPlain World.new cs added seen w') : seen ≤ 2 * added := by
  have := C78_bdd .new h
  have e : 2 * bddView.used World.new - bddView.trigger World.new = 0 := by decide +kernel
  omega

/-- Every session that does not panic has a bill. -/
theorem C78_bill {w w' : World} {cs : List Cmd} {os : List Out} (hs : w.run cs = some (os, w'))
    (hc : ∀ c ∈ cs, (∀ n, c ≠ .setThreshold n) ∧ ∀ h f g, c ≠ .createNode h f g) :
    ∃ added seen, Bill bddView World.step bddPlain w cs added seen w' := by
  induction cs generalizing w w' os with
  | nil => cases hs; exact ⟨0, 0, .nil⟩
  | cons c cs ih =>
    unfold World.run at hs
    split at hs
    · cases hs
    · rename_i o w1 h1
      split at hs
      · cases hs
      · rename_i h2
        cases hs
        have a := hc c (List.mem_cons_self ..)
        refine Bill.exists ⟨?_, a.1⟩ h1 (ih h2 fun c h => hc c (List.mem_cons_of_mem _ h))
        cases c <;> first | trivial | exact absurd rfl (a.2 _ _ _)

/-- Sessions as `C78_bill` asks for exist. -/
example : (World.new.run [.defvar "a", .defvar "b", .xor 0 1, .drop 2, .gc [], .or 0 1]).isSome = true := by
  decide +kernel

/-! ## What the bound leaves out -/

/-- A session that fills many slots, frees them and sets a low trigger. -/
def shrunk : List Cmd :=
  [.defvar "a", .defvar "b", .defvar "c", .defvar "d", .xor 0 1, .xor 4 2, .xor 5 3, .kofn 2 [0, 1, 2, 3],
   .drop 4, .drop 5, .drop 6, .drop 7, .gc [], .setThreshold 9, .and 0 1]

/-- A collection also sweeps slots that were free already (the forest never gives slots back): here it starts with 9
slots in use and goes through 24.  The bound above is on slots in use, i.e. on marking and on what is freed. -/
theorem C78_sweep : ∃ (w w1 w' : World) (c : Cmd) (o : Out), w.Reachable ∧ bddPlain w c ∧ w.step c = some (o, w') ∧
    CollectsAt bddView (fun x => x.step c) w o w1 w' ∧ bddView.used w1 = 9 ∧ w1.mgr.bdd.arena.nodes.length = 24 := by
  have hr : ∀ (cs : List Cmd) (w : World), w.Reachable → (∀ c ∈ cs, ∀ h f g, c ≠ .createNode h f g) →
      ∀ os w', w.run cs = some (os, w') → w'.Reachable := by
    intro cs
    induction cs with
    | nil => intro w R _ os w' h; cases h; exact R
    | cons c cs ih =>
      intro w R hc os w' h
      unfold World.run at h
      split at h
      · cases h
      · rename_i o w1 h1
        split at h
        · cases h
        · rename_i h2
          cases h
          refine ih w1 (R.step c ?_ h1) (fun c h => hc c (List.mem_cons_of_mem _ h)) _ _ h2
          have a := hc c (List.mem_cons_self ..)
          cases c <;> first | trivial | exact absurd rfl (a _ _ _)
  have key : ((World.new.run shrunk).bind fun p => (p.2.step (.or 0 1)).bind fun q =>
      ((bddView.setTrigger p.2 1000).step (.or 0 1)).map fun r =>
        decide (bddView.trigger q.2 ≠ bddView.trigger p.2 ∧ q.2.mgr.bdd.arena.nodes.length = 24 ∧
          bddView.used r.2 = 9)) = some true := by decide +kernel
  cases h0 : World.new.run shrunk with
  | none => rw [h0] at key; cases key
  | some p =>
    obtain ⟨os, w⟩ := p
    rw [h0] at key
    have key : ((w.step (.or 0 1)).bind fun q =>
      ((bddView.setTrigger w 1000).step (.or 0 1)).map fun r =>
        decide (bddView.trigger q.2 ≠ bddView.trigger w ∧ q.2.mgr.bdd.arena.nodes.length = 24 ∧
          bddView.used r.2 = 9)) = some true := key
    have R := hr shrunk _ .new (by intro c hc h f g e; subst e; simp [shrunk] at hc) _ _ h0
    cases h1 : w.step (.or 0 1) with
    | none => rw [h1] at key; cases key
    | some q =>
      obtain ⟨o, w'⟩ := q
      rw [h1] at key
      obtain ⟨r, h2, h3⟩ := Option.map_eq_some_iff.1 key
      have h3 := of_decide_eq_true h3
      have hp : bddPlain w (.or 0 1) := ⟨trivial, fun n h => nomatch h⟩
      rcases bdd_quiet R hp.1 hp.2 h1 with ⟨w1, hc⟩ | hc
      · refine ⟨w, w1, w', _, o, R, hp, h1, hc, ?_, ?_⟩
        · have hl : bddView.used w1 ≤ w1.mgr.bdd.arena.nodes.length := by
            show (List.filter _ _).length ≤ _
            exact (List.length_filter_le _ _).trans (by rw [List.length_range])
          have e : w1.mgr.bdd.arena.nodes = w'.mgr.bdd.arena.nodes := hc.2.2.1.2.2.2.2.1.symm
          have := hc.1 1000 (by rw [e, h3.2.1] at hl; omega)
          have this : (bddView.setTrigger w 1000).step (.or 0 1) = some (o, bddView.setTrigger w1 1000) := this
          rw [h2] at this
          cases this
          exact h3.2.2
        · have e : w'.mgr.bdd.arena.nodes = w1.mgr.bdd.arena.nodes := hc.2.2.1.2.2.2.2.1
          rw [← e]; exact h3.2.1
      · exact absurd hc h3.1

end DD.Props
