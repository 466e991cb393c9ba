import Verif.Mss.Stable
import Verif.Mss.MssStep

/-!
# Nodes of ZMDD handles are left alone; open iterators of `MssMgr`
-/

set_option autoImplicit false
set_option linter.unusedSectionVars false
set_option linter.unusedVariables false

namespace DD
open Arena

theorem Arena.Grow.refl {T : Type} [DecidableEq T] [Fixed T] (m : Arena T) : Grow m m := ⟨m, Ext.refl _, rfl, rfl⟩

/-! ## The iterator -/

namespace Zma
variable {m m' : Arena (Option Int)} {i : Nat}

/-- All nodes on the stack are at or under `i`. -/
def PathSt.Under (m : Arena (Option Int)) (i : Nat) (st : PathSt) : Prop :=
  ∀ j, SV.node j ∈ st.stack → Reach m i j

theorem mem_branches {x : String} {rev : Bool} {last j : Nat} : ∀ (cs : List Nat) (k : Nat),
    SV.node j ∈ branches x rev last k cs → j ∈ cs := by
  intro cs
  induction cs with
  | nil => intro k h; cases h
  | cons c cs ih =>
    intro k h
    simp only [branches, List.mem_append] at h
    rcases h with h | h
    · split at h
      · simp at h; rw [h]; exact List.mem_cons_self
      · simp at h; rw [h]; exact List.mem_cons_self
    · exact List.mem_cons_of_mem _ (ih (k + 1) h)

theorem pathStep_under (st : PathSt) (o : Option (AMap String Nat)) (st' : PathSt) (hu : st.Under m i)
    (h : pathStep m st = some (some (o, st'))) : st'.Under m i := by
  obtain ⟨stack, path, base, ss, rev⟩ := st
  unfold pathStep at h
  match stack with
  | [] => simp at h
  | .push x k :: rest =>
    simp at h; rw [← h.2]
    exact fun j hj => hu j (List.mem_cons_of_mem _ hj)
  | .pop x :: rest =>
    have : st'.stack = rest := by
      simp only at h
      split at h <;> (simp only [Option.some.injEq, Prod.mk.injEq] at h; rw [← h.2])
    exact fun j hj => hu j (List.mem_cons_of_mem _ (this ▸ hj))
  | .node k :: rest =>
    have hk : Reach m i k := hu k List.mem_cons_self
    have hrest : ∀ j, SV.node j ∈ rest → Reach m i j := fun j hj => hu j (List.mem_cons_of_mem _ hj)
    simp only at h
    split at h
    · cases h
    · cases h; exact hrest
    · split at h <;> (cases h; exact hrest)
    · rename_i hh ch hn
      split at h
      · cases h
      · split at h
        · cases h
        · cases h
          intro j hj
          rcases List.mem_append.1 hj with hj | hj
          · exact .step hk hn (mem_branches ch 0 hj)
          · exact hrest j hj

theorem pathStep_congr {X : Nat → Look (Option Int)} (h : m.Shape i X) (h' : m'.Shape i X) (st : PathSt)
    (hu : st.Under m i) : pathStep m' st = pathStep m st := by
  unfold pathStep
  split
  · rfl
  · rfl
  · rfl
  · rename_i k rest hst
    obtain ⟨e1, _, e3⟩ := h.same h' (hu k (by rw [hst]; exact List.mem_cons_self))
    have e1 : m'.node? k = m.node? k := e1
    rw [e1, e3]

theorem PathSt.Under.live (wf : WF RZ m) {X : Nat → Look (Option Int)} (h : m.Shape i X) {st : PathSt}
    (hu : st.Under m i) : StackLive m st := fun j hj => wf.reach_live (hu j hj) h.1

/-- `next` reads nothing but what is under the node. -/
theorem pathNext_congr {X : Nat → Look (Option Int)} (wf : WF RZ m) (wf' : WF RZ m') (h : m.Shape i X)
    (h' : m'.Shape i X) {st : PathSt} (hu : st.Under m i) : pathNext m' st = pathNext m st :=
  Enum.nextF_congr_enough (turn := pathStep m) (turn' := pathStep m') (K := PathSt.Under m i)
    (μ := fun st' => turns m (maxDeg m) st'.stack) (μ' := fun st' => turns m' (maxDeg m') st'.stack)
    (J := StackLive m) (J' := StackLive m')
    (fun st1 o st2 hb hs => turns_decr wf st1 o st2 hb hs) (fun st1 o st2 hb hs => turns_decr wf' st1 o st2 hb hs)
    (fun st1 hk => pathStep_congr h h' st1 hk) (fun st1 o st2 hk hs => pathStep_under st1 o st2 hk hs) hu
    (hu.live wf h) (PathSt.Under.live wf' h' fun j hj => h.reach h' (hu j hj))

theorem pathNext_under {st st' : PathSt} {o : Option (AMap String Nat)} (hu : st.Under m i)
    (h : pathNext m st = some (o, st')) : st'.Under m i :=
  Enum.nextF_keep (fun s1 o1 s2 hk hs => pathStep_under s1 o1 s2 hk hs) _ st o st' hu h

theorem pathNext_idle {st st' : PathSt} (h : pathNext m st = some (none, st')) :
    pathNext m st' = some (none, st') :=
  Enum.nextF_done (Enum.nextF_idle _ st st' h) _

theorem pathNew_under {z : ZNd} {ss : List Int} {st : PathSt} (h : pathNew z ss = some st) : st.Under m z.node := by
  unfold pathNew at h
  split at h
  · cases h
  · cases h
    intro j hj
    simp only [List.mem_singleton, SV.node.injEq] at hj
    rw [hj]; exact .refl _

end Zma

/-! ## Calls -/

namespace ZMRel
variable {w w' : ZMWorld} {vs : List (String × Nat)}

theorem give_grow {rev : Bool} {vars : List (String × Nat)} {r : Nat} {e : Zmdd} {h : Nat}
    (st : Ext w.mgr.eng.arena e.arena) (hg : w.give rev vars (some (r, e)) = some (h, w')) :
    w.mgr.eng.arena.Grow w'.mgr.eng.arena := by
  unfold ZMWorld.give Wr.wrap at hg
  simp only at hg
  split at hg
  · cases hg
  · rename_i r1 m hw
    cases hg
    split at hw
    · cases hw
    · rename_i m1 hm
      cases hw
      unfold Wr.maybeGc at hm
      split at hm
      · cases hm; exact ⟨_, st, rfl, rfl⟩
      · split at hm
        · cases hm
        · rename_i n e' hg
          cases hm
          have hg : e.gc _ = some (n, e') := hg
          unfold Zmdd.gc at hg
          split at hg
          · cases hg
          · rename_i hga
            split at hg <;> cases hg
            obtain ⟨h1, h2⟩ := gcA_slots hga
            exact ⟨_, st, h1, h2⟩

theorem op2_grow (R : ZMRel w vs) {op : Zmdd → Nat → Nat → Option (Nat × Zmdd)} {C : Prop → Prop → Prop}
    (hop : ∀ s f g, Zmdd.Inv s → s.arena.Live f → s.arena.Live g →
      Zmdd.Ok s (Max.max (s.arena.rank f) (s.arena.rank g))
        (fun a v => C (Lab s.arena f a (some v)) (Lab s.arena g a (some v))) (op s f g)) {f g : Nat}
    {o : ZMOut} (h : w.op2 op f g = some (o, w')) : w.mgr.eng.arena.Grow w'.mgr.eng.arena := by
  unfold ZMWorld.op2 ZMWorld.on1 at h
  split at h
  · cases h
  · rename_i x hx
    split at h
    · cases h
    · rename_i y hy
      obtain ⟨F, hF⟩ := R.held hx
      obtain ⟨G, hG⟩ := R.held hy
      obtain ⟨r, s', h1, h2, h3, h4, h5, h6⟩ := hop w.mgr.eng x.node y.node R.ok.inv hF.2.live hG.2.live
      simp only [h1] at h
      rw [Option.map_eq_some_iff] at h
      obtain ⟨p, hp, e⟩ := h
      cases e
      exact give_grow h3.toExt hp

theorem step_grow (R : ZMRel w vs) {c : ZMCmd} {o : ZMOut} (h : w.step c = some (o, w')) :
    w.mgr.eng.arena.Grow w'.mgr.eng.arena := by
  cases c with
  | intersect f g => exact R.op2_grow (C := And) (fun s f g hs lf lg => Zmdd.intersect_ok hs lf lg) h
  | setdiff f g => exact R.op2_grow (C := fun p q => p ∧ ¬ q) (fun s f g hs lf lg => Zmdd.setdiff_ok hs lf lg) h
  | size => cases h; exact .refl _
  | labels f =>
    simp only [ZMWorld.step, ZMWorld.on1] at h
    split at h
    · cases h
    · obtain ⟨n, _, h⟩ := Option.map_eq_some_iff.1 h; cases h; exact .refl _
  | count ss f =>
    simp only [ZMWorld.step, ZMWorld.on1] at h
    split at h
    · cases h
    · obtain ⟨n, _, h⟩ := Option.map_eq_some_iff.1 h; cases h; exact .refl _
  | extractLevel v f =>
    simp only [ZMWorld.step, ZMWorld.on1] at h
    split at h
    · cases h
    · obtain ⟨n, _, h⟩ := Option.map_eq_some_iff.1 h; cases h; exact .refl _
  | _ => simp only [ZMWorld.step, ZMWorld.on1] at h; split at h <;> cases h; exact .refl _

theorem convert_grow (R : ZMRel w vs) {e : Mtmdd2} {x : MNode} (he : Mtmdd2.Inv e) (hh : e.mdd.arena.headers = mkH vs)
    (lx : e.MLive x) {top : Bool} {b : Int} {vars : List (String × Nat)} {h : Nat}
    (hc : w.convert e x top vars b = some (h, w')) : w.mgr.eng.arena.Grow w'.mgr.eng.arena := by
  obtain ⟨r, dst, h1, h2, h3, h4, h5, h6⟩ := toZmdd_ok he hh R.ok.inv R.hdr lx top
  obtain ⟨r', s', k1, k2, k3, k4, k5, k6⟩ := Zmdd.setBaseline_ok h2 h5 b
  unfold ZMWorld.convert at hc
  simp only [h1, k1] at hc
  exact give_grow (h3.trans k3.toExt) hc

end ZMRel

namespace MssW
variable {w w' : MssW}

/-- A call, without its result. -/
def after (w : MssW) (c : MssCmd) : Option MssW := (w.step c).map (·.2)

/-- `minpath` and `mincut` on both sides. -/
theorem sol_grow {vs : List (String × Nat)} (R : MssRel w vs) {top : Bool} {f : Nat} {o : MssOut}
    (h : w.sol top f = some (o, w')) :
    (∃ q, w.mdd.sol top f = some (q, w'.mdd)) ∧ w.z.mgr.eng.arena.Grow w'.z.mgr.eng.arena := by
  unfold MssW.sol at h
  split at h
  · rename_i x fake m hx hm
    obtain ⟨F, hF⟩ := R.m.mok.live (AMap.mem_vals_of_get hx)
    obtain ⟨o', m', k1, k2, k3, k4, k5, k6⟩ := R.m.sol top hx hF
    rw [hm] at k1; cases k1
    split at h
    · rename_i vars bl hv hb
      split at h
      · cases h; exact ⟨⟨_, hm⟩, .refl _⟩
      · rename_i r
        split at h
        · cases h
        · rename_i hh z hc
          cases h
          exact ⟨⟨_, hm⟩, R.z.convert_grow k2.mok.inv k2.mok.hdrs (k5 r rfl) hc⟩
    · cases h
  · cases h

theorem open_step {vs : List (String × Nat)} (R : MssRel w vs) {e0 : Mtmdd2} {f : Nat} {x : MNode}
    (h : w.mdd.Open e0 f x) {c : MssCmd} (hc : w.Checked c) (hne : c ≠ .mdd (.drop f)) {o : MssOut}
    (hs : w.step c = some (o, w')) : w'.mdd.Open e0 f x := by
  cases c with
  | mdd c =>
    simp only [MssW.step] at hs
    obtain ⟨p, h1, h2⟩ := Option.map_eq_some_iff.1 hs
    cases h2
    exact h.step hc (fun e => hne (by rw [e])) h1
  | zmdd c =>
    simp only [MssW.step] at hs
    obtain ⟨p, h1, h2⟩ := Option.map_eq_some_iff.1 hs
    cases h2
    exact h
  | minpath g =>
    obtain ⟨⟨q, h1⟩, _⟩ := sol_grow R (top := false) hs
    exact h.sol h1
  | mincut g =>
    obtain ⟨⟨q, h1⟩, _⟩ := sol_grow R (top := true) hs
    exact h.sol h1
  | clearCache =>
    simp only [MssW.step] at hs
    obtain ⟨p, h1, h2⟩ := Option.map_eq_some_iff.1 hs
    cases h2
    exact h.step (c := .clearCache) trivial (by simp) h1

theorem z_grow {vs : List (String × Nat)} (R : MssRel w vs) {c : MssCmd} {o : MssOut} (hs : w.step c = some (o, w')) :
    w.z.mgr.eng.arena.Grow w'.z.mgr.eng.arena := by
  cases c with
  | mdd c =>
    simp only [MssW.step] at hs
    obtain ⟨p, h1, h2⟩ := Option.map_eq_some_iff.1 hs
    cases h2
    exact .refl _
  | zmdd c =>
    simp only [MssW.step] at hs
    obtain ⟨p, h1, h2⟩ := Option.map_eq_some_iff.1 hs
    cases h2
    exact R.z.step_grow h1
  | minpath g => exact (sol_grow R (top := false) hs).2
  | mincut g => exact (sol_grow R (top := true) hs).2
  | clearCache =>
    simp only [MssW.step] at hs
    obtain ⟨p, h1, h2⟩ := Option.map_eq_some_iff.1 hs
    cases h2
    exact .refl _

theorem weave_mdd (hw : w.Reachable) {f : Nat} {st : Mda.PathSt} {ss : List Int}
    (hx : w.mdd.extract f = some st) {os : List (AMap String Nat)} (hy : Enum.Yields (w.mdd.next ss f) st os)
    {as : List (Enum.Act MssCmd)}
    (hg : Enum.Goes after (fun w c => w.Checked c ∧ c ≠ .mdd (.drop f)) w (Enum.calls as) w') :
    ∃ st', Enum.weave after (fun w => w.mdd.next ss f) w st as =
      some (Enum.answers os (Enum.nexts as), w', st') := by
  obtain ⟨vs, R⟩ := hw.rel
  refine MWorld.weave_gen (pr := MssW.mdd) (P := fun v => v.Reachable) R.m hx hy hw ?_ hg
  rintro v c v1 x hv h ⟨h1, h2⟩ h3
  unfold after at h3
  rw [Option.map_eq_some_iff] at h3
  obtain ⟨⟨o, v2⟩, h3, e⟩ := h3
  cases e
  obtain ⟨vs1, R1⟩ := hv.rel
  exact ⟨.step c hv h1 h3, open_step R1 h h1 h2 h3⟩

theorem weave_zmdd (hw : w.Reachable) {f : Nat} {st : Zma.PathSt} {ss : List Int}
    (hx : w.z.extract ss f = some st) {os : List (AMap String Nat)} (hy : Enum.Yields w.z.next st os)
    {as : List (Enum.Act MssCmd)}
    (hg : Enum.Goes after (fun w c => w.Checked c ∧ c ≠ .zmdd (.drop f)) w (Enum.calls as) w') :
    ∃ st', Enum.weave after (fun w => w.z.next) w st as =
      some (Enum.answers os (Enum.nexts as), w', st') := by
  obtain ⟨vs, R⟩ := hw.rel
  unfold ZMWorld.extract ZMWorld.on1 at hx
  split at hx
  · cases hx
  · rename_i z hz
    obtain ⟨F, hF⟩ := R.z.held hz
    have s0 := shape_of_live hF.2.live
    refine Enum.weave_ok (next := fun w : MssW => w.z.next) (w0 := w)
      (J := fun v => v.Reachable ∧ v.z.hs.held.get f = some z ∧
        v.z.mgr.eng.arena.Shape z.node w.z.mgr.eng.arena.view)
      (K := Zma.PathSt.Under w.z.mgr.eng.arena z.node) ?_ ?_ ?_ ?_ as w st os w'
      ⟨hw, hz, s0⟩ (Zma.pathNew_under hx) hy hg
    · rintro v c v1 ⟨hv, hz1, hs1⟩ ⟨h1, h2⟩ h3
      unfold after at h3
      rw [Option.map_eq_some_iff] at h3
      obtain ⟨⟨o, v2⟩, h3, e⟩ := h3
      cases e
      obtain ⟨vs1, R1⟩ := hv.rel
      obtain ⟨P, hP⟩ := R1.z.held hz1
      obtain ⟨_, _, R2, _, k⟩ := R1.of_step h1 h3
      have hP' := k f z P hP h2
      exact ⟨.step c hv h1 h3, hP'.1, (z_grow R1 h3).shape R1.z.ok.inv.wf hs1 hP'.2.live⟩
    · rintro v s ⟨hv, hz1, hs1⟩ hk
      obtain ⟨vs1, R1⟩ := hv.rel
      exact Zma.pathNext_congr R.z.ok.inv.wf R1.z.ok.inv.wf s0 hs1 hk
    · exact fun s o s' hk hn => Zma.pathNext_under hk hn
    · exact fun s s' hn => Zma.pathNext_idle hn

end MssW
end DD
