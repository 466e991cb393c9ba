import Verif.Mss.ZmddRead

/-!
# Sessions of `ZmddNode` handles
-/

set_option autoImplicit false
set_option linter.unusedSectionVars false
set_option linter.unusedVariables false

namespace DD
open Arena Zmdd

/-- A family of labelled vectors, as distances from the baseline. -/
abbrev ZFam := (Nat → Nat) → Int → Prop

/-- Node `k` denotes the family `P`. -/
structure ZmDen (m : Arena (Option Int)) (k : Nat) (P : ZFam) : Prop where
  live : m.Live k
  val : ∀ d v, Lab m k d (some v) ↔ P d v

theorem ZmDen.ext {m m' : Arena (Option Int)} (wf : WF RZ m) (e : Ext m m') {k : Nat} {P : ZFam} (h : ZmDen m k P) :
    ZmDen m' k P := ⟨(e.keep k h.live).1, fun d v => (wf.lab_ext e h.live).trans (h.val d v)⟩

/-- Engine facts for the wrapper. -/
def zmI : EngI Zmdd Nat ZFam (List Header) zmOps where
  inv := Zmdd.Inv
  den e k P := ZmDen e.arena k P
  hdr e := e.arena.headers
  gc_ok := by
    intro e roots he hr
    obtain ⟨n, s', h1, h2, h3, h4, h5, h6, h7, h8⟩ := Zmdd.gc_ok he (roots := roots)
      (fun r hr' _ => by obtain ⟨P, hP⟩ := hr r hr'; exact hP.live)
    refine ⟨n, s', h1, h2, h3, fun k hk P hP => ?_⟩
    have lk : s'.arena.Live k := (h5 k).2 (Or.inr ⟨k, hk, hP.live.1, .refl _⟩)
    exact ⟨lk, fun d v => (h2.wf.lab_ext h6.toExt lk).symm.trans (hP.val d v)⟩

/-! ## The rank of a node is determined by its family -/

theorem Arena.WF.zmem {m : Arena (Option Int)} (wf : WF RZ m) : ∀ (n i : Nat), m.Live i → m.rank i ≤ n → i ≠ 0 →
    ∃ d v, Lab m i d (some v) := by
  intro n
  induction n with
  | zero =>
    intro i li hr hi
    obtain ⟨x, hn⟩ := li.node
    cases x with
    | term t =>
      cases t with
      | none =>
        obtain ⟨h1, h2⟩ := wf.fixed_live (t := (none : Option Int)) (i := 0) rfl
        exact absurd (wf.uniq li h1 hn h2) hi
      | some v => exact ⟨_, v, .term hn⟩
    | nt h ch =>
      obtain ⟨hd, _, _, hrk, _⟩ := wf.nt li hn
      omega
  | succ n ih =>
    intro i li hr hi
    obtain ⟨x, hn⟩ := li.node
    cases x with
    | term t =>
      cases t with
      | none =>
        obtain ⟨h1, h2⟩ := wf.fixed_live (t := (none : Option Int)) (i := 0) rfl
        exact absurd (wf.uniq li h1 hn h2) hi
      | some v => exact ⟨_, v, .term hn⟩
    | nt h ch =>
      obtain ⟨hd, hh, _, hrk, _, _, hk⟩ := wf.nt li hn
      obtain ⟨c, hc, hne⟩ := wf.red i h ch li hn
      have hc' := List.mem_of_mem_tail hc
      obtain ⟨d, v, hv⟩ := ih c (hk c hc').1 (by have := (hk c hc').2; omega) hne
      obtain ⟨k, hk'⟩ := List.mem_iff_getElem?.1 hc'
      exact ⟨_, v, .nt hn hh hk' hv⟩

theorem Arena.WF.zrank {m : Arena (Option Int)} (wf : WF RZ m) {i n : Nat} (li : m.Live i)
    (hs : ∀ d v, Lab m i d (some v) → ∀ l, n ≤ l → d l = 0) : m.rank i ≤ n := by
  obtain ⟨x, hn⟩ := li.node
  cases x with
  | term t => rw [rank_term hn]; omega
  | nt h ch =>
    obtain ⟨hd, hh, _, hrk, _, _, hk⟩ := wf.nt li hn
    obtain ⟨c, hc, hne⟩ := wf.red i h ch li hn
    have hc' := List.mem_of_mem_tail hc
    obtain ⟨d, v, hv⟩ := wf.zmem _ c (hk c hc').1 (Nat.le_refl _) hne
    match ch, hc with
    | c0 :: cs, hc =>
      obtain ⟨k, hk'⟩ := List.mem_iff_getElem?.1 hc
      have h1 : Lab m i (upd d hd.level (k + 1)) (some v) := .nt hn hh (by simpa using hk') hv
      rw [hrk]
      refine Nat.not_lt.1 fun hlt => ?_
      have := hs _ v h1 hd.level (by omega)
      rw [upd_self] at this
      omega

/-! ## World invariant -/

/-- Nothing is recorded at or above level `n`. -/
def ZBelow (n : Nat) (P : ZFam) : Prop := ∀ d v, P d v → ∀ l, n ≤ l → d l = 0

/-- World invariant; `vs` are the variables of the MDD manager next door. -/
structure ZMRel (w : ZMWorld) (vs : List (String × Nat)) : Prop where
  ok : Wr.OK zmI w.mgr (w.hs.held.vals.map ZNd.node)
  hdr : ZHdr vs w.mgr.eng.arena
  hs : w.hs.Ok
  nodup : (vs.map Prod.fst).Nodup
  pos : ∀ p ∈ vs, 0 < p.2
  vars : ∀ h z, w.hs.held.get h = some z → z.vars <+: vs ∧
    ZBelow z.vars.length (fun d v => Lab w.mgr.eng.arena z.node d (some v))

/-- Handle `h` is `z` and denotes `P`. -/
def ZMWorld.Has (w : ZMWorld) (h : Nat) (z : ZNd) (P : ZFam) : Prop :=
  w.hs.held.get h = some z ∧ ZmDen w.mgr.eng.arena z.node P

namespace ZMRel
variable {w : ZMWorld} {vs : List (String × Nat)}

theorem new : ZMRel ZMWorld.new [] where
  ok := ⟨Zmdd.inv_new, rootsOK_empty, by intro k h; cases h⟩
  hdr := by intro hd h; cases h
  hs := Hs.ok_empty
  nodup := List.nodup_nil
  pos := by intro p h; cases h
  vars := by intro h z hz; cases hz

theorem mono (R : ZMRel w vs) {vs' : List (String × Nat)} (hp : vs <+: vs') (nd : (vs'.map Prod.fst).Nodup)
    (pos : ∀ p ∈ vs', 0 < p.2) : ZMRel w vs' where
  ok := R.ok
  hdr hd hm := by
    obtain ⟨t, rfl⟩ := hp
    have := R.hdr hd hm
    rw [List.getElem?_append_left (List.getElem?_eq_some_iff.1 this).1]
    exact this
  hs := R.hs
  nodup := nd
  pos := pos
  vars h z hz := ⟨(R.vars h z hz).1.trans hp, (R.vars h z hz).2⟩

theorem held (R : ZMRel w vs) {h : Nat} {z : ZNd} (hz : w.hs.held.get h = some z) : ∃ P, w.Has h z P := by
  obtain ⟨P, hP⟩ := R.ok.live z.node (List.mem_map.2 ⟨z, AMap.mem_vals_of_get hz, rfl⟩)
  exact ⟨P, hz, hP⟩

theorem below (R : ZMRel w vs) {h : Nat} {z : ZNd} {P : ZFam} (hz : w.Has h z P) : ZBelow z.vars.length P := by
  intro d v hv
  exact (R.vars h z hz.1).2 d v ((hz.2.val d v).2 hv)

theorem unique {h : Nat} {z z' : ZNd} {P P' : ZFam} (hz : w.Has h z P) (hz' : w.Has h z' P') : z = z' ∧ P = P' := by
  have e : z = z' := by
    have := hz.1.symm.trans hz'.1
    cases this; rfl
  subst e
  refine ⟨rfl, ?_⟩
  funext d v
  exact propext ((hz.2.val d v).symm.trans (hz'.2.val d v))

theorem hok (R : ZMRel w vs) {h : Nat} {z : ZNd} (hz : w.hs.held.get h = some z) : Zma.HOk vs w.mgr.eng.arena z := by
  obtain ⟨P, hP⟩ := R.held hz
  exact ⟨hP.2.live, R.ok.inv.wf.zrank hP.2.live (R.vars h z hz).2, (R.vars h z hz).1⟩

/-- A new handle. -/
theorem give (R : ZMRel w vs) {r : Nat} {e : Zmdd} {P : ZFam} (hi : Zmdd.Inv e) (st : Ext w.mgr.eng.arena e.arena)
    (hh : ZHdr vs e.arena) (hd : ZmDen e.arena r P) (rev : Bool) {vars : List (String × Nat)} (hp : vars <+: vs)
    (hb : ZBelow vars.length P) :
    ∃ w', w.give rev vars (some (r, e)) = some (w.hs.next, w') ∧ ZMRel w' vs ∧ w'.Has w.hs.next ⟨r, rev, vars⟩ P ∧
      ∀ h z P, w.Has h z P → w'.Has h z P := by
  obtain ⟨m, k1, k2, k3, k4, k5⟩ := R.ok.wrap (r := r) (e := e) hi
    (fun k x hx => ZmDen.ext R.ok.inv.wf st hx) hd
  have k3 : m.eng.arena.headers = e.arena.headers := k3
  have k4 : ZmDen m.eng.arena r P := k4
  have keep : ∀ h z P, w.Has h z P → ZmDen m.eng.arena z.node P := by
    intro h z P hz
    exact k5 z.node (List.mem_map.2 ⟨z, AMap.mem_vals_of_get hz.1, rfl⟩) P hz.2
  refine ⟨⟨m, w.hs.give ⟨r, rev, vars⟩⟩, by simp only [ZMWorld.give, k1], ⟨?_, ?_, R.hs.give _, R.nodup, R.pos, ?_⟩,
    ⟨Hs.give_next _, k4⟩, ?_⟩
  · show Wr.OK zmI m ((w.hs.give ⟨r, rev, vars⟩).held.vals.map ZNd.node)
    rw [R.hs.vals_give]
    exact k2
  · exact hh.step k3
  · intro h z hz
    have hz : (w.hs.held.insert w.hs.next ⟨r, rev, vars⟩).get h = some z := hz
    rw [AMap.get_insert] at hz
    split at hz
    · cases hz
      exact ⟨hp, fun d v hv => hb d v ((k4.val d v).1 hv)⟩
    · obtain ⟨P', hP'⟩ := R.held hz
      refine ⟨(R.vars h z hz).1, fun d v hv => ?_⟩
      exact R.below hP' d v (((keep h z P' hP').val d v).1 hv)
  · intro h z P hz
    exact ⟨R.hs.give_old _ hz.1, keep h z P hz⟩

/-- Operand handles of a call. -/
def operands : ZMCmd → List Nat
  | .intersect f g | .setdiff f g => [f, g]
  | .clone f | .drop f | .getId f | .isCut f | .vars f | .labels f | .count _ f | .extractLevel _ f => [f]
  | .size => []

/-- What a call does. -/
def Post (w : ZMWorld) : ZMCmd → ZMOut → ZMWorld → Prop
  | .intersect f g, o, w' => ∃ zf F zg G r, w.Has f zf F ∧ w.Has g zg G ∧ o = .handle w.hs.next ∧
      w'.Has w.hs.next ⟨r, zf.reverse, zf.vars⟩ (fun d v => F d v ∧ G d v)
  | .setdiff f g, o, w' => ∃ zf F zg G r, w.Has f zf F ∧ w.Has g zg G ∧ o = .handle w.hs.next ∧
      w'.Has w.hs.next ⟨r, zf.reverse, zf.vars⟩ (fun d v => F d v ∧ ¬ G d v)
  | .clone f, o, w' => ∃ z F, w.Has f z F ∧ o = .handle w.hs.next ∧ w'.Has w.hs.next z F
  | .drop f, o, w' => o = .unit ∧ w'.hs = w.hs.drop f
  | .getId f, o, w' => w' = w ∧ ∃ z F, w.Has f z F ∧ o = .nat z.node
  | .isCut f, o, w' => w' = w ∧ ∃ z F, w.Has f z F ∧ o = .bool z.reverse
  | .vars f, o, w' => w' = w ∧ ∃ z F, w.Has f z F ∧ o = .vars z.vars
  | .labels f, o, w' => w' = w ∧ ∃ z F ls, w.Has f z F ∧ o = .labels ls ∧ ls.Pairwise (· < ·) ∧
      ∀ v, v ∈ ls ↔ ∃ d, F d v
  | .count ss f, o, w' => w' = w ∧ ∃ (z : ZNd) (F : ZFam) (ds : List (Nat → Nat)), w.Has f z F ∧ o = .nat ds.length ∧ ds.Nodup ∧
      ∀ d, d ∈ ds ↔ ∃ v ∈ ss, F d v
  | .extractLevel v f, o, w' => w' = w ∧ ∃ z F os ds, w.Has f z F ∧ o = .vectors os ∧ ds.Nodup ∧
      List.Forall₂ (Zma.Rep z.vars z.reverse) ds os ∧
      ∀ d, d ∈ ds ↔ (∃ u, Zma.Side z.reverse v u ∧ F d u) ∧
        ∀ d' u, Zma.Side z.reverse v u → F d' u → (∀ l, d' l ≤ d l) → d' = d
  | .size, o, w' => w' = w ∧ o = .quad w.mgr.eng.size

theorem op2 (R : ZMRel w vs) {op : Zmdd → Nat → Nat → Option (Nat × Zmdd)} {C : Prop → Prop → Prop}
    (hC : ∀ p q, C p q → p)
    (hop : ∀ s f g, Zmdd.Inv s → s.arena.Live f → s.arena.Live g →
      Zmdd.Ok s (Max.max (s.arena.rank f) (s.arena.rank g))
        (fun a v => C (Lab s.arena f a (some v)) (Lab s.arena g a (some v))) (op s f g)) {f g : Nat} {zf zg : ZNd}
    {F G : ZFam} (hf : w.Has f zf F) (hg : w.Has g zg G) :
    ∃ w' r, w.op2 op f g = some (.handle w.hs.next, w') ∧ ZMRel w' vs ∧
      w'.Has w.hs.next ⟨r, zf.reverse, zf.vars⟩ (fun d v => C (F d v) (G d v)) ∧
      ∀ h z P, w.Has h z P → w'.Has h z P := by
  obtain ⟨r, s', h1, h2, h3, h4, h5, h6⟩ := hop w.mgr.eng zf.node zg.node R.ok.inv hf.2.live hg.2.live
  have e : ∀ d v, Lab s'.arena r d (some v) ↔ C (F d v) (G d v) := by
    intro d v
    rw [h6]
    show C _ _ ↔ _
    rw [propext (hf.2.val d v), propext (hg.2.val d v)]
  obtain ⟨w', k1, k2, k3, k4⟩ := R.give h2 h3.toExt (R.hdr.step h3.heq) ⟨h4, e⟩ zf.reverse (R.vars f zf hf.1).1
    (fun d v hv => R.below hf d v (hC _ _ hv))
  refine ⟨w', r, ?_, k2, k3, k4⟩
  unfold ZMWorld.op2 ZMWorld.on1
  simp only [hf.1, hg.1, h1, k1, Option.map_some]

theorem step (R : ZMRel w vs) (c : ZMCmd) (hl : ∀ f ∈ operands c, ∃ z, w.hs.held.get f = some z) :
    ∃ o w', w.step c = some (o, w') ∧ Post w c o w' ∧ ZMRel w' vs ∧
      ∀ h z P, w.Has h z P → c ≠ .drop h → w'.Has h z P := by
  have one : ∀ f, f ∈ operands c → ∃ z F, w.Has f z F := by
    intro f hf
    obtain ⟨z, hz⟩ := hl f hf
    obtain ⟨F, hF⟩ := R.held hz
    exact ⟨z, F, hF⟩
  cases c with
  | intersect f g =>
    obtain ⟨zf, F, hF⟩ := one f (by simp [operands])
    obtain ⟨zg, G, hG⟩ := one g (by simp [operands])
    obtain ⟨w', r, h1, h2, h3, h4⟩ := R.op2 (C := And) (fun p q h => h.1)
      (fun s f g hs lf lg => Zmdd.intersect_ok hs lf lg) hF hG
    exact ⟨_, w', h1, ⟨zf, F, zg, G, r, hF, hG, rfl, h3⟩, h2, fun h z P hP _ => h4 h z P hP⟩
  | setdiff f g =>
    obtain ⟨zf, F, hF⟩ := one f (by simp [operands])
    obtain ⟨zg, G, hG⟩ := one g (by simp [operands])
    obtain ⟨w', r, h1, h2, h3, h4⟩ := R.op2 (C := fun p q => p ∧ ¬ q) (fun p q h => h.1)
      (fun s f g hs lf lg => Zmdd.setdiff_ok hs lf lg) hF hG
    exact ⟨_, w', h1, ⟨zf, F, zg, G, r, hF, hG, rfl, h3⟩, h2, fun h z P hP _ => h4 h z P hP⟩
  | clone f =>
    obtain ⟨z, F, hF⟩ := one f (by simp [operands])
    have key : ∀ h z' P, w.Has h z' P →
        (⟨w.mgr.pin z.node, w.hs.give z⟩ : ZMWorld).Has h z' P := fun h z' P hP => ⟨R.hs.give_old z hP.1, hP.2⟩
    refine ⟨.handle w.hs.next, ⟨w.mgr.pin z.node, w.hs.give z⟩, by simp only [ZMWorld.step, ZMWorld.on1, hF.1],
      ⟨z, F, hF, rfl, Hs.give_next z, hF.2⟩, ⟨?_, R.hdr, R.hs.give z, R.nodup, R.pos, ?_⟩, fun h z' P hP _ => key h z' P hP⟩
    · show Wr.OK zmI (w.mgr.pin z.node) ((w.hs.give z).held.vals.map ZNd.node)
      rw [R.hs.vals_give]
      exact R.ok.pin (k := z.node) hF.2
    · intro h z' hz'
      have hz' : (w.hs.held.insert w.hs.next z).get h = some z' := hz'
      rw [AMap.get_insert] at hz'
      split at hz'
      · cases hz'; exact R.vars f z hF.1
      · exact R.vars h z' hz'
  | drop f =>
    obtain ⟨z, F, hF⟩ := one f (by simp [operands])
    refine ⟨.unit, ⟨w.mgr.unpin z.node, w.hs.drop f⟩, by simp only [ZMWorld.step, ZMWorld.on1, hF.1], ⟨rfl, rfl⟩,
      ⟨?_, R.hdr, R.hs.drop f, R.nodup, R.pos, ?_⟩, ?_⟩
    · show Wr.OK zmI (w.mgr.unpin z.node) ((w.hs.drop f).held.vals.map ZNd.node)
      refine Wr.OK.unpin (R.ok.congr (fun j => ?_))
      have hperm : w.hs.held.vals.Perm (z :: (w.hs.drop f).held.vals) := by
        rw [List.perm_iff_count]
        intro y
        exact AMap.count_vals_remove R.hs.nodup hF.1 y
      exact (hperm.map ZNd.node).count_eq j
    · intro h z' hz'
      have hz' : (w.hs.held.remove f).get h = some z' := hz'
      rw [AMap.get_remove] at hz'
      split at hz'
      · cases hz'
      · exact R.vars h z' hz'
    · rintro h z' P hP hne
      refine ⟨?_, hP.2⟩
      show (w.hs.drop f).held.get h = _
      rw [Hs.drop_get (fun e => hne (by rw [e]))]; exact hP.1
  | getId f =>
    obtain ⟨z, F, hF⟩ := one f (by simp [operands])
    exact ⟨.nat z.node, w, by simp only [ZMWorld.step, ZMWorld.on1, hF.1], ⟨rfl, z, F, hF, rfl⟩, R, fun _ _ _ h _ => h⟩
  | isCut f =>
    obtain ⟨z, F, hF⟩ := one f (by simp [operands])
    exact ⟨.bool z.reverse, w, by simp only [ZMWorld.step, ZMWorld.on1, hF.1], ⟨rfl, z, F, hF, rfl⟩, R, fun _ _ _ h _ => h⟩
  | vars f =>
    obtain ⟨z, F, hF⟩ := one f (by simp [operands])
    exact ⟨.vars z.vars, w, by simp only [ZMWorld.step, ZMWorld.on1, hF.1], ⟨rfl, z, F, hF, rfl⟩, R, fun _ _ _ h _ => h⟩
  | labels f =>
    obtain ⟨z, F, hF⟩ := one f (by simp [operands])
    obtain ⟨ls, h1, h2, h3⟩ := Zma.labels_ok R.ok.inv.wf hF.2.live
    exact ⟨.labels ls, w, by simp only [ZMWorld.step, ZMWorld.on1, hF.1, h1, Option.map_some],
      ⟨rfl, z, F, ls, hF, rfl, h2, fun v => (h3 v).trans (exists_congr fun d => hF.2.val d v)⟩, R, fun _ _ _ h _ => h⟩
  | count ss f =>
    obtain ⟨z, F, hF⟩ := one f (by simp [operands])
    obtain ⟨n, ds, h1, h2, rfl⟩ := Zma.count_ok R.ok.inv.wf hF.2.live ss
    exact ⟨.nat ds.length, w, by simp only [ZMWorld.step, ZMWorld.on1, hF.1, h1, Option.map_some],
      ⟨rfl, z, F, ds, hF, rfl, h2.nodup, fun d => (h2.mem d).trans (exists_congr fun v =>
        and_congr_right fun _ => hF.2.val d v)⟩, R, fun _ _ _ h _ => h⟩
  | extractLevel v f =>
    obtain ⟨z, F, hF⟩ := one f (by simp [operands])
    obtain ⟨os, ds, h1, h2, h3, h4⟩ := Zma.extractLevel_ok R.ok.inv.wf R.hdr R.nodup R.pos (R.hok hF.1) v
    have e : (fun d v => Lab w.mgr.eng.arena z.node d (some v)) = F := by
      funext d v; exact propext (hF.2.val d v)
    refine ⟨.vectors os, w, by simp only [ZMWorld.step, ZMWorld.on1, hF.1, h1, Option.map_some],
      ⟨rfl, z, F, os, ds, hF, rfl, h2, h3, fun d => ?_⟩, R, fun _ _ _ h _ => h⟩
    subst e
    exact h4 d
  | size => exact ⟨_, w, rfl, ⟨rfl, rfl⟩, R, fun _ _ _ h _ => h⟩

theorem operands_of_step {c : ZMCmd} {q : ZMOut × ZMWorld} (h : w.step c = some q) :
    ∀ f ∈ operands c, ∃ z, w.hs.held.get f = some z := by
  have one : ∀ {f : Nat} {A : Type} {k : ZNd → Option A} {x : A}, w.on1 f k = some x → ∃ z, w.hs.held.get f = some z ∧
      k z = some x := by
    intro f A k x h
    unfold ZMWorld.on1 at h
    split at h
    · cases h
    · rename_i z hz; exact ⟨z, hz, h⟩
  have two : ∀ {f g : Nat} {op}, w.op2 op f g = some q → ∀ x ∈ [f, g], ∃ z, w.hs.held.get x = some z := by
    intro f g op h x hx
    obtain ⟨z, h1, h2⟩ := one h
    obtain ⟨z', h3, _⟩ := one h2
    simp only [List.mem_cons, List.not_mem_nil, or_false] at hx
    rcases hx with rfl | rfl
    · exact ⟨z, h1⟩
    · exact ⟨z', h3⟩
  cases c with
  | intersect f g => exact two h
  | setdiff f g => exact two h
  | size => intro f hf; cases hf
  | _ =>
    intro x hx
    simp only [operands, List.mem_singleton] at hx
    subst hx
    obtain ⟨z, h1, _⟩ := one h
    exact ⟨z, h1⟩

theorem clearCache (R : ZMRel w vs) : ZMRel w.clearCache vs :=
  ⟨R.ok.eng (Zmdd.clearCache_inv R.ok.inv) (fun _ _ h => h), R.hdr, R.hs, R.nodup, R.pos, R.vars⟩

/-- Conversion of a `minsol`/`maxsol` result. -/
theorem convert (R : ZMRel w vs) {e : Mtmdd2} {x : MNode} (he : Mtmdd2.Inv e) (hh : e.mdd.arena.headers = mkH vs)
    (lx : e.MLive x) (top : Bool) (b : Int) :
    ∃ w' r, w.convert e x top vs b = some (w.hs.next, w') ∧ ZMRel w' vs ∧
      w'.Has w.hs.next ⟨r, top, vs⟩ (fun d v => MLab top e x d v ∨
        (d = (fun _ => 0) ∧ v = b ∧ ∀ u, ¬ MLab top e x (fun _ => 0) u)) ∧
      ∀ h z P, w.Has h z P → w'.Has h z P := by
  obtain ⟨r, dst, h1, h2, h3, h4, h5, h6⟩ := toZmdd_ok he hh R.ok.inv R.hdr lx top
  obtain ⟨r', s', k1, k2, k3, k4, k5, k6⟩ := Zmdd.setBaseline_ok h2 h5 b
  have hden : ZmDen s'.arena r' (fun d v => MLab top e x d v ∨
        (d = (fun _ => 0) ∧ v = b ∧ ∀ u, ¬ MLab top e x (fun _ => 0) u)) := by
    refine ⟨k4, fun d v => ?_⟩
    rw [k6]
    unfold Zmdd.Based
    rw [h6]
    refine or_congr_right (and_congr_right fun _ => and_congr_right fun _ => forall_congr' fun u => ?_)
    rw [h6]
  have hb : ZBelow vs.length (fun d v => MLab top e x d v ∨
        (d = (fun _ => 0) ∧ v = b ∧ ∀ u, ¬ MLab top e x (fun _ => 0) u)) := by
    intro d v hv l hl
    rw [← hden.val] at hv
    have hz : ZHdr vs s'.arena := h4.step k3.heq
    have key : ∀ {i : Nat} {a : Nat → Nat} {t : Option Int}, Lab s'.arena i a t → a l = 0 := by
      intro i a t ha
      induction ha with
      | term => rfl
      | @nt i h ch hd k c a t _ hh _ _ ih =>
        rw [upd_ne _ _ (fun e => ?_)]
        · exact ih
        · have := hz hd (List.mem_of_getElem? hh)
          have := (List.getElem?_eq_some_iff.1 this).1
          omega
    exact key hv
  obtain ⟨w', g1, g2, g3, g4⟩ := R.give k2 (h3.trans k3.toExt) (h4.step k3.heq) hden top (List.prefix_rfl) hb
  refine ⟨w', r', ?_, g2, g3, g4⟩
  unfold ZMWorld.convert
  simp only [h1, k1, g1]

end ZMRel
end DD
