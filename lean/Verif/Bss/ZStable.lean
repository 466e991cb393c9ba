import Verif.Bss.BssStep
import Verif.Bss.Stable
import Verif.Core.Shape

/-!
# Calls do not touch the nodes under a held ZDD handle

Structural counterpart of `ZSession`: it tracks slots instead of families, so it also covers the ZDD manager inside a
`BssMgr`, where diagrams are not canonical.
-/

set_option autoImplicit false
set_option linter.unusedSectionVars false
set_option linter.unusedVariables false

namespace DD
open Arena Zdd

/-- The wrapper facts with the shape under a node as its meaning. -/
def zS : EngI Zdd Nat (Nat → Look T3) (List Header) zops where
  inv := Inv
  den e k X := e.arena.Shape k X
  hdr e := e.arena.headers
  gc_ok e roots hi hr := by
    obtain ⟨n, s', h1, h2, h3, h4, h5, _⟩ := Zdd.gc_ok hi (roots := roots)
      (fun r hr' _ => by obtain ⟨X, hX⟩ := hr r hr'; exact hX.1)
    exact ⟨n, s', h1, h2, h3, fun k hk X hX => hX.purge ((h5 k).2 (Or.inr ⟨k, hk, hX.1.1, .refl _⟩)) h4 h3⟩

/-- Structural manager invariant. -/
structure ZStr (m : ZddMgr) (L : List Nat) : Prop where
  ok : Wr.OK zS m.w L
  vars : ∀ s h, m.vars.get s = some h → ∃ hd, m.w.eng.arena.headers[h]? = some hd

/-- An engine result: invariant, nothing lost, a live node. -/
def EOk (s : Zdd) (res : Option (Nat × Zdd)) : Prop :=
  ∃ r s', res = some (r, s') ∧ Inv s' ∧ Ext s.arena s'.arena ∧ s'.arena.Live r

theorem EOk.ret {s : Zdd} (hs : Inv s) {i : Nat} (hi : s.arena.Live i) : EOk s (some (i, s)) :=
  ⟨i, s, rfl, hs, Ext.refl _, hi⟩

theorem Ok2.eok {P : Arena T3 → Nat → Nat → Nat → Prop} {s : Zdd} {f g : Nat} {res : Option (Nat × Zdd)}
    (h : Ok2 P s f g res) : EOk s res := by
  obtain ⟨r, s', h1, h2, h3, h4, _⟩ := h
  exact ⟨r, s', h1, h2, h3.toExt, h4⟩

namespace ZStr
variable {m : ZddMgr} {L : List Nat}

theorem live (h : ZStr m L) {i : Nat} (hi : i ∈ L) : m.w.eng.arena.Live i := by
  obtain ⟨X, hX⟩ := h.ok.live i hi; exact hX.1

theorem keep_ext {s s' : Zdd} (hs : Inv s) (e : Ext s.arena s'.arena) : zS.Keep s s' := fun k X h => h.ext hs.wf e

theorem wrap (h : ZStr m L) {res : Option (Nat × Zdd)} (hr : EOk m.w.eng res) :
    ∃ r m', m.wrap res = some (r, m') ∧ ZStr m' (r :: L) ∧ zS.KeepL L m.w.eng m'.w.eng := by
  obtain ⟨r, e, rfl, h1, h2, h3⟩ := hr
  obtain ⟨w, k1, k2, k3, k4, k5⟩ := h.ok.wrap (r := r) (e := e) h1 (keep_ext h.ok.inv h2) (shape_of_live h3)
  refine ⟨r, { m with w := w }, by simp only [ZddMgr.wrap, k1], ⟨k2, fun s x hx => ?_⟩, k5⟩
  obtain ⟨hd, hh⟩ := h.vars s x hx
  refine ⟨hd, ?_⟩
  show w.eng.arena.headers[x]? = _
  rw [show w.eng.arena.headers = e.arena.headers from k3]
  exact h2.hdr _ _ hh

theorem unpin {i : Nat} (h : ZStr m (i :: L)) : ZStr (m.unpin i) L := ⟨h.ok.unpin, h.vars⟩

theorem congr (h : ZStr m L) {L' : List Nat} (e : ∀ k, L.count k = L'.count k) : ZStr m L' := ⟨h.ok.congr e, h.vars⟩

theorem empty (h : ZStr m L) : ∃ r m', m.empty = some (r, m') ∧ ZStr m' (r :: L) ∧ zS.KeepL L m.w.eng m'.w.eng :=
  h.wrap (.ret h.ok.inv (fixed h.ok.inv .zero).1)

theorem base (h : ZStr m L) : ∃ r m', m.base = some (r, m') ∧ ZStr m' (r :: L) ∧ zS.KeepL L m.w.eng m'.w.eng :=
  h.wrap (.ret h.ok.inv (fixed h.ok.inv .one).1)

theorem header (h : ZStr m L) (x : String) :
    ∃ k m', m.header x = (k, m') ∧ ZStr m' L ∧ (∃ hd, m'.w.eng.arena.headers[k]? = some hd) ∧
      zS.Keep m.w.eng m'.w.eng := by
  unfold ZddMgr.header
  cases hg : m.vars.get x with
  | some k => exact ⟨k, m, rfl, h, h.vars x k hg, fun _ _ h => h⟩
  | none =>
    simp only
    obtain ⟨h1, h2, h3, h4, h5, h6⟩ := createHeader_inv h.ok.inv m.vars.len x
    generalize m.w.eng.createHeader m.vars.len x = hb at h1 h2 h3 h4 h5 h6
    obtain ⟨k, e⟩ := hb
    simp only at h1 h2 h3 h4 h5 h6
    have keep := keep_ext h.ok.inv h2
    refine ⟨_, _, rfl, ⟨h.ok.eng h1 keep, fun s j hj => ?_⟩, ⟨_, h3⟩, keep⟩
    have hj : (m.vars.insert x k).get s = some j := hj
    rw [AMap.get_insert] at hj
    split at hj
    · cases hj; exact ⟨_, h3⟩
    · obtain ⟨hd, hh⟩ := h.vars s j hj
      exact ⟨hd, h2.hdr _ _ hh⟩

theorem singleton (h : ZStr m L) (x : String) :
    ∃ r m', m.singleton x = some (r, m') ∧ ZStr m' (r :: L) ∧ zS.KeepL L m.w.eng m'.w.eng := by
  obtain ⟨k, m1, h1, h2, ⟨hd, h3⟩, h4⟩ := h.header x
  have hz := fixed h2.ok.inv .zero
  have ho := fixed h2.ok.inv .one
  obtain ⟨r, s', e1, e2, e3, e4, _⟩ := createNode_ok h2.ok.inv h3 hz.1 (by rw [rank_term hz.2]; omega) ho.1
    (by rw [rank_term ho.2]; omega)
  obtain ⟨r', m2, g1, g2, g3⟩ := h2.wrap ⟨r, s', e1, e2, e3.toExt, e4⟩
  refine ⟨r', m2, by simp only [ZddMgr.singleton, h1]; exact g1, g2, ?_⟩
  exact fun j hj X hX => g3 j hj X (h4 j X hX)

theorem fromSet (xs : List String) : ∀ {m : ZddMgr} {L : List Nat} {fam : Nat}, ZStr m (fam :: L) →
    ∃ r m', m.fromSet fam xs = some (r, m') ∧ ZStr m' (r :: L) ∧ zS.KeepL L m.w.eng m'.w.eng := by
  induction xs with
  | nil => exact fun {m L fam} h => ⟨fam, m, rfl, h, fun _ _ _ h => h⟩
  | cons x xs ih =>
    intro m L fam h
    obtain ⟨single, m1, g1, g2, g3⟩ := h.singleton x
    obtain ⟨r, m2, k1, k2, k3⟩ := g2.wrap
      (Ok2.eok (product_ok g2.ok.inv (g2.live (i := fam) (by simp)) (g2.live (i := single) (by simp))))
    have k2' : ZStr m2 (fam :: single :: r :: L) := k2.congr (fun j => by simp only [List.count_cons]; omega)
    obtain ⟨r', m3, l1, l2, l3⟩ := ih k2'.unpin.unpin (fam := r)
    refine ⟨r', m3, by simp only [ZddMgr.fromSet, g1, k1]; exact l1, l2, fun j hj X hX => ?_⟩
    exact l3 j hj X (k3 j (by simp [hj]) X (g3 j (by simp [hj]) X hX))

theorem fromSetsLoop (ss : List (List String)) : ∀ {m : ZddMgr} {L : List Nat} {result : Nat},
    ZStr m (result :: L) →
    ∃ r m', m.fromSetsLoop result ss = some (r, m') ∧ ZStr m' (r :: L) ∧ zS.KeepL L m.w.eng m'.w.eng := by
  induction ss with
  | nil => exact fun {m L result} h => ⟨result, m, rfl, h, fun _ _ _ h => h⟩
  | cons s ss ih =>
    intro m L result h
    obtain ⟨fam, m1, a1, a2, a3⟩ := h.base
    obtain ⟨fam', m2, b1, b2, b3⟩ := fromSet s a2
    obtain ⟨r, m3, k1, k2, k3⟩ := b2.wrap
      (Ok2.eok (union_ok b2.ok.inv (b2.live (i := result) (by simp)) (b2.live (i := fam') (by simp))))
    have k2' : ZStr m3 (result :: fam' :: r :: L) := k2.congr (fun j => by simp only [List.count_cons]; omega)
    obtain ⟨r', m4, l1, l2, l3⟩ := ih k2'.unpin.unpin (result := r)
    refine ⟨r', m4, by simp only [ZddMgr.fromSetsLoop, a1, b1, k1]; exact l1, l2, fun j hj X hX => ?_⟩
    exact l3 j hj X (k3 j (by simp [hj]) X (b3 j (by simp [hj]) X (a3 j (by simp [hj]) X hX)))

theorem fromSets (h : ZStr m L) (ss : List (List String)) :
    ∃ r m', m.fromSets ss = some (r, m') ∧ ZStr m' (r :: L) ∧ zS.KeepL L m.w.eng m'.w.eng := by
  obtain ⟨r, m1, h1, h2, h3⟩ := h.empty
  obtain ⟨r', m2, k1, k2, k3⟩ := fromSetsLoop ss h2
  exact ⟨r', m2, by simp only [ZddMgr.fromSets, h1]; exact k1, k2,
    fun j hj X hX => k3 j hj X (h3 j hj X hX)⟩

end ZStr

/-- Structural invariant of a session. -/
structure ZHeld (w : ZWorld) : Prop where
  str : ZStr w.mgr w.hs.held.vals
  hs : w.hs.Ok

/-- Handle `f` keeps its node and what is under it. -/
def ZKeeps (w w' : ZWorld) (f : Nat) : Prop :=
  ∀ i X, w.hs.held.get f = some i → w.mgr.w.eng.arena.Shape i X →
    w'.hs.held.get f = some i ∧ w'.mgr.w.eng.arena.Shape i X

theorem ZKeeps.refl (w : ZWorld) (f : Nat) : ZKeeps w w f := fun _ _ h1 h2 => ⟨h1, h2⟩

namespace ZHeld
variable {w w' : ZWorld}

theorem give (H : ZHeld w) {res : Option (Nat × ZddMgr)}
    (hr : ∃ r m, res = some (r, m) ∧ ZStr m (r :: w.hs.held.vals) ∧ zS.KeepL w.hs.held.vals w.mgr.w.eng m.w.eng)
    {o : ZOut} (h : w.give res = some (o, w')) : ZHeld w' ∧ ∀ f, ZKeeps w w' f := by
  obtain ⟨r, m, rfl, h1, h2⟩ := hr
  cases h
  refine ⟨⟨?_, H.hs.give r⟩, fun f i X hi hX => ⟨H.hs.give_old r hi, h2 i (AMap.mem_vals_of_get hi) X hX⟩⟩
  show ZStr m (w.hs.give r).held.vals
  rw [H.hs.vals_give]
  exact h1

theorem op2 (H : ZHeld w) {op : Zdd → Nat → Nat → Option (Nat × Zdd)}
    (hop : ∀ i j, w.mgr.w.eng.arena.Live i → w.mgr.w.eng.arena.Live j → EOk w.mgr.w.eng (op w.mgr.w.eng i j))
    {f g : Nat} {o : ZOut} (h : w.op2 op f g = some (o, w')) : ZHeld w' ∧ ∀ f, ZKeeps w w' f := by
  unfold ZWorld.op2 at h
  split at h
  · rename_i i j hi hj
    exact H.give (H.str.wrap (hop i j (H.str.live (AMap.mem_vals_of_get hi)) (H.str.live (AMap.mem_vals_of_get hj)))) h
  · cases h

theorem pin (H : ZHeld w) {i : Nat} (hi : w.mgr.w.eng.arena.Live i) :
    ZStr { w.mgr with w := w.mgr.w.pin i } (i :: w.hs.held.vals) :=
  ⟨H.str.ok.pin (shape_of_live hi), H.str.vars⟩

/-- A call keeps every handle it does not drop. -/
theorem step (H : ZHeld w) {c : ZCmd} {o : ZOut} (h : w.step c = some (o, w')) :
    ZHeld w' ∧ ∀ f, c ≠ .drop f → ZKeeps w w' f := by
  have all : (ZHeld w' ∧ ∀ f, ZKeeps w w' f) → ZHeld w' ∧ ∀ f, c ≠ .drop f → ZKeeps w w' f :=
    fun h => ⟨h.1, fun f _ => h.2 f⟩
  have inv := H.str.ok.inv
  have same : w' = w → ZHeld w' ∧ ∀ f, ZKeeps w w' f := by
    rintro rfl; exact ⟨H, fun f => .refl _ f⟩
  cases c with
  | empty => exact all (H.give H.str.empty h)
  | base => exact all (H.give H.str.base h)
  | singleton x => exact all (H.give (H.str.singleton x) h)
  | fromSets ss => exact all (H.give (H.str.fromSets ss) h)
  | union f g => exact all (H.op2 (fun i j hi hj => Ok2.eok (union_ok inv hi hj)) h)
  | intersect f g => exact all (H.op2 (fun i j hi hj => Ok2.eok (intersect_ok inv hi hj)) h)
  | setdiff f g => exact all (H.op2 (fun i j hi hj => Ok2.eok (setdiff_ok inv hi hj)) h)
  | product f g => exact all (H.op2 (fun i j hi hj => Ok2.eok (product_ok inv hi hj)) h)
  | divide f g => exact all (H.op2 (fun i j hi hj => Ok2.eok (divide_ok inv hi hj)) h)
  | clone f =>
    simp only [ZWorld.step] at h
    split at h
    · rename_i i hi
      exact all (H.give ⟨i, _, rfl, H.pin (H.str.live (AMap.mem_vals_of_get hi)), fun _ _ _ h => h⟩ h)
    · cases h
  | drop f =>
    simp only [ZWorld.step] at h
    split at h
    · rename_i i hi
      cases h
      refine ⟨⟨⟨?_, H.str.vars⟩, H.hs.drop f⟩, fun g hg j X hj hX => ⟨?_, hX⟩⟩
      · have := Wr.OK.dropHandle (P := []) H.hs (by simpa using H.str.ok) hi
        rw [List.append_nil] at this
        exact this
      · show (w.hs.drop f).held.get g = _
        rw [Hs.drop_get (fun e => hg (by rw [e]))]; exact hj
    · cases h
  | children f =>
    simp only [ZWorld.step] at h
    split at h
    · cases h
    · rename_i i hi
      split at h
      · rename_i hh lo hi' hn
        cases h
        have li := H.str.live (AMap.mem_vals_of_get hi)
        have r1 := inv.wf.reach_live (.step (.refl i) hn (c := lo) (by simp)) li
        have r2 := inv.wf.reach_live (.step (.refl i) hn (c := hi') (by simp)) li
        obtain ⟨H1, k1⟩ := H.give (w' := ⟨{ w.mgr with w := w.mgr.w.pin lo }, w.hs.give lo⟩)
          ⟨lo, _, rfl, H.pin r1, fun _ _ _ h => h⟩ rfl
        obtain ⟨H2, k2⟩ := H1.give
          (w' := ⟨{ w.mgr with w := (w.mgr.w.pin lo).pin hi' }, (w.hs.give lo).give hi'⟩)
          ⟨hi', _, rfl, H1.pin r2, fun _ _ _ h => h⟩ rfl
        refine all ⟨H2, fun f j X hj hX => ?_⟩
        obtain ⟨a1, a2⟩ := k1 f j X hj hX
        exact k2 f j X a1 a2
      · cases h
      · cases h; exact all (same rfl)
  | setThreshold n =>
    cases h
    exact all ⟨⟨⟨H.str.ok.threshold n, H.str.vars⟩, H.hs⟩, fun f i X h1 h2 => ⟨h1, h2⟩⟩
  | clearCache =>
    cases h
    exact all ⟨⟨⟨H.str.ok.eng (clearCache_inv inv) (fun _ _ h => h), H.str.vars⟩, H.hs⟩,
      fun f i X h1 h2 => ⟨h1, h2⟩⟩
  | eq f g =>
    simp only [ZWorld.step] at h
    split at h
    · cases h; exact all (same rfl)
    · cases h
  | isZero f | isOne f =>
    simp only [ZWorld.step] at h
    split at h
    · rw [Option.map_eq_some_iff] at h
      obtain ⟨_, _, e⟩ := h
      cases e; exact all (same rfl)
    · cases h
  | header f | level f | label f =>
    simp only [ZWorld.step] at h
    split at h
    · cases h; exact all (same rfl)
    · cases h

end ZHeld

theorem ZStr.of_ok {m : ZddMgr} {L : List Nat} (h : Wr.OK zI m.w L)
    (hv : ∀ s h, m.vars.get s = some h → ∃ hd, m.w.eng.arena.headers[h]? = some hd) : ZStr m L :=
  ⟨⟨h.inv, h.roots, fun k hk => by
    obtain ⟨V, hV⟩ := h.live k hk
    exact ⟨_, shape_of_live hV.live⟩⟩, hv⟩

theorem ZWorld.held_new : ZHeld ZWorld.new where
  str := ⟨⟨inv_new, rootsOK_empty, by intro k hk; cases hk⟩, by intro s h hs; cases hs⟩
  hs := Hs.ok_empty

theorem ZWorld.Reachable.zheld {w : ZWorld} (hw : w.Reachable) : ZHeld w := by
  induction hw with
  | new => exact ZWorld.held_new
  | step c _ h ih => exact (ih.step h).1

/-! ### The iterator reads only nodes under its handle -/

namespace Zdd

/-- All nodes on the stack are under `i`. -/
def ZPath.Under (m : Arena T3) (i : Nat) (st : ZPath) : Prop := ∀ j, ZStack.node j ∈ st.stack → Reach m i j

theorem zpathStep_under {m : Arena T3} {i : Nat} {st st' : ZPath} {o : Option (List String)} (hs : st.Under m i)
    (h : zpathStep m st = some (some (o, st'))) : st'.Under m i := by
  unfold zpathStep at h
  split at h
  · cases h
  · rename_i x rest hst
    cases h
    exact fun j hj => hs j (by rw [hst]; exact List.mem_cons_of_mem _ hj)
  · rename_i rest hst
    cases h
    exact fun j hj => hs j (by rw [hst]; exact List.mem_cons_of_mem _ hj)
  · rename_i k rest hst
    have hrest : ∀ j, ZStack.node j ∈ rest → Reach m i j := fun j hj =>
      hs j (by rw [hst]; exact List.mem_cons_of_mem _ hj)
    have hk : Reach m i k := hs k (by rw [hst]; exact List.mem_cons_self)
    split at h
    · cases h
    · cases h; exact hrest
    · rename_i hh lo hi hn
      split at h
      · cases h
      · cases h
        intro j hj
        simp only [List.mem_cons, reduceCtorEq, false_or, ZStack.node.injEq] at hj
        rcases hj with rfl | rfl | hj
        · exact .step hk hn (by simp)
        · exact .step hk hn (by simp)
        · exact hrest j hj
    · cases h

theorem zpathStep_congr {m m' : Arena T3} {i : Nat} {X : Nat → Look T3} (h1 : m.Shape i X) (h2 : m'.Shape i X)
    {st : ZPath} (hs : st.Under m i) : zpathStep m' st = zpathStep m st := by
  unfold zpathStep
  split
  · rfl
  · rfl
  · rfl
  · rename_i k rest hst
    obtain ⟨e1, e2, e3⟩ := h1.same h2 (hs k (by rw [hst]; exact List.mem_cons_self))
    simp only [e1, e3]

theorem zturns_congr {m m' : Arena T3} {i : Nat} {X : Nat → Look T3} (h1 : m.Shape i X) (h2 : m'.Shape i X) :
    ∀ stack : List ZStack, (∀ j, ZStack.node j ∈ stack → Reach m i j) → zturns m' stack = zturns m stack := by
  intro stack
  induction stack with
  | nil => intro _; rfl
  | cons a stack ih =>
    intro hs
    have ih := ih fun j hj => hs j (List.mem_cons_of_mem _ hj)
    cases a with
    | push x => simp only [zturns, ih]
    | pop => simp only [zturns, ih]
    | node k =>
      obtain ⟨e1, e2, e3⟩ := h1.same h2 (hs k List.mem_cons_self)
      simp only [zturns, ih, rank, e2]

theorem zpathNext_congr {m m' : Arena T3} {i : Nat} {X : Nat → Look T3} (h1 : m.Shape i X) (h2 : m'.Shape i X)
    {st : ZPath} (hs : st.Under m i) : zpathNext m' st = zpathNext m st := by
  unfold zpathNext
  rw [zturns_congr h1 h2 _ hs]
  exact Enum.nextF_congr (K := ZPath.Under m i) (fun s hs => zpathStep_congr h1 h2 hs)
    (fun s o s' hs h => zpathStep_under hs h) _ st hs

theorem zpathNext_under {m : Arena T3} {i : Nat} {st st' : ZPath} {o : Option (List String)} (hs : st.Under m i)
    (h : zpathNext m st = some (o, st')) : st'.Under m i :=
  Enum.nextF_keep (K := ZPath.Under m i) (fun s o s' hs h => zpathStep_under hs h) _ st o st' hs h

theorem zpathNext_idle {m : Arena T3} {st st' : ZPath} (h : zpathNext m st = some (none, st')) :
    zpathNext m st' = some (none, st') :=
  Enum.nextF_done (Enum.nextF_idle _ _ _ h) _

theorem zpathNew_under (m : Arena T3) (i : Nat) (ss : List Bool) : (zpathNew i ss).Under m i := by
  intro j hj
  simp only [zpathNew, List.mem_cons, List.not_mem_nil, or_false, ZStack.node.injEq] at hj
  rw [hj]
  exact .refl _

end Zdd

namespace ZWorld

/-- A call, without its answer. -/
def after (w : ZWorld) (c : ZCmd) : Option ZWorld := (w.step c).map (·.2)

/-- Calls made while an iterator over handle `f` is open do not change its results. -/
theorem weave_path {w w' : ZWorld} (H : ZHeld w) {ss : List Bool} {f : Nat} {st : ZPath}
    (hx : w.extract ss f = some st) {os : List (List String)} (hy : Enum.Yields w.next st os)
    {as : List (Enum.Act ZCmd)} (hg : Enum.Goes after (fun w c => c ≠ .drop f) w (Enum.calls as) w') :
    ∃ st', Enum.weave after next w st as = some (Enum.answers os (Enum.nexts as), w', st') := by
  unfold extract at hx
  split at hx
  · cases hx
  · rename_i i hi
    cases hx
    have h0 := shape_of_live (H.str.live (AMap.mem_vals_of_get hi))
    refine Enum.weave_ok (w0 := w)
      (J := fun v => ZHeld v ∧ v.hs.held.get f = some i ∧ v.mgr.w.eng.arena.Shape i w.mgr.w.eng.arena.view)
      (K := ZPath.Under w.mgr.w.eng.arena i) ?_ ?_ ?_ ?_ as w _ os w'
      ⟨H, hi, h0⟩ (zpathNew_under _ _ _) hy hg
    · rintro v c v1 ⟨h1, h2, h3⟩ h4 h5
      unfold after at h5
      rw [Option.map_eq_some_iff] at h5
      obtain ⟨⟨o, v2⟩, h6, rfl⟩ := h5
      obtain ⟨k1, k2⟩ := h1.step h6
      exact ⟨k1, k2 f h4 i _ h2 h3⟩
    · rintro v s ⟨_, _, h⟩ hs
      exact zpathNext_congr h0 h hs
    · exact fun s o s' hs h => zpathNext_under hs h
    · exact fun s s' h => zpathNext_idle h

end ZWorld

end DD
