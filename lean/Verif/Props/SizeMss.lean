import Verif.Mtmdd2.Size
import Verif.Props.MssAnalysis

/-!
# Property C74 for MDDs: sizes of results, and no garbage
-/

set_option autoImplicit false
set_option linter.unusedSectionVars false
set_option linter.unusedVariables false

namespace DD
open Mtmdd2

namespace MMOK
variable {m m' : MddMgr} {vs : List (String × Nat)} {L : List MNode}

/-- Wrapping a result keeps both node arrays and adds no node. -/
theorem wrap_live (h : MMOK m vs L) {r : MNode} {e : Mtmdd2} (he : Inv e) (st : St m.w.eng e) (hr : e.MLive r)
    {r' : MNode} (hw : m.wrap (some (r, e)) = some (r', m')) :
    r' = r ∧ Inv m'.w.eng ∧ St m'.w.eng e := by
  obtain ⟨V, hV⟩ := MDen.of_live he hr
  have ok := (h.ok.eng he (fun k x hx => hx.ext h.inv st.ext2)).pin (k := r) hV
  unfold MddMgr.wrap Wr.wrap at hw
  simp only at hw
  cases hm : Wr.maybeGc mops ({ m.w with eng := e }.pin r) with
  | none => rw [hm] at hw; cases hw
  | some w1 =>
    rw [hm] at hw
    cases hw
    unfold Wr.maybeGc at hm
    split at hm
    · cases hm; exact ⟨rfl, he, St.refl e⟩
    · split at hm
      · cases hm
      · rename_i n e1 he1
        cases hm
        have lv : ∀ k, k ∈ ({ m.w with eng := e }.pin r : Wr Mtmdd2 MNode).gc.roots.keys → e.MLive k := fun k hk => by
          obtain ⟨x, hx⟩ := ok.live k (ok.roots.mem_keys.1 hk)
          exact (show MDen e k x from hx).live
        obtain ⟨n', s', h1, h2, _, _, _, _, _, h8, _⟩ := Mtmdd2.gc_ok he (fun r hr _ => lv (.value r) hr)
          (fun r hr _ => lv (.bool r) hr)
        have h0 : (match e.gc ({ m.w with eng := e }.pin r : Wr Mtmdd2 MNode).gc.roots.keys with
          | none => none
          | some (n, e') => some (n.1 + n.2, e')) = some (n, e1) := he1
        rw [h1] at h0
        cases h0
        exact ⟨rfl, h2, h8⟩

end MMOK

namespace Props

variable {w w' : MWorld} {vs : List (String × Nat)}

/-- The number of nodes of a handle: non-terminals and terminals as reported by `size`. -/
def MNodes (w : MWorld) (f k : Nat) : Prop := ∃ n t e, w.nodeSize f = some (n, t, e) ∧ k = n + t

theorem sizeSpec_list {T : Type} {m : Arena T} {i n t e : Nat} (h : SizeSpec m i (n, t, e)) (hl : ∀ j, Arena.Reach m i j → m.Live j) :
    ∃ L : List Nat, L.Nodup ∧ (∀ j, j ∈ L ↔ Arena.Reach m i j) ∧ L.length = n + t := by
  obtain ⟨A, B, h1, h2, h3, h4, h5⟩ := h
  cases h5
  refine ⟨A ++ B, List.nodup_append.2 ⟨h1, h2, fun a ha b hb e => ?_⟩, fun j => ?_, List.length_append⟩
  · subst e
    obtain ⟨_, _, _, q1⟩ := (h3 a).1 ha
    obtain ⟨_, _, q2⟩ := (h4 a).1 hb
    rw [q1] at q2; cases q2
  · rw [List.mem_append, h3, h4]
    constructor
    · rintro (h | h) <;> exact h.1
    · intro h
      obtain ⟨n, hn⟩ := (hl j h).node
      cases n with
      | term t => exact .inr ⟨h, t, hn⟩
      | nt a b => exact .inl ⟨h, a, b, hn⟩

theorem mnodes_list (hw : w.Reachable) {f k : Nat} {x : MNode} (hf : w.hs.held.get f = some x) (h : MNodes w f k) :
    ∃ L : List MNode, L.Nodup ∧ (∀ y, y ∈ L ↔ w.mgr.w.eng.MReach x y) ∧ L.length = k := by
  obtain ⟨vs, R⟩ := hw.rel
  obtain ⟨F, _, y, hy, hD⟩ := R.has hf
  rw [hf] at hy; cases hy
  obtain ⟨r, h1, h2, h3⟩ := C40_size hw hf
  obtain ⟨n, t, e, h4, rfl⟩ := h
  rw [h1] at h4; cases h4
  cases x with
  | value i =>
    obtain ⟨L, a1, a2, a3⟩ := sizeSpec_list (h2 i rfl) (fun j hj => R.mok.inv.v.wf.reach_live hj hD.live)
    refine ⟨L.map .value, a1.map (fun _ _ e => by cases e; rfl), fun y => ?_, by simp [a3]⟩
    cases y with
    | value j => simp only [List.mem_map, MNode.value.injEq, exists_eq_right]; exact a2 j
    | bool j => simp [MReach]
  | bool i =>
    obtain ⟨L, a1, a2, a3⟩ := sizeSpec_list (h3 i rfl) (fun j hj => R.mok.inv.b.wf.reach_live hj hD.live)
    refine ⟨L.map .bool, a1.map (fun _ _ e => by cases e; rfl), fun y => ?_, by simp [a3]⟩
    cases y with
    | bool j => simp only [List.mem_map, MNode.bool.injEq, exists_eq_right]; exact a2 j
    | value j => simp [MReach]

/-- **C74.** A handle whose function is computed pointwise from those of other handles has at most as many nodes
as there are tuples of nodes of the others. -/
theorem C74_mdd_size (hw : w.Reachable) (hv : MVars w vs) {f k : Nat} {F : MFun} (hf : w.Has f F) (hk : MNodes w f k)
    {gs ks : List Nat} {Gs : List MFun} (hg : List.Forall₂ w.Has gs Gs) (hks : List.Forall₂ (MNodes w) gs ks)
    (hdet : ∀ a b, ValidV vs a → ValidV vs b → (∀ G ∈ Gs, G a = G b) → F a = F b) : k ≤ ks.prod := by
  have R := mrel hw hv
  obtain ⟨x, h1, h2⟩ := hf
  obtain ⟨Lr, n1, n2, rfl⟩ := mnodes_list hw h1 hk
  have key : ∃ is Ls, List.Forall₂ (MDen w.mgr.w.eng) is Gs ∧
      List.Forall₂ (fun g L => ∀ j, w.mgr.w.eng.MReach g j → j ∈ L) is Ls ∧ Ls.map List.length = ks := by
    clear hdet
    induction hg generalizing ks with
    | nil => cases hks; exact ⟨[], [], .nil, .nil, rfl⟩
    | cons d1 _ ih =>
      cases hks with
      | cons e1 e2 =>
        obtain ⟨is, Ls, a1, a2, a3⟩ := ih e2
        obtain ⟨y, b1, b2⟩ := d1
        obtain ⟨L, c1, c2, c3⟩ := mnodes_list hw b1 e1
        exact ⟨y :: is, L :: Ls, .cons b2 a1, .cons (fun x hx => (c2 x).2 hx) a2, by simp [a3, c3]⟩
  obtain ⟨is, Ls, a1, a2, rfl⟩ := key
  exact mreach_le R.mok.inv R.mok.inj h2 a1
    (fun a b ha hb => hdet a b (R.mok.valid.1 ha) (R.mok.valid.1 hb)) n1 (fun j hj => (n2 j).1 hj) a2

/-- **C74.** Two handles whose functions determine each other pointwise have the same number of nodes. -/
theorem C74_mdd_same_size (hw : w.Reachable) (hv : MVars w vs) {f g k l : Nat} {F G : MFun} (hf : w.Has f F)
    (hg : w.Has g G) (hk : MNodes w f k) (hl : MNodes w g l)
    (h : ∀ a b, ValidV vs a → ValidV vs b → (F a = F b ↔ G a = G b)) : k = l := by
  have h1 := C74_mdd_size hw hv hf hk (.cons hg .nil) (.cons hl .nil)
    (fun a b ha hb e => (h a b ha hb).2 (e G (List.mem_singleton.2 rfl)))
  have h2 := C74_mdd_size hw hv hg hl (.cons hf .nil) (.cons hk .nil)
    (fun a b ha hb e => (h a b ha hb).1 (e F (List.mem_singleton.2 rfl)))
  simp at h1 h2
  omega

/-- The calls made of one recursion: all but the equality of Booleans and `neq`, `lte`, `gte` of values. -/
def MSingle (w : MWorld) : MCmd → Prop
  | .not _ => True
  | .bin o f _ => ∀ x, w.hs.held.get f = some x → o.single x.isBool = true
  | .ite _ _ _ => True
  | _ => False

/-- What the result of such a call is before it is wrapped. -/
theorem msingle_spec (R : MRel w vs) {c : MCmd} (hc : MSingle w c) {o : MOut} (hs : w.step c = some (o, w')) :
    ∃ r e, w.give (w.mgr.wrap (some (r, e))) = some (o, w') ∧ Inv e ∧ St w.mgr.w.eng e ∧ e.MLive r ∧
      MClean w.mgr.w.eng e r := by
  have hi := R.mok.inv
  have key : ∀ {res : Option (MNode × Mtmdd2)} {Φ : (Nat → Nat) → MVal → Prop},
      w.give (w.mgr.wrap res) = some (o, w') → MOk w.mgr.w.eng Φ res →
      (∀ r e, res = some (r, e) → MClean w.mgr.w.eng e r) →
      ∃ r e, w.give (w.mgr.wrap (some (r, e))) = some (o, w') ∧ Inv e ∧ St w.mgr.w.eng e ∧ e.MLive r ∧
        MClean w.mgr.w.eng e r := by
    rintro res Φ h1 ⟨r, e, rfl, h2, h3, h4, _⟩ h5
    exact ⟨r, e, h1, h2, h3, h4, h5 r e rfl⟩
  have live : ∀ {f x}, w.hs.held.get f = some x → w.mgr.w.eng.MLive x := fun h => by
    obtain ⟨F, _, y, hy, hD⟩ := R.has h
    rw [h] at hy; cases hy; exact hD.live
  cases c <;> first | exact hc.elim | skip
  case not f =>
    simp only [MWorld.step, MWorld.on1] at hs
    split at hs
    · cases hs
    · rename_i x e1
      exact key hs (not_m hi (live e1)) fun r e h => not_clean hi (live e1) h
  case bin b f g =>
    simp only [MWorld.step, MWorld.on1] at hs
    split at hs
    · cases hs
    · rename_i x e1
      split at hs
      · cases hs
      · rename_i y e2
        exact key hs (bin_ok hi b (live e1) (live e2)) fun r e h => bin_clean hi (hc x e1) (live e1) (live e2) h
  case ite f g k =>
    simp only [MWorld.step, MWorld.on1] at hs
    split at hs
    · cases hs
    · rename_i x e1
      split at hs
      · cases hs
      · rename_i y e2
        split at hs
        · cases hs
        · rename_i z e3
          by_cases hk : y.isBool = z.isBool
          · exact key hs (ite_m hi (live e1) (live e2) (live e3) hk)
              fun r e h => ite_clean hi (live e1) (live e2) (live e3) h
          · have : w.mgr.w.eng.ite x y z = none := by
              cases x <;> cases y <;> cases z <;> first | rfl | exact absurd rfl hk
            rw [this] at hs; cases hs

/-- **C74.** After `not`, `ite` and the two-operand calls made of one recursion, whether or not a collection ran,
every node in use, of either kind, was in use before the call or belongs to the diagram of the result. -/
theorem C74_mdd_no_garbage (hw : w.Reachable) {c : MCmd} (hc : MSingle w c) {o : MOut} (hs : w.step c = some (o, w')) :
    ∃ h r, o = .handle h ∧ w'.hs.held.get h = some r ∧
      ∀ x, w'.mgr.w.eng.MLive x → w.mgr.w.eng.MLive x ∨ w'.mgr.w.eng.MReach r x := by
  obtain ⟨vs, R⟩ := hw.rel
  obtain ⟨r, e, h1, h2, h3, h4, h5⟩ := msingle_spec R hc hs
  unfold MWorld.give at h1
  split at h1
  · cases h1
  · rename_i r' m' hm
    cases h1
    obtain ⟨V, hV⟩ := MDen.of_live h2 h4
    obtain ⟨rfl, k2, k3⟩ := R.mok.wrap_live h2 h3 h4 hm
    obtain ⟨r2, m2, V2, q1, q2, q3, _⟩ := R.mok.wrap (Φ := fun _ _ => True) ⟨r', e, rfl, h2, h3, h4, fun _ _ _ _ => trivial⟩
    rw [hm] at q1; cases q1
    refine ⟨_, r', rfl, by simp [Hs.give], fun x hx => ?_⟩
    rcases h5 x (mlive_ext k3.ext2 hx) with h | h
    · exact .inl h
    · exact .inr (mreach_back k2 k3 q3.live h)

/-- The operands of a call and the number of diagrams its recursions produce. -/
def mparts : MCmd → Option (List Nat × Nat)
  | .not f => some ([f], 1)
  | .bin o f g => some ([f, g], if o = .eq ∨ o = .neq ∨ o = .gte ∨ o = .lte then 2 else 1)
  | .ite f g h => some ([f, g, h], 1)
  | _ => none

/-- No point is undetermined in the Boolean sense. -/
def Sharp (vs : List (String × Nat)) (F : MFun) : Prop := ∀ a, ValidV vs a → F a ≠ .b .undet

theorem T3.bool {x : T3} (hx : x ≠ .undet) : ∃ b, x = .ofBool b := by
  cases x
  · exact ⟨false, rfl⟩
  · exact ⟨true, rfl⟩
  · exact absurd rfl hx

theorem lift2_det {F : Bool → Bool → Bool} {x y t t' : T3} (hx : x ≠ .undet) (hy : y ≠ .undet) (h : lift2 F x y t)
    (h' : lift2 F x y t') : t = t' := by
  obtain ⟨b, rfl⟩ := T3.bool hx
  obtain ⟨c, rfl⟩ := T3.bool hy
  exact (h b c rfl rfl).trans (h' b c rfl rfl).symm

/-- On determined operands every operation but `lte` gives one result at each point. -/
theorem rel_det {o : M2Bin} (ho : o ≠ .lte) {x y z z' : MVal} (hx : x ≠ .b .undet) (hy : y ≠ .b .undet)
    (h : o.Rel x y z) (h' : o.Rel x y z') : z = z' := by
  cases x <;> cases y <;> cases o <;>
    first
    | exact absurd rfl ho
    | (simp only [M2Bin.Rel, M2Bin.boolRel, M2Bin.valRel] at h h'
       first
       | exact h.trans h'.symm
       | (obtain ⟨t, rfl, h⟩ := h
          obtain ⟨t', rfl, h'⟩ := h'
          rw [lift2_det (fun e => hx (by rw [e])) (fun e => hy (by rw [e])) h h']))

theorem notRel_det {x z z' : MVal} (hx : x ≠ .b .undet) (h : notRel x z) (h' : notRel x z') : z = z' := by
  cases x with
  | v x => exact h.trans h'.symm
  | b x =>
    obtain ⟨b, rfl⟩ := T3.bool (x := x) (fun e => hx (by rw [e]))
    obtain ⟨t, rfl, h⟩ := h
    obtain ⟨t', rfl, h'⟩ := h'
    rw [h b rfl, h' b rfl]

theorem iteRel_det {x y w z z' : MVal} (hx : x ≠ .b .undet) (h : iteRel x y w z) (h' : iteRel x y w z') : z = z' := by
  cases x with
  | v x => cases y <;> cases w <;> first | exact h.trans h'.symm | exact h.elim
  | b x =>
    obtain ⟨b, rfl⟩ := T3.bool (x := x) (fun e => hx (by rw [e]))
    cases y <;> cases w <;> first | exact h.elim | skip
    all_goals
      obtain ⟨t, rfl, h1, h2⟩ := h
      obtain ⟨t', rfl, h3, h4⟩ := h'
      cases b
      · rw [h2 rfl, h4 rfl]
      · rw [h1 rfl, h3 rfl]

/-- The diagrams a call leaves in the engine before its result is wrapped: every new node belongs to one of `rs`, and
each of them is determined pointwise by the operands. -/
def Leaves (s s' : Mtmdd2) (is rs : List MNode) : Prop :=
  (∀ r ∈ rs, s'.MLive r ∧ ∀ Gs, List.Forall₂ (MDen s') is Gs →
    (∀ G ∈ Gs, ∀ a, s'.ValidA a → G a ≠ .b .undet) → ∀ F, MDen s' r F →
    ∀ a b, s'.ValidA a → s'.ValidA b → (∀ G ∈ Gs, G a = G b) → F a = F b) ∧
  ∀ x, s'.MLive x → s.MLive x ∨ ∃ r ∈ rs, s'.MReach r x

theorem holds_det {s : Mtmdd2} {o : M2Bin} (ho : o ≠ .lte) {f g r : MNode} (h : s.Holds o f g r) :
    s.MLive r ∧ ∀ Gs, List.Forall₂ (MDen s) [f, g] Gs → (∀ G ∈ Gs, ∀ a, s.ValidA a → G a ≠ .b .undet) →
      ∀ F, MDen s r F → ∀ a b, s.ValidA a → s.ValidA b → (∀ G ∈ Gs, G a = G b) → F a = F b := by
  refine ⟨h.1, fun Gs hG hS F hF a b ha hb e => ?_⟩
  cases hG with
  | cons d1 d2 =>
    cases d2 with
    | cons d2 d3 =>
      cases d3
      rename_i F1 F2
      have k1 := h.2 a ha _ (hF.val a ha) _ _ (d1.val a ha) (d2.val a ha)
      have k2 := h.2 b hb _ (hF.val b hb) _ _ (d1.val b hb) (d2.val b hb)
      rw [← e F1 (by simp), ← e F2 (by simp)] at k2
      exact rel_det ho (hS F1 (by simp) a ha) (hS F2 (by simp) a ha) k1 k2

/-- What such a call leaves. -/
theorem mparts_spec (R : MRel w vs) {c : MCmd} {fs : List Nat} {n : Nat} (hc : mparts c = some (fs, n)) {o : MOut}
    (hs : w.step c = some (o, w')) :
    ∃ r e is rs, w.give (w.mgr.wrap (some (r, e))) = some (o, w') ∧ Inv e ∧ St w.mgr.w.eng e ∧ e.MLive r ∧
      List.Forall₂ (fun f i => w.hs.held.get f = some i) fs is ∧ rs.length ≤ n ∧ Leaves w.mgr.w.eng e is rs := by
  have hi := R.mok.inv
  have live : ∀ {f x}, w.hs.held.get f = some x → w.mgr.w.eng.MLive x := fun h => by
    obtain ⟨F, _, y, hy, hD⟩ := R.has h
    rw [h] at hy; cases hy; exact hD.live
  cases c <;> first | (cases hc; done) | skip
  case not f =>
    cases hc
    simp only [MWorld.step, MWorld.on1] at hs
    split at hs
    · cases hs
    · rename_i x e1
      obtain ⟨r, e, h1, h2, h3, h4, h5⟩ := not_m hi (live e1)
      rw [h1] at hs
      refine ⟨r, e, [x], [r], hs, h2, h3, h4, .cons e1 .nil, le_refl _, ?_, fun y hy =>
        (not_clean hi (live e1) h1 y hy).imp id fun h => ⟨r, by simp, h⟩⟩
      intro q hq
      cases List.mem_singleton.1 hq
      refine ⟨h4, fun Gs hG hS F hF a b ha hb eq => ?_⟩
      cases hG with
      | cons d1 d2 =>
        cases d2
        rename_i F1
        have k1 := h5 a ha _ (hF.val a ha) _ ((meval_ext hi h3.ext2 (live e1)).1 (d1.val a ha))
        have k2 := h5 b hb _ (hF.val b hb) _ ((meval_ext hi h3.ext2 (live e1)).1 (d1.val b hb))
        rw [← eq F1 (by simp)] at k2
        exact notRel_det (hS F1 (by simp) a ha) k1 k2
  case bin b f g =>
    cases hc
    simp only [MWorld.step, MWorld.on1] at hs
    split at hs
    · cases hs
    · rename_i x e1
      split at hs
      · cases hs
      · rename_i y e2
        have ok := bin_ok hi b (live e1) (live e2)
        obtain ⟨r, e, h1, h2, h3, h4, _⟩ := id ok
        rw [h1] at hs ok
        by_cases hb : b = .eq ∨ b = .neq ∨ b = .gte ∨ b = .lte
        · rw [if_pos hb]
          obtain ⟨o1, o2, r1, r2, n1, n2, k1, k2, k3⟩ := bin_two hi (live e1) (live e2) h1
          refine ⟨r, e, [x, y], [r1, r2], hs, h2, h3, h4, .cons e1 (.cons e2 .nil), le_refl _, ?_, fun z hz =>
            (k3 z hz).imp id ?_⟩
          · intro q hq
            rcases List.mem_cons.1 hq with rfl | hq
            · exact holds_det n1 k1
            · cases List.mem_singleton.1 hq; exact holds_det n2 k2
          · rintro (h | h)
            · exact ⟨r1, by simp, h⟩
            · exact ⟨r2, by simp, h⟩
        · rw [if_neg hb]
          have sg : b.single x.isBool = true := by
            cases b <;> first | rfl | (exfalso; exact hb (by simp))
          obtain ⟨_, _, k1⟩ := MOk.holds hi (live e1) (live e2) ok
          refine ⟨r, e, [x, y], [r], hs, h2, h3, h4, .cons e1 (.cons e2 .nil), le_refl _, ?_, fun z hz =>
            (bin_clean hi sg (live e1) (live e2) h1 z hz).imp id fun h => ⟨r, by simp, h⟩⟩
          intro q hq
          cases List.mem_singleton.1 hq
          exact holds_det (fun e => hb (by simp [e])) k1
  case ite f g k =>
    cases hc
    simp only [MWorld.step, MWorld.on1] at hs
    split at hs
    · cases hs
    · rename_i x e1
      split at hs
      · cases hs
      · rename_i y e2
        split at hs
        · cases hs
        · rename_i z e3
          by_cases hk : y.isBool = z.isBool
          · obtain ⟨r, e, h1, h2, h3, h4, h5⟩ := ite_m hi (live e1) (live e2) (live e3) hk
            rw [h1] at hs
            refine ⟨r, e, [x, y, z], [r], hs, h2, h3, h4, .cons e1 (.cons e2 (.cons e3 .nil)), le_refl _, ?_,
              fun u hu => (ite_clean hi (live e1) (live e2) (live e3) h1 u hu).imp id fun h => ⟨r, by simp, h⟩⟩
            intro q hq
            cases List.mem_singleton.1 hq
            refine ⟨h4, fun Gs hG hS F hF a b ha hb eq => ?_⟩
            have dn : ∀ {i : MNode}, w.mgr.w.eng.MLive i → ∀ {G : MFun}, MDen e i G → ∀ a, e.ValidA a →
                w.mgr.w.eng.MEval a i (G a) :=
              fun l G hG a ha => (meval_ext hi h3.ext2 l).1 (hG.val a ha)
            cases hG with
            | cons d1 d2 =>
              cases d2 with
              | cons d2 d3 =>
                cases d3 with
                | cons d3 d4 =>
                  cases d4
                  rename_i F1 F2 F3
                  have k1 := h5 a ha _ (hF.val a ha) _ _ _ (dn (live e1) d1 a ha) (dn (live e2) d2 a ha) (dn (live e3) d3 a ha)
                  have k2 := h5 b hb _ (hF.val b hb) _ _ _ (dn (live e1) d1 b hb) (dn (live e2) d2 b hb) (dn (live e3) d3 b hb)
                  rw [← eq F1 (by simp), ← eq F2 (by simp), ← eq F3 (by simp)] at k2
                  exact iteRel_det (hS F1 (by simp) a ha) k1 k2
          · have : w.mgr.w.eng.ite x y z = none := by
              cases x <;> cases y <;> cases z <;> first | rfl | exact absurd rfl hk
            rw [this] at hs; cases hs

/-- The nodes of a node's diagram. -/
theorem reach_list {s : Mtmdd2} (hs : Inv s) {x : MNode} (lx : s.MLive x) :
    ∃ L : List MNode, L.Nodup ∧ ∀ y, y ∈ L ↔ s.MReach x y := by
  cases x with
  | value i =>
    obtain ⟨⟨_, _, _⟩, _, h⟩ := nodeSize_spec hs.v.wf lx
    obtain ⟨L, a1, a2, _⟩ := sizeSpec_list h (fun j hj => hs.v.wf.reach_live hj lx)
    refine ⟨L.map .value, a1.map (fun _ _ e => by cases e; rfl), fun y => ?_⟩
    cases y with
    | value j => simp only [List.mem_map, MNode.value.injEq, exists_eq_right]; exact a2 j
    | bool j => simp [MReach]
  | bool i =>
    obtain ⟨⟨_, _, _⟩, _, h⟩ := nodeSize_spec hs.b.wf lx
    obtain ⟨L, a1, a2, _⟩ := sizeSpec_list h (fun j hj => hs.b.wf.reach_live hj lx)
    refine ⟨L.map .bool, a1.map (fun _ _ e => by cases e; rfl), fun y => ?_⟩
    cases y with
    | bool j => simp only [List.mem_map, MNode.bool.injEq, exists_eq_right]; exact a2 j
    | value j => simp [MReach]

/-- **C74.** On operands without undetermined Boolean points, `not`, `ite` and the two-operand calls add at most as
many nodes as the product of the numbers of nodes of their operands; `eq`, `neq`, `gte` and `lte` twice as many. -/
theorem C74_mdd_growth (hw : w.Reachable) (hv : MVars w vs) {c : MCmd} {fs : List Nat} {n : Nat}
    (hc : mparts c = some (fs, n)) {o : MOut} (hs : w.step c = some (o, w'))
    (hS : ∀ f ∈ fs, ∀ F, w.Has f F → Sharp vs F) {ks : List Nat} (hk : List.Forall₂ (MNodes w) fs ks) :
    w'.mgr.w.eng.liveNodeCount ≤ w.mgr.w.eng.liveNodeCount + n * ks.prod := by
  have R := mrel hw hv
  have hi := R.mok.inv
  obtain ⟨r, e, is, rs, h1, h2, h3, h4, h5, h6, h7, h8⟩ := mparts_spec R hc hs
  unfold MWorld.give at h1
  split at h1
  · cases h1
  · rename_i r' m' hm
    cases h1
    obtain ⟨rfl, k2, k3⟩ := R.mok.wrap_live h2 h3 h4 hm
    have inj : e.mdd.arena.LevInj := by
      intro i j hd hd' a1 a2
      rw [h3.1.heq] at a1 a2
      exact R.mok.inj i j hd hd' a1 a2
    have val : ∀ {a}, e.ValidA a → ValidV vs a := fun ha => R.mok.valid.1 (h3.valid.1 ha)
    have key : ∃ Ls Gs, List.Forall₂ (MDen e) is Gs ∧ (∀ G ∈ Gs, ∀ a, e.ValidA a → G a ≠ .b .undet) ∧
        List.Forall₂ (fun g L => ∀ j, e.MReach g j → j ∈ L) is Ls ∧ Ls.map List.length = ks := by
      clear h6 h7 h8 hc hs
      induction h5 generalizing ks with
      | nil => cases hk; exact ⟨[], [], .nil, by simp, .nil, rfl⟩
      | cons d1 _ ih =>
        cases hk with
        | cons e1 e2 =>
          obtain ⟨Ls, Gs, a1, a2, a3, a4⟩ := ih (fun f hf => hS f (List.mem_cons_of_mem _ hf)) e2
          obtain ⟨L, c1, c2, c3⟩ := mnodes_list hw d1 e1
          obtain ⟨F, _, hF⟩ := R.has d1
          have sF := hS _ List.mem_cons_self F hF
          obtain ⟨y, hy, hD⟩ := hF
          rw [d1] at hy; cases hy
          refine ⟨L :: Ls, F :: Gs, .cons (hD.ext hi h3.ext2) a1, ?_,
            .cons (fun x hx => (c2 x).2 (mreach_back hi h3 hD.live hx)) a3, by simp [a4, c3]⟩
          intro G hG a ha
          rcases List.mem_cons.1 hG with rfl | hG
          · exact sF a (val ha)
          · exact a2 G hG a ha
    obtain ⟨Ls, Gs, g1, g2, g3, rfl⟩ := key
    have c1 : m'.w.eng.liveNodeCount ≤ e.liveNodeCount + ([] : List MNode).length :=
      mcount_le h2 k2 fun x hx => .inl (mlive_ext k3.ext2 hx)
    have big : ∃ M : List MNode, (∀ x, (∃ r ∈ rs, e.MReach r x) → x ∈ M) ∧
        M.length ≤ rs.length * (Ls.map List.length).prod := by
      clear h6 h8
      induction rs with
      | nil => exact ⟨[], by simp, by simp⟩
      | cons q rs ih =>
        obtain ⟨M, m1, m2⟩ := ih (fun r hr => h7 r (List.mem_cons_of_mem _ hr))
        obtain ⟨l1, l2⟩ := h7 q List.mem_cons_self
        obtain ⟨Lq, b1, b2⟩ := reach_list h2 l1
        obtain ⟨F, hF⟩ := MDen.of_live h2 l1
        have := mreach_le h2 inj hF g1 (l2 Gs g1 g2 F hF) b1 (fun j hj => (b2 j).1 hj) g3
        refine ⟨Lq ++ M, ?_, ?_⟩
        · rintro x ⟨p, hp, hx⟩
          rcases List.mem_cons.1 hp with rfl | hp
          · exact List.mem_append_left _ ((b2 x).2 hx)
          · exact List.mem_append_right _ (m1 x ⟨p, hp, hx⟩)
        · rw [List.length_append, List.length_cons, Nat.succ_mul]
          omega
    obtain ⟨M, m1, m2⟩ := big
    have c2 : e.liveNodeCount ≤ w.mgr.w.eng.liveNodeCount + M.length :=
      mcount_le hi h2 fun x hx => (h8 x hx).imp id (m1 x)
    have m3 := Nat.mul_le_mul_right (Ls.map List.length).prod h6
    simp only [List.length_nil] at c1
    show m'.w.eng.liveNodeCount ≤ _
    omega

/-! ## A concrete case

`manalysis` makes `x + y` for a ternary `x` and a binary `y` as handle 0; the constant 2 is made next, then `calls`. -/

/-- Nodes in use before and after the calls, and the number of nodes of the handle they give. -/
def msizes (calls : List MCmd) (h : Nat) : Option (Nat × Nat × Option (Nat × Nat × Nat)) :=
  match mrun MWorld.new (manalysis ++ [.value 2]) with
  | none => none
  | some p => (mrun p.2 calls).map fun q =>
      (p.2.mgr.w.eng.liveNodeCount, q.2.mgr.w.eng.liveNodeCount, q.2.nodeSize h)

-- `(x + y)²` has 7 nodes, 5 of them new, where the bound is 7 · 7
example : msizes [.bin .mul 0 0] 3 = some (18, 23, some (3, 4, 8)) := by decide +kernel

-- `x + y ≠ 2` is the negation of `x + y = 2`: of its 5 nodes the terminals are old, but 4 nodes are new
example : msizes [.bin .neq 0 2] 3 = some (18, 22, some (3, 2, 8)) := by decide +kernel

end Props
end DD
