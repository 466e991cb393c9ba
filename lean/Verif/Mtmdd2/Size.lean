import Verif.Mtmdd2.Clean
import Verif.Core.Product
import Verif.Bdd.Size
import Verif.Mss.Refine

/-!
# Two forests: no garbage, and sizes of diagrams computed pointwise from others
-/

set_option autoImplicit false
set_option linter.unusedSectionVars false
set_option linter.unusedVariables false

namespace DD
open Arena

namespace Mtmdd2

/-- `y` belongs to the diagram of `x`. -/
def MReach (s : Mtmdd2) : MNode → MNode → Prop
  | .bool i, .bool j => Reach s.mdd.arena i j
  | .value i, .value j => Reach s.mtmdd.arena i j
  | _, _ => False

/-- Every node in use in `s'` was in use in `s` or belongs to the diagram of `r`. -/
def MClean (s s' : Mtmdd2) (r : MNode) : Prop := ∀ x, s'.MLive x → s.MLive x ∨ s'.MReach r x

theorem MClean.refl (s : Mtmdd2) (r : MNode) : MClean s s r := fun _ h => .inl h

theorem mclean_b {s s' : Mtmdd2} {r : Nat} (h : Clean s.mdd.arena s'.mdd.arena r)
    (h' : s'.mtmdd.arena = s.mtmdd.arena) : MClean s s' (.bool r) := by
  intro x hx
  cases x with
  | bool j => exact h j hx
  | value j =>
    left
    show s.mtmdd.arena.Live j
    rw [← h']
    exact hx

theorem mclean_v {s s' : Mtmdd2} {r : Nat} (h : Clean s.mtmdd.arena s'.mtmdd.arena r)
    (h' : s'.mdd.arena = s.mdd.arena) : MClean s s' (.value r) := by
  intro x hx
  cases x with
  | value j => exact h j hx
  | bool j =>
    left
    show s.mdd.arena.Live j
    rw [← h']
    exact hx

theorem liftB_clean {s s' : Mtmdd2} {res : Option (Nat × Mdd)} {r : MNode} (h : s.liftB res = some (r, s'))
    (hc : ∀ r b, res = some (r, b) → Clean s.mdd.arena b.arena r) : MClean s s' r := by
  unfold liftB at h
  split at h
  · cases h
  · cases h; exact mclean_b (hc _ _ rfl) rfl

theorem liftV_clean {s s' : Mtmdd2} {res : Option (Nat × Mtmdd)} {r : MNode} (h : s.liftV res = some (r, s'))
    (hc : ∀ r b, res = some (r, b) → Clean s.mtmdd.arena b.arena r) : MClean s s' r := by
  unfold liftV at h
  split at h
  · cases h
  · cases h; exact mclean_v (hc _ _ rfl) rfl

theorem cmp_clean {op : Nat} {p : Int → Int → Bool} (hop : cmpFn op = some p) {s s' : Mtmdd2} (hs : Inv s) {f g : Nat}
    {r : MNode} (lf : s.mtmdd.arena.Live f) (lg : s.mtmdd.arena.Live g) (h : tagB (cmp op p s f g) = some (r, s')) :
    MClean s s' r := by
  unfold tagB at h
  split at h
  · cases h
  · rename_i r1 s1 h1
    cases h
    have e : s'.mtmdd = s.mtmdd := cmpF_same op p s.mtmdd _ s (f, g) r1 s' rfl h1
    exact mclean_b (cmpF_clean hop _ s f g r1 s' hs lf lg (Nat.lt_succ_self _) h1) (by rw [e])

theorem vite_clean {s s' : Mtmdd2} (hs : Inv s) {f g k : Nat} {r : MNode} (lf : s.mdd.arena.Live f)
    (lg : s.mtmdd.arena.Live g) (lk : s.mtmdd.arena.Live k) (h : tagV (s.vite f g k) = some (r, s')) :
    MClean s s' r := by
  unfold tagV at h
  split at h
  · cases h
  · rename_i r1 s1 h1
    cases h
    have e : s'.mdd = s.mdd := viteF_same s.mdd _ s (f, g, k) r1 s' rfl h1
    exact mclean_v (viteF_clean _ s f g k r1 s' hs lf lg lk (Nat.lt_succ_self _) h1) (by rw [e])

theorem vif_clean {s s' : Mtmdd2} (hs : Inv s) {f g : Nat} {r : MNode} (lf : s.mdd.arena.Live f)
    (lg : s.mtmdd.arena.Live g) (h : tagV (s.vif f g) = some (r, s')) : MClean s s' r := by
  unfold tagV at h
  split at h
  · cases h
  · rename_i r1 s1 h1
    cases h
    have e : s'.mdd = s.mdd := vifF_same s.mdd _ s (f, g) r1 s' rfl h1
    exact mclean_v (vifF_clean _ s f g r1 s' hs lf lg (Nat.lt_succ_self _) h1) (by rw [e])

end Mtmdd2

/-- The two-operand operations made of one recursion over their operands, given the kind of the first operand.  The
others run two: `==` on Booleans and `!=`, `>=` on values negate a result, `<=` compares twice. -/
def M2Bin.single : M2Bin → Bool → Bool
  | .eq, k => !k
  | .neq, k => k
  | .lte, k => k
  | .gte, k => k
  | _, _ => true

namespace Mtmdd2

theorem routeB_clean {op : Mdd → Nat → Nat → Option (Nat × Mdd)} {s s' : Mtmdd2} {f g r : MNode}
    (h : routeB op s f g = some (r, s')) (hc : ∀ i j r b, f = .bool i → g = .bool j → op s.mdd i j = some (r, b) →
      Clean s.mdd.arena b.arena r) : MClean s s' r := by
  unfold routeB at h
  split at h
  · exact liftB_clean h fun r b => hc _ _ r b rfl rfl
  · cases h; exact MClean.refl _ _

theorem routeV_clean {op : Mtmdd → Nat → Nat → Option (Nat × Mtmdd)} {s s' : Mtmdd2} {f g r : MNode}
    (h : routeV op s f g = some (r, s')) (hc : ∀ i j r b, f = .value i → g = .value j → op s.mtmdd i j = some (r, b) →
      Clean s.mtmdd.arena b.arena r) : MClean s s' r := by
  unfold routeV at h
  split at h
  · exact liftV_clean h fun r b => hc _ _ r b rfl rfl
  · cases h; exact MClean.refl _ _

theorem bin_clean {s s' : Mtmdd2} (hs : Inv s) {o : M2Bin} {f g r : MNode} (ho : o.single f.isBool = true)
    (lf : s.MLive f) (lg : s.MLive g) (h : o.run s f g = some (r, s')) : MClean s s' r := by
  cases o with
  | and => exact routeB_clean h fun i j r b e1 e2 q => by subst e1; subst e2; exact Mdd.and_clean hs.b lf lg q
  | or => exact routeB_clean h fun i j r b e1 e2 q => by subst e1; subst e2; exact Mdd.or_clean hs.b lf lg q
  | xor => exact routeB_clean h fun i j r b e1 e2 q => by subst e1; subst e2; exact Mdd.xor_clean hs.b lf lg q
  | add => exact routeV_clean h fun i j r b e1 e2 q => by subst e1; subst e2; exact (Mtmdd.arith_clean hs.v lf lg).1 q
  | sub => exact routeV_clean h fun i j r b e1 e2 q => by subst e1; subst e2; exact (Mtmdd.arith_clean hs.v lf lg).2.1 q
  | mul =>
    exact routeV_clean h fun i j r b e1 e2 q => by subst e1; subst e2; exact (Mtmdd.arith_clean hs.v lf lg).2.2.1 q
  | div =>
    exact routeV_clean h fun i j r b e1 e2 q => by subst e1; subst e2; exact (Mtmdd.arith_clean hs.v lf lg).2.2.2.1 q
  | min =>
    exact routeV_clean h fun i j r b e1 e2 q => by
      subst e1; subst e2; exact (Mtmdd.arith_clean hs.v lf lg).2.2.2.2.2.1 q
  | max =>
    exact routeV_clean h fun i j r b e1 e2 q => by
      subst e1; subst e2; exact (Mtmdd.arith_clean hs.v lf lg).2.2.2.2.2.2 q
  | eq =>
    cases f <;> cases g <;> first | (cases ho; done) | skip
    · exact cmp_clean rfl hs lf lg h
    · cases h; exact MClean.refl _ _
  | neq =>
    cases f <;> cases g <;> first | (cases ho; done) | skip
    · cases h; exact MClean.refl _ _
    · exact liftB_clean h fun r b => Mdd.xor_clean hs.b lf lg
  | lt =>
    cases f <;> cases g
    · exact cmp_clean rfl hs lf lg h
    all_goals cases h; exact MClean.refl _ _
  | lte =>
    cases f <;> cases g <;> first | (cases ho; done) | skip
    all_goals cases h; exact MClean.refl _ _
  | gt =>
    cases f <;> cases g
    · exact cmp_clean rfl hs lg lf h
    all_goals cases h; exact MClean.refl _ _
  | gte =>
    cases f <;> cases g <;> first | (cases ho; done) | skip
    all_goals cases h; exact MClean.refl _ _

theorem not_clean {s s' : Mtmdd2} (hs : Inv s) {f r : MNode} (lf : s.MLive f) (h : s.not f = some (r, s')) :
    MClean s s' r := by
  cases f with
  | value f => cases h; exact MClean.refl _ _
  | bool f => exact liftB_clean h fun r b => Mdd.not_clean hs.b lf

theorem ite_clean {s s' : Mtmdd2} (hs : Inv s) {f g k r : MNode} (lf : s.MLive f) (lg : s.MLive g) (lk : s.MLive k)
    (h : s.ite f g k = some (r, s')) : MClean s s' r := by
  cases f <;> cases g <;> cases k <;> first | (cases h; done) | skip
  · cases h; exact MClean.refl _ _
  · cases h; exact MClean.refl _ _
  · exact vite_clean hs lf lg lk h
  · exact liftB_clean h fun r b => Mdd.ite_clean hs.b lf lg lk

theorem mreach_ext {s s' : Mtmdd2} (hs : Inv s) (st : St s s') {x y : MNode} (lx : s.MLive x) (h : s.MReach x y) :
    s'.MReach x y := by
  cases x <;> cases y <;> first | exact h.elim | skip
  · exact hs.v.wf.reach_ext st.2.toExt lx h
  · exact hs.b.wf.reach_ext st.1.toExt lx h

theorem mreach_back {s s' : Mtmdd2} (hs : Inv s) (st : St s s') {x y : MNode} (lx : s.MLive x) (h : s'.MReach x y) :
    s.MReach x y := by
  cases x <;> cases y <;> first | exact h.elim | skip
  · exact hs.v.wf.reach_back st.2.toExt lx h
  · exact hs.b.wf.reach_back st.1.toExt lx h

/-- Two recursions after each other. -/
theorem MClean.trans {s s1 s' : Mtmdd2} {r1 r : MNode} (hs1 : Inv s1) (st : St s1 s') (l1 : s1.MLive r1)
    (h1 : MClean s s1 r1) (h2 : MClean s1 s' r) (x : MNode) (hx : s'.MLive x) :
    s.MLive x ∨ s'.MReach r1 x ∨ s'.MReach r x := by
  rcases h2 x hx with h | h
  · rcases h1 x h with h | h
    · exact .inl h
    · exact .inr (.inl (mreach_ext hs1 st l1 h))
  · exact .inr (.inr h)

/-- The node `r` holds at each assignment what the operation `o` gives on `f` and `g`. -/
def Holds (s : Mtmdd2) (o : M2Bin) (f g r : MNode) : Prop :=
  s.MLive r ∧ ∀ a, s.ValidA a → ∀ z, s.MEval a r z → s.Two o.Rel f g a z

theorem MOk.holds {s s' : Mtmdd2} {o : M2Bin} {f g r : MNode} (hs : Inv s) (lf : s.MLive f) (lg : s.MLive g)
    (h : MOk s (s.Two o.Rel f g) (some (r, s'))) : Inv s' ∧ St s s' ∧ s'.Holds o f g r := by
  obtain ⟨r1, s1, h1, h2, h3, h4, h5⟩ := h
  cases h1
  refine ⟨h2, h3, h4, fun a ha z hz x y hx hy => ?_⟩
  exact h5 a ha z hz x y ((meval_ext hs h3.ext2 lf).1 hx) ((meval_ext hs h3.ext2 lg).1 hy)

theorem Holds.ext {s s' : Mtmdd2} {o : M2Bin} {f g r : MNode} (hs : Inv s) (st : St s s') (lf : s.MLive f)
    (lg : s.MLive g) (h : s.Holds o f g r) : s'.Holds o f g r := by
  refine ⟨mlive_ext st.ext2 h.1, fun a ha z hz x y hx hy => ?_⟩
  exact h.2 a (st.valid.1 ha) z ((meval_ext hs st.ext2 h.1).1 hz) x y ((meval_ext hs st.ext2 lf).1 hx)
    ((meval_ext hs st.ext2 lg).1 hy)

/-- Every two-operand operation leaves at most two diagrams, each holding at every assignment the result of an
operation of a single recursion or of its negation. -/
theorem bin_two {s s' : Mtmdd2} (hs : Inv s) {o : M2Bin} {f g r : MNode} (lf : s.MLive f) (lg : s.MLive g)
    (h : o.run s f g = some (r, s')) : ∃ o1 o2 r1 r2, o1 ≠ .lte ∧ o2 ≠ .lte ∧ s'.Holds o1 f g r1 ∧
      s'.Holds o2 f g r2 ∧ ∀ x, s'.MLive x → s.MLive x ∨ s'.MReach r1 x ∨ s'.MReach r2 x := by
  have ok := bin_ok hs o lf lg
  rw [h] at ok
  by_cases hl : o = .lte
  · subst hl
    cases f <;> cases g
    · rename_i f g
      have h' : (match s.veq f g with
        | none => none
        | some (r, s1) => if r = Mdd.one then some (.bool Mdd.one, s1) else tagB (s1.vlt f g)) = some (r, s') := h
      have ok1 := bin_ok hs .eq lf lg
      have c1 : ∀ {r1 s1}, M2Bin.eq.run s (.value f) (.value g) = some (r1, s1) → MClean s s1 r1 :=
        fun q => bin_clean hs (o := .eq) rfl lf lg q
      have e0 : M2Bin.eq.run s (.value f) (.value g) = tagB (s.veq f g) := rfl
      rw [e0] at ok1 c1
      cases hv : s.veq f g with
      | none => rw [hv] at h'; cases h'
      | some p =>
        obtain ⟨r1, s1⟩ := p
        rw [hv] at h' ok1 c1
        simp only at h'
        obtain ⟨i1, st1, k1⟩ := MOk.holds hs lf lg ok1
        split at h'
        · cases h'
          exact ⟨.eq, .eq, .bool r1, .bool r1, by decide, by decide, k1, k1, fun x hx =>
            ((c1 rfl) x hx).imp id .inl⟩
        · have lf1 := mlive_ext st1.ext2 lf
          have lg1 := mlive_ext st1.ext2 lg
          have h2 : M2Bin.lt.run s1 (.value f) (.value g) = some (r, s') := h'
          have ok2 := bin_ok i1 .lt lf1 lg1
          rw [h2] at ok2
          obtain ⟨i2, st2, k2⟩ := MOk.holds i1 lf1 lg1 ok2
          exact ⟨.eq, .lt, .bool r1, r, by decide, by decide, k1.ext i1 st2 lf1 lg1, k2,
            (c1 rfl).trans i1 st2 k1.1 (bin_clean i1 (o := .lt) rfl lf1 lg1 h2)⟩
    all_goals
      have e : s' = s := by cases h; rfl
      subst e
      have ok1 := bin_ok hs .lt lf lg
      cases h
      obtain ⟨_, _, k1⟩ := MOk.holds (r := .bool Mdd.undet) (s' := s') hs lf lg ok1
      exact ⟨.lt, .lt, _, _, by decide, by decide, k1, k1, fun x hx => .inl hx⟩
  · obtain ⟨i2, st2, k2⟩ := MOk.holds hs lf lg ok
    by_cases hsg : o.single f.isBool = true
    · exact ⟨o, o, r, r, hl, hl, k2, k2, fun x hx => (bin_clean hs hsg lf lg h x hx).imp id .inl⟩
    · have key : ∀ {o1 : M2Bin} {r1 : MNode} {s1 : Mtmdd2}, o1 ≠ .lte → o1.single f.isBool = true →
          o1.run s f g = some (r1, s1) → s1.not r1 = some (r, s') →
          ∃ o1 o2 r1 r2, o1 ≠ .lte ∧ o2 ≠ .lte ∧ s'.Holds o1 f g r1 ∧ s'.Holds o2 f g r2 ∧
            ∀ x, s'.MLive x → s.MLive x ∨ s'.MReach r1 x ∨ s'.MReach r2 x := by
        intro o1 r1 s1 n1 g1 e1 e2
        have ok1 := bin_ok hs o1 lf lg
        rw [e1] at ok1
        obtain ⟨i1, st1, k1⟩ := MOk.holds hs lf lg ok1
        have st2 : St s1 s' := by
          obtain ⟨_, _, q1, q2, q3, _⟩ := not_m i1 k1.1
          rw [e2] at q1; cases q1; exact q3
        exact ⟨o1, o, r1, r, n1, hl, k1.ext i1 st2 (mlive_ext st1.ext2 lf) (mlive_ext st1.ext2 lg), k2,
          (bin_clean hs g1 lf lg e1).trans i1 st2 k1.1 (not_clean i1 k1.1 e2)⟩
      have neg : ∀ {res : Option (Nat × Mtmdd2)}, thenNot res = some (r, s') →
          ∃ r1 s1, tagB res = some (r1, s1) ∧ s1.not r1 = some (r, s') := by
        intro res q
        cases res with
        | none => cases q
        | some p => exact ⟨_, _, rfl, q⟩
      cases o <;> first | (exact absurd rfl hsg; done) | (exact absurd rfl hl; done) | skip
      · cases f <;> cases g <;> first | (exact absurd rfl hsg; done) | skip
        · rename_i f g
          have e : s' = s := by cases h; rfl
          subst e
          exact ⟨.eq, .eq, r, r, hl, hl, k2, k2, fun x hx => .inl hx⟩
        · rename_i f g
          have h' : s.liftB (s.mdd.xnor f g) = some (r, s') := h
          unfold Mdd.xnor at h'
          cases hx : s.mdd.xor f g with
          | none => rw [hx] at h'; cases h'
          | some p =>
            obtain ⟨t, b⟩ := p
            rw [hx] at h'
            refine key (o1 := .xor) (r1 := .bool t) (s1 := { s with mdd := b }) (by decide) rfl ?_ ?_
            · show s.liftB (s.mdd.xor f g) = _
              rw [hx]; rfl
            · simp only at h'
              show Mtmdd2.liftB { s with mdd := b } (b.not t) = _
              cases hn : b.not t with
              | none => rw [hn] at h'; cases h'
              | some q => rw [hn] at h'; exact h'
      · cases f <;> cases g <;> first | (exact absurd rfl hsg; done) | skip
        · obtain ⟨r1, s1, q1, q2⟩ := neg h
          exact key (o1 := .eq) (by decide) rfl q1 q2
        · have e : s' = s := by cases h; rfl
          subst e
          exact ⟨.neq, .neq, r, r, hl, hl, k2, k2, fun x hx => .inl hx⟩
      · cases f <;> cases g <;> first | (exact absurd rfl hsg; done) | skip
        · obtain ⟨r1, s1, q1, q2⟩ := neg h
          exact key (o1 := .lt) (by decide) rfl q1 q2
        · have e : s' = s := by cases h; rfl
          subst e
          exact ⟨.gte, .gte, r, r, hl, hl, k2, k2, fun x hx => .inl hx⟩

/-! ## Sizes -/

theorem mtrails {s : Mtmdd2} (hs : Inv s) {x : MNode} (lx : s.MLive x) {L : List MNode}
    (hL : ∀ y, s.MReach x y → y ∈ L) : Trail s.ValidA (fun y a u => s.MEval a y u) x L := by
  intro k b hb
  cases x with
  | bool i =>
    obtain ⟨j, h1, _, h3⟩ := hs.b.wf.trail _ i k Nat.le.refl lx b hb
    refine ⟨.bool j, hL (.bool j) h1, fun a ha u => ?_⟩
    cases u with
    | b t => exact h3 a ha t
    | v t => exact Iff.rfl
  | value i =>
    obtain ⟨j, h1, _, h3⟩ := hs.v.wf.trail _ i k Nat.le.refl lx b (hs.valid.2 hb)
    refine ⟨.value j, hL (.value j) h1, fun a ha u => ?_⟩
    cases u with
    | v t => exact h3 a (hs.valid.2 ha) t
    | b t => exact Iff.rfl

/-- The nodes of a diagram computed pointwise from others are at most as many as tuples of their nodes. -/
theorem mreach_le {s : Mtmdd2} (hs : Inv s) (inj : s.mdd.arena.LevInj) {r : MNode} {F : MFun} (hr : MDen s r F)
    {gs : List MNode} {Gs : List MFun} (hg : List.Forall₂ (MDen s) gs Gs)
    (hdet : ∀ a b, s.ValidA a → s.ValidA b → (∀ G ∈ Gs, G a = G b) → F a = F b) {Lr : List MNode} (nd : Lr.Nodup)
    (hLr : ∀ j ∈ Lr, s.MReach r j) {Ls : List (List MNode)}
    (hL : List.Forall₂ (fun g L => ∀ j, s.MReach g j → j ∈ L) gs Ls) :
    Lr.length ≤ (Ls.map List.length).prod := by
  rw [← length_tuples]
  have F1 : List.Forall₂ (fun g L => Trail s.ValidA (fun y a u => s.MEval a y u) g L) gs Ls := by
    clear hdet
    induction hL generalizing Gs with
    | nil => exact .nil
    | cons h1 _ ih =>
      cases hg with
      | cons d1 d2 => exact .cons (mtrails hs d1.live h1) (ih d2)
  have F2 := Trail.list F1
  have tot : ∀ a, s.ValidA a → evs (fun y a u => s.MEval a y u) gs a (Gs.map (· a)) := by
    intro a ha
    clear hL F1 F2 hdet
    induction hg with
    | nil => exact .nil
    | cons d1 _ ih => exact .cons (d1.val a ha) ih
  have det : ∀ a a' z z' xs, s.ValidA a → s.ValidA a' → evs (fun y a u => s.MEval a y u) gs a xs →
      evs (fun y a u => s.MEval a y u) gs a' xs → s.MEval a r z → s.MEval a' r z' → z = z' := by
    intro a a' z z' xs ha ha' h1 h2 e1 e2
    rw [hr.read ha e1, hr.read ha' e2]
    refine hdet _ _ ha ha' ?_
    clear hL F1 F2 hdet tot
    unfold evs at h1 h2
    induction hg generalizing xs with
    | nil => intro G h; cases h
    | cons d1 _ ih =>
      cases h1 with
      | cons x1 y1 =>
        cases h2 with
        | cons x2 y2 =>
          intro G hG
          rcases List.mem_cons.1 hG with rfl | hG
          · rw [← d1.read ha x1, ← d1.read ha' x2]
          · exact ih _ y1 y2 G hG
  cases r with
  | bool i =>
    have e : Lr = (Lr.map MNode.id).map .bool := by
      rw [List.map_map]
      refine (List.map_id' Lr).symm.trans (List.map_congr_left fun x hx => ?_)
      cases x with
      | bool j => rfl
      | value j => exact (hLr _ hx).elim
    have nd' : (Lr.map MNode.id).Nodup := by rw [e] at nd; exact List.Nodup.of_map _ nd
    have := hs.b.wf.size_le inj (r := i) hr.live nd' (fun j hj => hLr (.bool j) (by rw [e]; exact List.mem_map.2 ⟨j, hj, rfl⟩))
      F2 (fun a ha => ⟨_, tot a ha⟩)
      (fun a a' z z' xs ha ha' h1 h2 e1 e2 => by
        have := det a a' (.b z) (.b z') xs ha ha' h1 h2 e1 e2
        cases this; rfl)
    simpa using this
  | value i =>
    have e : Lr = (Lr.map MNode.id).map .value := by
      rw [List.map_map]
      refine (List.map_id' Lr).symm.trans (List.map_congr_left fun x hx => ?_)
      cases x with
      | value j => rfl
      | bool j => exact (hLr _ hx).elim
    have nd' : (Lr.map MNode.id).Nodup := by rw [e] at nd; exact List.Nodup.of_map _ nd
    have injv : s.mtmdd.arena.LevInj := by
      intro i j hd hd' h1 h2
      exact inj i j hd hd' (by rw [hs.hdr]; exact h1) (by rw [hs.hdr]; exact h2)
    have := hs.v.wf.size_le injv (r := i) hr.live nd'
      (fun j hj => hLr (.value j) (by rw [e]; exact List.mem_map.2 ⟨j, hj, rfl⟩))
      (F2.mono fun a ha => hs.valid.1 ha) (fun a ha => ⟨_, tot a (hs.valid.1 ha)⟩)
      (fun a a' z z' xs ha ha' h1 h2 e1 e2 => by
        have := det a a' (.v z) (.v z') xs (hs.valid.1 ha) (hs.valid.1 ha') h1 h2 e1 e2
        cases this; rfl)
    simpa using this

/-- The number of nodes in use grows by at most the number of nodes that are new. -/
theorem mcount_le {s s' : Mtmdd2} (hs : Inv s) (hs' : Inv s') {L : List MNode} 
    (h : ∀ x, s'.MLive x → s.MLive x ∨ x ∈ L) : s'.liveNodeCount ≤ s.liveNodeCount + L.length := by
  have h1 := hs.b.wf.count_le hs'.b.wf
    (L := L.filterMap fun x => match x with | .bool i => some i | .value _ => none) (fun j hj => by
      rcases h (.bool j) hj with h | h
      · exact .inl h
      · exact .inr (List.mem_filterMap.2 ⟨_, h, rfl⟩))
  have h2 := hs.v.wf.count_le hs'.v.wf
    (L := L.filterMap fun x => match x with | .value i => some i | .bool _ => none) (fun j hj => by
      rcases h (.value j) hj with h | h
      · exact .inl h
      · exact .inr (List.mem_filterMap.2 ⟨_, h, rfl⟩))
  have h3 : (L.filterMap fun x => match x with | .bool i => some i | .value _ => none).length +
      (L.filterMap fun x => match x with | .value i => some i | .bool _ => none).length = L.length := by
    clear h h1 h2
    induction L with
    | nil => rfl
    | cons x L ih => cases x <;> simp only [List.filterMap_cons, List.length_cons] <;> omega
  have e1 : s'.mdd.liveNodeCount = s'.mdd.arena.liveNodeCount := rfl
  have e2 : s'.mtmdd.liveNodeCount = s'.mtmdd.arena.liveNodeCount := rfl
  have e3 : s.mdd.liveNodeCount = s.mdd.arena.liveNodeCount := rfl
  have e4 : s.mtmdd.liveNodeCount = s.mtmdd.arena.liveNodeCount := rfl
  unfold liveNodeCount
  omega

end Mtmdd2
end DD
