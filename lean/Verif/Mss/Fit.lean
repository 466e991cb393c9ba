import Verif.Mtmdd.Machine
import Verif.Mtmdd2.Reach
import Verif.Mss.MddMgr

/-!
# The values stored in the mixed engine stay in range

`FitE n e`: every value terminal of the value forest is a signed `n`-bit integer.  Every operation of
/repo/mddcore/src/mtmdd2.rs, /repo/mddcore/src/mtmdd2_ops.rs and /repo/mss/src/mdd_minsol.rs keeps it; only `value` and
the arithmetic make new values.
-/

set_option autoImplicit false
set_option linter.unusedSectionVars false
set_option linter.unusedVariables false

namespace DD
open Arena

theorem Arena.gcA_nodes {T : Type} [DecidableEq T] [Fixed T] {m m' : Arena T} {roots : List Nat} {l : List Bool}
    (h : m.gcA roots = some (l, m')) : m'.nodes = m.nodes := by
  unfold Arena.gcA at h
  split at h
  · cases h
  · simp only [Option.map_eq_some_iff, Prod.mk.injEq] at h
    obtain ⟨a, h1, rfl, rfl⟩ := h
    unfold Arena.sweep at h1
    split at h1 <;> cases h1
    rfl

namespace Sol
variable {S T : Type} [DecidableEq T] [Fixed T] {P : S → Prop} {ar : S → Arena T}
  {mk : S → Nat → List Nat → Option (Nat × S)} {inf : S → Nat → Nat → Option (Nat × S)} {X : Tab T}

theorem mkC_pres {C : Type} (hm : PresMk P mk) : PresMk (fun q : S × C => P q.1) (mkC mk) := by
  intro q h ch r q' hp he
  unfold mkC at he
  split at he
  · cases he
  · rename_i r1 s1 h1
    cases he
    exact hm _ _ _ _ _ hp h1

theorem withoutF_pres (hm : PresMk P mk) :
    ∀ n, Pres (fun q : S × AMap (Nat × Nat) Nat => P q.1) (withoutF ar mk X n) := by
  intro n
  induction n with
  | zero => intro q p r q' _ h; cases h
  | succ n ih =>
    rintro q ⟨f, g⟩ r q' hp h
    unfold withoutF at h
    refine memo_pres (P := fun q : S × AMap (Nat × Nat) Nat => P q.1) ?_ hp ?_ h
    · intro q r hq; exact hq
    intro r q' hb
    repeat' split at hb
    all_goals first
      | (cases hb; done)
      | (cases hb; exact hp)
      | exact ih _ _ _ _ hp hb
      | exact branchS_pres (P := fun q : S × AMap (Nat × Nat) Nat => P q.1) (mkC_pres hm) ih hp hb

theorem chain_pres (hi : ∀ s a b r s', P s → inf s a b = some (r, s') → P s') :
    ∀ (l : List (Nat × Nat)) (s : S) (r : Bool) (s' : S), P s → chain inf s l = some (r, s') → P s' := by
  intro l
  induction l with
  | nil => intro s r s' hp h; cases h; exact hp
  | cons p ps ih =>
    obtain ⟨a, b⟩ := p
    intro s r s' hp h
    unfold chain at h
    split at h
    · cases h
    · rename_i r1 s1 h1
      split at h
      · exact ih _ _ _ (hi _ _ _ _ _ hp h1) h
      · cases h; exact hi _ _ _ _ _ hp h1

theorem pick_pres {wo : S × AMap (Nat × Nat) Nat → Nat → Nat → Option (Nat × (S × AMap (Nat × Nat) Nat))}
    (hw : ∀ q f g r q', P q.1 → wo q f g = some (r, q') → P q'.1) {q q' : Q S} {nb : Option Nat} {m v : Nat}
    (hp : P q.s) (h : pick wo q nb m = some (v, q')) : P q'.s := by
  unfold pick at h
  split at h
  · cases h; exact hp
  · split at h
    · cases h
    · rename_i h1
      cases h
      exact hw _ _ _ _ _ hp h1

theorem kids_pres {rec : Q S → Nat → Option (Option Nat × Q S)}
    {wo : S × AMap (Nat × Nat) Nat → Nat → Nat → Option (Nat × (S × AMap (Nat × Nat) Nat))}
    (hr : Pres (fun q : Q S => P q.s) rec)
    (hw : ∀ q f g r q', P q.1 → wo q f g = some (r, q') → P q'.1) :
    ∀ (l : List (Nat × Option Nat)) (q : Q S) (r : Option (List Nat)) (q' : Q S), P q.s →
      kids rec wo q l = some (r, q') → P q'.s := by
  intro l
  induction l with
  | nil => intro q r q' hp h; cases h; exact hp
  | cons p ps ih =>
    obtain ⟨c, nb⟩ := p
    intro q r q' hp h
    unfold kids at h
    split at h
    · cases h
    · rename_i h1; cases h; exact hr _ _ _ _ hp h1
    · rename_i m q1 h1
      split at h
      · cases h
      · rename_i v q2 h2
        have hp2 := pick_pres hw (hr _ _ _ _ hp h1) h2
        split at h
        · cases h
        · rename_i h3; cases h; exact ih _ _ _ hp2 h3
        · rename_i h3; cases h; exact ih _ _ _ hp2 h3

theorem solF_pres (hm : PresMk P mk) (hi : ∀ s a b r s', P s → inf s a b = some (r, s') → P s') :
    ∀ n, Pres (fun q : Q S => P q.s) (solF ar mk inf X n) := by
  intro n
  induction n with
  | zero => intro q i r q' _ h; cases h
  | succ n ih =>
    intro q i r q' hp h
    unfold solF at h
    split at h
    · cases h; exact hp
    · split at h
      · cases h
      · rename_i x q1 hb
        cases h
        simp only
        split at hb
        · cases hb
        · cases hb; exact hp
        · split at hb
          · cases hb
          · rename_i h1; cases hb; exact chain_pres hi _ _ _ _ hp h1
          · rename_i s1 h1
            have hp1 := chain_pres hi _ _ _ _ hp h1
            split at hb
            · cases hb
            · rename_i h2
              cases hb
              exact kids_pres ih (fun q f g r q' hq h => withoutF_pres hm _ _ _ _ _ hq h) _ _ _ _ hp1 h2
            · rename_i rs q2 h2
              have hp2 := kids_pres ih (fun q f g r q' hq h => withoutF_pres hm _ _ _ _ _ hq h) _ _ _ _ hp1 h2
              split at hb
              · cases hb
              · rename_i h3
                cases hb
                exact hm _ _ _ _ _ hp2 h3

theorem sol_pres (hm : PresMk P mk) (hi : ∀ s a b r s', P s → inf s a b = some (r, s') → P s') {s s' : S} {i : Nat}
    {r : Option Nat} (hp : P s) (h : sol ar mk inf X s i = some (r, s')) : P s' := by
  unfold sol at h
  split at h
  · cases h
  · rename_i x q h1
    cases h
    exact solF_pres hm hi _ _ _ _ _ (by exact hp) h1

end Sol

namespace Mtmdd2

/-- Every stored value is an `n`-bit integer. -/
def FitE (n : Nat) (e : Mtmdd2) : Prop := Mtmdd.AllFit n e.mtmdd

variable {n : Nat} {s s' : Mtmdd2}

theorem liftB_fit (hs : FitE n s) {res : Option (Nat × Mdd)} {r : MNode} (h : s.liftB res = some (r, s')) :
    FitE n s' := by
  unfold liftB at h
  split at h <;> cases h
  exact hs

theorem liftV_fit {res : Option (Nat × Mtmdd)} (hr : ∀ r v, res = some (r, v) → Mtmdd.AllFit n v) {r : MNode}
    (h : s.liftV res = some (r, s')) : FitE n s' := by
  unfold liftV at h
  split at h <;> cases h
  exact hr _ _ rfl

theorem mkB_fit : PresMk (FitE n) mkB := by
  intro s h ch r s' hs he
  unfold mkB at he
  split at he <;> cases he
  exact hs

theorem mkV_fit : PresMk (FitE n) mkV := by
  intro s h ch r s' hs he
  unfold mkV at he
  split at he
  · cases he
  · rename_i h1; cases he
    exact Mtmdd.createNode_fit _ _ _ _ _ hs h1

theorem cmpF_fit {op : Nat} {p : Int → Int → Bool} : ∀ k, Pres (FitE n) (cmpF op p k) := by
  intro k
  induction k with
  | zero => intro s p r s' _ h; cases h
  | succ k ih =>
    rintro s ⟨f, g⟩ r s' hs h
    unfold cmpF at h
    refine memo_pres (P := FitE n) ?_ hs ?_ h
    · intro s r hs; exact hs
    intro r s' hb
    repeat' split at hb
    all_goals first
      | (cases hb; done)
      | (cases hb; exact hs)
      | exact branchS_pres mkB_fit ih hs hb
      | exact arms2_pres mkB_fit ih hs hb

theorem viteF_fit : ∀ k, Pres (FitE n) (viteF k) := by
  intro k
  induction k with
  | zero => intro s p r s' _ h; cases h
  | succ k ih =>
    rintro s ⟨f, g, h⟩ r s' hs he
    unfold viteF at he
    repeat' split at he
    all_goals first
      | (cases he; done)
      | (cases he; exact hs)
      | skip
    refine memo_pres (P := FitE n) ?_ hs ?_ he
    · intro s r hs; exact hs
    intro r s' hb
    simp only at hb
    repeat' split at hb
    all_goals first
      | (cases hb; done)
      | exact branchS_pres mkV_fit ih hs hb

theorem value_fit (hs : FitE n s) {v : Int} (hv : Fits n v) {r : MNode} (h : s.value v = some (r, s')) : FitE n s' :=
  liftV_fit (fun _ _ h => Mtmdd.value_fit hs hv h) h

theorem createNode_fit (hs : FitE n s) {hd : Nat} {xs : List MNode} {r : MNode}
    (h : s.createNode hd xs = some (r, s')) : FitE n s' := by
  unfold createNode at h
  split at h
  · cases h
  · exact liftV_fit (fun _ _ h => Mtmdd.createNode_fit _ _ _ _ _ hs h) h
  · exact liftB_fit hs h

theorem createHeader_fit (hs : FitE n s) {l : Nat} {lab : String} {e r : Nat}
    (h : s.createHeader l lab e = some (r, s')) : FitE n s' := by
  unfold createHeader at h
  simp only at h
  split at h
  · cases h
    intro v hv
    refine hs v ?_
    exact hv
  · cases h

theorem gc_fit (hs : FitE n s) {roots : List MNode} {k : Nat × Nat} (h : s.gc roots = some (k, s')) : FitE n s' := by
  unfold gc at h
  split at h
  · cases h
  · rename_i nv v hv
    split at h
    · cases h
    · cases h
      unfold Mtmdd.gc at hv
      split at hv
      · cases hv
      · rename_i live m hg
        split at hv
        · cases hv
          intro u hu
          rw [show ({arena := m, cache := _ : Mtmdd}).arena.nodes = _ from Arena.gcA_nodes hg] at hu
          exact hs u hu
        · cases hv

theorem tagB_fit {res : Option (Nat × Mtmdd2)} (hr : ∀ r e, res = some (r, e) → FitE n e) {r : MNode}
    (h : tagB res = some (r, s')) : FitE n s' := by
  unfold tagB at h
  split at h <;> cases h
  exact hr _ _ rfl

theorem tagV_fit {res : Option (Nat × Mtmdd2)} (hr : ∀ r e, res = some (r, e) → FitE n e) {r : MNode}
    (h : tagV res = some (r, s')) : FitE n s' := by
  unfold tagV at h
  split at h <;> cases h
  exact hr _ _ rfl

theorem thenNot_fit {res : Option (Nat × Mtmdd2)} (hr : ∀ r e, res = some (r, e) → FitE n e) {r : MNode}
    (h : thenNot res = some (r, s')) : FitE n s' := by
  unfold thenNot at h
  split at h
  · cases h
  · exact liftB_fit (hr _ _ rfl) h

theorem cmp_fit (hs : FitE n s) {op : Nat} {p : Int → Int → Bool} {f g r : Nat} (h : cmp op p s f g = some (r, s')) :
    FitE n s' := cmpF_fit _ _ _ _ _ hs h

theorem routeB_fit (hs : FitE n s) {op : Mdd → Nat → Nat → Option (Nat × Mdd)} {f g r : MNode}
    (h : routeB op s f g = some (r, s')) : FitE n s' := by
  unfold routeB at h
  split at h
  · exact liftB_fit hs h
  · cases h; exact hs

theorem routeV_fit (hs : FitE n s) {op : Mtmdd → Nat → Nat → Option (Nat × Mtmdd)}
    (ho : ∀ f g r v, op s.mtmdd f g = some (r, v) → Mtmdd.AllFit n v) {f g r : MNode}
    (h : routeV op s f g = some (r, s')) : FitE n s' := by
  unfold routeV at h
  split at h
  · exact liftV_fit (fun _ _ h => ho _ _ _ _ h) h
  · cases h; exact hs

theorem not_fit (hs : FitE n s) {f r : MNode} (h : s.not f = some (r, s')) : FitE n s' := by
  unfold not at h
  split at h
  · exact liftB_fit hs h
  · cases h; exact hs

theorem ite_fit (hs : FitE n s) {f g k r : MNode} (h : s.ite f g k = some (r, s')) : FitE n s' := by
  unfold ite at h
  split at h
  · exact tagV_fit (fun _ _ h => viteF_fit _ _ _ _ _ hs h) h
  · exact liftB_fit hs h
  · cases h; exact hs
  · cases h; exact hs
  · cases h

theorem solT_fit (hs : FitE n s) {top : Bool} {x : MNode} {r : Option MNode} (h : s.solT top x = some (r, s')) :
    FitE n s' := by
  have hv : ∀ {X : Sol.Tab (Option Int)} {f : Nat}, s.solV X f = some (r, s') → FitE n s' := by
    intro X f h
    unfold solV at h
    split at h
    · cases h
    · rename_i h1
      cases h
      exact Sol.sol_pres (P := Mtmdd.AllFit n) Mtmdd.createNode_fit
        (fun s a b r s' hs h => Mtmdd.bin_fit (Mtmdd.min_fit n) hs h) hs h1
  have hb : ∀ {X : Sol.Tab T3} {f : Nat}, s.solB X f = some (r, s') → FitE n s' := by
    intro X f h
    unfold solB at h
    split at h <;> cases h
    exact hs
  unfold solT maxsol minsol at h
  split at h <;> split at h <;> first | exact hv h | exact hb h

end Mtmdd2

/-- The operation over signed `n`-bit integers: only the arithmetic can overflow
(/repo/mddcore/src/mtmdd2_ops.rs:64-90). -/
def M2Bin.runIn (b : Build) (n : Nat) : M2Bin → Mtmdd2 → MNode → MNode → Option (MNode × Mtmdd2)
  | .add => Mtmdd2.routeV fun s f g => (MtOp.add f g).runIn b n s
  | .sub => Mtmdd2.routeV fun s f g => (MtOp.sub f g).runIn b n s
  | .mul => Mtmdd2.routeV fun s f g => (MtOp.mul f g).runIn b n s
  | .div => Mtmdd2.routeV fun s f g => (MtOp.div f g).runIn b n s
  | o => o.run

namespace M2Bin
open Mtmdd2

theorem runIn_fit {b : Build} {n : Nat} (hn : 0 < n) {s s' : Mtmdd2} (hs : FitE n s) {o : M2Bin} {f g r : MNode}
    (h : o.runIn b n s f g = some (r, s')) : FitE n s' := by
  have av : ∀ {op : Nat → Nat → MtOp},
      routeV (fun s f g => (op f g).runIn b n s) s f g = some (r, s') → FitE n s' :=
    fun h => routeV_fit hs (fun _ _ _ _ h => Mtmdd.runIn_fit hn hs h) h
  cases o with
  | and | or | xor => exact routeB_fit hs h
  | add => exact av (op := .add) h
  | sub => exact av (op := .sub) h
  | mul => exact av (op := .mul) h
  | div => exact av (op := .div) h
  | max => exact av (op := .max) h
  | min => exact av (op := .min) h
  | eq =>
    simp only [runIn, run, Mtmdd2.eq] at h
    split at h
    · exact liftB_fit hs h
    · exact tagB_fit (fun _ _ h => cmp_fit hs h) h
    · cases h; exact hs
  | neq =>
    simp only [runIn, run, Mtmdd2.neq] at h
    split at h
    · exact liftB_fit hs h
    · exact thenNot_fit (fun _ _ h => cmp_fit hs h) h
    · cases h; exact hs
  | lt =>
    simp only [runIn, run, Mtmdd2.lt] at h
    split at h
    · exact tagB_fit (fun _ _ h => cmp_fit hs h) h
    · cases h; exact hs
  | gt =>
    simp only [runIn, run, Mtmdd2.gt] at h
    split at h
    · exact tagB_fit (fun _ _ h => cmp_fit hs h) h
    · cases h; exact hs
  | gte =>
    simp only [runIn, run, Mtmdd2.gte] at h
    split at h
    · exact thenNot_fit (fun _ _ h => cmp_fit hs h) h
    · cases h; exact hs
  | lte =>
    simp only [runIn, run, Mtmdd2.lte] at h
    split at h
    · split at h
      · cases h
      · rename_i h1
        have h2 := cmp_fit hs h1
        split at h
        · cases h; exact h2
        · exact tagB_fit (fun _ _ h => cmp_fit h2 h) h
    · cases h; exact hs

/-- With overflow checks an operation that returns does what it does over the mathematical integers, and what it does
without overflow checks. -/
theorem runIn_dev {n : Nat} {s : Mtmdd2} {o : M2Bin} {f g : MNode} {p : MNode × Mtmdd2}
    (h : o.runIn .dev n s f g = some p) : o.run s f g = some p ∧ o.runIn .release n s f g = some p := by
  have av : ∀ {op : Nat → Nat → MtOp}, routeV (fun s f g => (op f g).runIn .dev n s) s f g = some p →
      routeV (fun s f g => (op f g).run s) s f g = some p ∧
      routeV (fun s f g => (op f g).runIn .release n s) s f g = some p := by
    intro op h
    cases f <;> cases g <;> first | exact ⟨h, h⟩ | skip
    rename_i f g _
    simp only [routeV] at h ⊢
    cases hr : (op f g).runIn .dev n s.mtmdd with
    | none => rw [hr] at h; cases h
    | some q =>
      obtain ⟨h1, h2⟩ := Mtmdd.runIn_dev hr
      rw [h1, h2, ← hr]
      exact ⟨h, h⟩
  cases o with
  | add => exact av (op := .add) h
  | sub => exact av (op := .sub) h
  | mul => exact av (op := .mul) h
  | div => exact av (op := .div) h
  | _ => exact ⟨h, h⟩

end M2Bin
end DD
