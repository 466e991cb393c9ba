import Verif.Mss.SolOk
import Verif.Mss.Refine

/-!
# `minsol` and `maxsol` on the two forests

The four tables meet the requirements of the generic proof; the outcome is stated for the tagged node, in terms
of the function it denotes.
-/

set_option autoImplicit false
set_option linter.unusedSectionVars false
set_option linter.unusedVariables false

namespace DD
open Arena Mtmdd2

namespace Sol

/-- Members of a value family: every determined value, under itself. -/
def vMem : Option Int → Option (Option Int)
  | some v => some (some v)
  | none => none

/-- Meet of values, undetermined at the bottom. -/
def vInf (x y : Option Int) : Option Int := Mtmdd.pt (fun a b => some (Min.min a b)) x y

theorem vInf_comm (x y : Option Int) : vInf x y = vInf y x := by
  cases x <;> cases y <;> simp [vInf, Mtmdd.pt, Int.min_comm]

theorem vInf_assoc (x y z : Option Int) : vInf (vInf x y) z = vInf x (vInf y z) := by
  cases x <;> cases y <;> cases z <;> simp [vInf, Mtmdd.pt, Int.min_assoc]

theorem vInf_idem (x : Option Int) : vInf x x = x := by
  cases x <;> simp [vInf, Mtmdd.pt]

theorem vArm_ok (nf ng : Option (Option Int)) : ArmOK none vMem nf ng (vArm nf ng) := by
  rcases nf with _ | _ | x
  · rcases ng with _ | _ | y
    · exact ⟨rfl, rfl⟩
    · refine .inl ⟨rfl, ?_⟩
      rintro u ⟨h1, -, h3⟩
      exact absurd (h3 _ rfl) h1
    · exact ⟨rfl, _, rfl⟩
  · exact ⟨none, rfl, fun u _ h => by cases h⟩
  · rcases ng with _ | _ | y
    · exact ⟨rfl, _, rfl⟩
    · refine .inl ⟨rfl, ?_⟩
      rintro u ⟨h1, -, h3⟩
      exact absurd (h3 _ rfl) h1
    · simp only [vArm]
      split
      · rename_i e
        subst e
        refine .inl ⟨rfl, ?_⟩
        rintro u ⟨h1, -, h3⟩
        exact ⟨some x, rfl, by rw [h3 _ rfl]; rfl⟩
      · rename_i e
        refine ⟨some x, rfl, ?_⟩
        rintro u ⟨h1, -, h3⟩ h
        rw [h3 _ rfl] at h
        simp only [vMem, Option.some.injEq] at h
        exact e h

theorem vTerm_ok (x : Option Int) : TermOK none vMem x (vTerm x) := by
  cases x with
  | none =>
    refine ⟨none, rfl, fun u hu => ⟨fun h => (by cases h), fun h => absurd h hu⟩⟩
  | some v =>
    intro u hu
    simp only [vMem, Option.some.injEq]
    exact ⟨fun h => h.symm, fun h => h.symm⟩

theorem vMem_inj (x y u : Option Int) (h : vMem x = some u) (h' : vMem y = some u) : x = y := by
  cases x <;> cases y <;> simp_all [vMem]

theorem vMem_ne (x u : Option Int) (h : vMem x = some u) : u ≠ none := by
  cases x <;> simp [vMem] at h
  subst h
  simp

/-- `vminsol`. -/
def vminSpec : Spec vminTab where
  und := none
  mem := vMem
  Dom _ := True
  inf := vInf
  mem_inj := vMem_inj
  mem_ne := vMem_ne
  comm := vInf_comm
  assoc := vInf_assoc
  idem := vInf_idem
  armOK := vArm_ok
  termOK := vTerm_ok

/-- `vmaxsol`. -/
def vmaxSpec : Spec vmaxTab where
  und := none
  mem := vMem
  Dom _ := True
  inf := vInf
  mem_inj := vMem_inj
  mem_ne := vMem_ne
  comm := vInf_comm
  assoc := vInf_assoc
  idem := vInf_idem
  armOK := vArm_ok
  termOK := vTerm_ok

/-- Meet of truth values, undetermined at the bottom. -/
def bInf : T3 → T3 → T3
  | .undet, _ => .undet
  | _, .undet => .undet
  | .zero, _ => .zero
  | _, .zero => .zero
  | .one, .one => .one

/-- A success is a member of a path family. -/
def bMem1 : T3 → Option T3
  | .one => some .one
  | _ => none

/-- A failure is a member of a cut family. -/
def bMem0 : T3 → Option T3
  | .zero => some .one
  | _ => none

theorem cand1 {ng : Option T3} {u : T3} (h : Cand T3.undet bMem1 ng u) : u = .one ∧ ∀ y, ng = some y → y = .one := by
  obtain ⟨h1, ⟨t, ht⟩, h3⟩ := h
  have hu : u = .one := by cases t <;> simp [bMem1] at ht <;> exact ht.symm
  exact ⟨hu, fun y hy => by rw [← h3 y hy]; exact hu⟩

theorem cand0 {ng : Option T3} {u : T3} (h : Cand T3.undet bMem0 ng u) : u = .one ∧ ∀ y, ng = some y → y = .one := by
  obtain ⟨h1, ⟨t, ht⟩, h3⟩ := h
  have hu : u = .one := by cases t <;> simp [bMem0] at ht <;> exact ht.symm
  exact ⟨hu, fun y hy => by rw [← h3 y hy]; exact hu⟩

theorem bminArm_ok (nf ng : Option T3) : ArmOK .undet bMem1 nf ng (bminTab.arm nf ng) := by
  rcases nf with _ | _ | _ | _ <;> rcases ng with _ | _ | _ | _ <;>
    first
    | exact ⟨rfl, rfl⟩
    | exact ⟨rfl, _, rfl⟩
    | (refine ⟨_, rfl, ?_⟩; intro u hu h; obtain ⟨rfl, h2⟩ := cand1 hu; cases h; done)
    | exact .inr ⟨_, _, rfl, rfl, rfl, by simp [bMem1]⟩
    | (refine .inl ⟨rfl, ?_⟩; intro u hu; obtain ⟨rfl, h2⟩ := cand1 hu
       first
       | exact ⟨_, rfl, rfl⟩
       | (have := h2 _ rfl; cases this; done))

theorem bmaxArm_ok (nf ng : Option T3) : ArmOK .undet bMem0 nf ng (bmaxTab.arm nf ng) := by
  rcases nf with _ | _ | _ | _ <;> rcases ng with _ | _ | _ | _ <;>
    first
    | exact ⟨rfl, rfl⟩
    | exact ⟨rfl, _, rfl⟩
    | (refine ⟨_, rfl, ?_⟩; intro u hu h; obtain ⟨rfl, h2⟩ := cand0 hu; cases h; done)
    | exact .inr ⟨_, _, rfl, rfl, rfl, by simp [bMem0]⟩
    | (refine .inl ⟨rfl, ?_⟩; intro u hu; obtain ⟨rfl, h2⟩ := cand0 hu
       first
       | exact ⟨_, rfl, rfl⟩
       | (have := h2 _ rfl; cases this; done))

/-- `bminsol`. -/
def bminSpec : Spec bminTab where
  und := .undet
  mem := bMem1
  Dom t := t ≠ .undet
  inf := bInf
  mem_inj x y u h h' := by cases x <;> cases y <;> simp_all [bMem1]
  mem_ne x u h := by cases x <;> simp [bMem1] at h <;> subst h <;> simp
  comm x y := by cases x <;> cases y <;> rfl
  assoc x y z := by cases x <;> cases y <;> cases z <;> rfl
  idem x := by cases x <;> rfl
  armOK := bminArm_ok
  termOK x := by
    cases x
    · exact ⟨.undet, rfl, fun u hu => ⟨fun h => (by cases h), fun h => absurd h hu⟩⟩
    · intro u hu
      simp only [bMem1, Option.some.injEq]
      exact ⟨fun h => h.symm, fun h => h.symm⟩
    · exact ⟨.undet, rfl, fun u hu => ⟨fun h => (by cases h), fun h => absurd h hu⟩⟩

/-- `bmaxsol`. -/
def bmaxSpec : Spec bmaxTab where
  und := .undet
  mem := bMem0
  Dom t := t ≠ .undet
  inf := bInf
  mem_inj x y u h h' := by cases x <;> cases y <;> simp_all [bMem0]
  mem_ne x u h := by cases x <;> simp [bMem0] at h <;> subst h <;> simp
  comm x y := by cases x <;> cases y <;> rfl
  assoc x y z := by cases x <;> cases y <;> cases z <;> rfl
  idem x := by cases x <;> rfl
  armOK := bmaxArm_ok
  termOK x := by
    cases x
    · refine ⟨.one, rfl, fun u hu => ?_⟩
      simp only [bMem0, Option.some.injEq]
      exact ⟨fun h => h.symm, fun h => h.symm⟩
    · exact ⟨.undet, rfl, fun u hu => ⟨fun h => (by cases h), fun h => absurd h hu⟩⟩
    · exact ⟨.undet, rfl, fun u hu => ⟨fun h => (by cases h), fun h => absurd h hu⟩⟩

theorem vmin_inf : InfOK vminSpec Mtmdd.eng Mtmdd.min := by
  intro s a b hs la lb
  refine (Mtmdd.min_ok hs la lb).mono (Nat.le_refl _) ?_
  intro d _ z hz x y hx hy _ _
  exact hz x y hx hy

theorem vmax_inf : InfOK vmaxSpec Mtmdd.eng Mtmdd.min := vmin_inf

theorem and_bInf {x y z : T3} (h : lift2 (· && ·) x y z) (hx : x ≠ .undet) (hy : y ≠ .undet) : z = bInf x y := by
  cases x <;> cases y <;> first | exact absurd rfl hx | exact absurd rfl hy | skip
  · exact h false false rfl rfl
  · exact h false true rfl rfl
  · exact h true false rfl rfl
  · exact h true true rfl rfl

theorem bmin_inf : InfOK bminSpec Mdd.eng Mdd.and := by
  intro s a b hs la lb
  refine (Mdd.and_ok hs la lb).mono (Nat.le_refl _) ?_
  intro d _ z hz x y hx hy dx dy
  exact and_bInf (hz x y hx hy) dx dy

theorem bmax_inf : InfOK bmaxSpec Mdd.eng Mdd.and := bmin_inf

end Sol
end DD
