import Verif.Mtmdd.Reach
import Verif.Core.Width
import Verif.Core.Pres

/-!
# Value diagrams over machine integers

`MddValue` is implemented for `i32` and `i64` (/repo/mddcore/src/nodes.rs:68-86).  The terminal arms of `add`, `sub`,
`mul`, `div`, `rem` (/repo/mddcore/src/mtmdd_ops.rs) use the operators of that type: sums, differences and products
that do not fit panic with overflow checks and wrap around without; `MIN / -1` and `MIN % -1` panic in every build.
-/

set_option autoImplicit false
set_option linter.unusedSectionVars false
set_option linter.unusedVariables false

namespace DD
open Arena ComputeCache

/-- The value is one of the signed `n`-bit integers (`i32`: 32, `i64`: 64). -/
def Fits (n : Nat) (v : Int) : Prop := -(2 ^ (n - 1) : Int) ≤ v ∧ v < 2 ^ (n - 1)

instance (n : Nat) (v : Int) : Decidable (Fits n v) := inferInstanceAs (Decidable (_ ∧ _))

/-- The signed `n`-bit integer with the same residue modulo `2^n`. -/
def wrapInt (n : Nat) (v : Int) : Int := v.bmod (2 ^ n)

/-- What `+`, `-`, `*` return for the mathematical result `v`; `none` = overflow panic. -/
def ovf (b : Build) (n : Nat) (v : Int) : Option Int :=
  if Fits n v then some v
  else
    match b with
    | .dev => none
    | .release => some (wrapInt n v)

theorem Fits.wrap {n : Nat} (hn : 0 < n) (v : Int) : Fits n (wrapInt n v) := by
  obtain ⟨k, rfl⟩ : ∃ k, n = k + 1 := ⟨n - 1, by omega⟩
  have h2 : (((2 ^ (k + 1) : Nat) : Int)) = 2 * 2 ^ k := by push_cast; rw [Int.pow_succ]; omega
  have hp : (0 : Nat) < 2 ^ (k + 1) := Nat.two_pow_pos _
  have h3 := Int.le_bmod (x := v) hp
  have h4 := Int.bmod_lt (x := v) hp
  rw [h2] at h3 h4
  unfold Fits wrapInt
  simp only [Nat.add_sub_cancel]
  generalize (2 : Int) ^ k = K at *
  constructor <;> omega

theorem ovf_fits {b : Build} {n : Nat} (hn : 0 < n) {v r : Int} (h : ovf b n v = some r) : Fits n r := by
  unfold ovf at h
  split at h
  · cases h; assumption
  · cases b
    · cases h
    · cases h; exact Fits.wrap hn v

theorem ovf_of_fits {b : Build} {n : Nat} {v : Int} (h : Fits n v) : ovf b n v = some v := by simp [ovf, h]

namespace Mtmdd

/-- The terminal/terminal arms over signed `n`-bit integers (/repo/mddcore/src/mtmdd_ops.rs:62-67, 116-121, 177-182,
235-243, 293-301). -/
def machAdd (b : Build) (n : Nat) (x y : Int) : Option (Option Int) := (ovf b n (x + y)).map some
@[inherit_doc machAdd]
def machSub (b : Build) (n : Nat) (x y : Int) : Option (Option Int) := (ovf b n (x - y)).map some
@[inherit_doc machAdd]
def machMul (b : Build) (n : Nat) (x y : Int) : Option (Option Int) := (ovf b n (x * y)).map some
@[inherit_doc machAdd]
def machDiv (n : Nat) (x y : Int) : Option (Option Int) :=
  if y = 0 then some none else if Fits n (x.tdiv y) then some (some (x.tdiv y)) else none
/-- `%` panics exactly when `/` does. -/
def machRem (n : Nat) (x y : Int) : Option (Option Int) :=
  if y = 0 then some none else if Fits n (x.tdiv y) then some (some (x.tmod y)) else none

/-- The arithmetic of signed `n`-bit integers, by operation code. -/
def machFn (b : Build) (n : Nat) : Codes
  | 0 => some (machAdd b n)
  | 1 => some (machSub b n)
  | 2 => some (machMul b n)
  | 3 => some (machDiv n)
  | 4 => some (machRem n)
  | 5 => some (total fun x y => some (Min.min x y))
  | 6 => some (total fun x y => some (Max.max x y))
  | _ => none

theorem mach_sane (b : Build) (n : Nat) : (machFn b n).Sane := rfl

end Mtmdd

/-- The operation over signed `n`-bit integers. -/
def MtOp.runIn (b : Build) (n : Nat) (s : Mtmdd) : MtOp → Option (Nat × Mtmdd)
  | .add f g => s.bin Mtmdd.opAdd true (Mtmdd.machAdd b n) f g
  | .sub f g => s.bin Mtmdd.opSub false (Mtmdd.machSub b n) f g
  | .mul f g => s.bin Mtmdd.opMul true (Mtmdd.machMul b n) f g
  | .div f g => s.bin Mtmdd.opDiv false (Mtmdd.machDiv n) f g
  | .rem f g => s.bin Mtmdd.opRem false (Mtmdd.machRem n) f g
  | o => o.run s

namespace Mtmdd

/-! ## Runs with two terminal arms -/

/-- `tt` agrees with `tt'` except that it may panic, and both give up caching at the same points. -/
structure ArmLe (tt tt' : Int → Int → Option (Option Int)) : Prop where
  ret : ∀ x y z, tt x y = some z → tt' x y = some z
  undet : ∀ x y, tt' x y = some none → tt x y = some none

theorem ArmLe.early {tt tt' : Int → Int → Option (Option Int)} (h : ArmLe tt tt') (s : Mtmdd) (f g : Nat) :
    s.early tt f g = s.early tt' f g := by
  unfold Mtmdd.early
  split
  · rename_i a b _ _
    rw [decide_eq_decide]
    exact ⟨h.ret _ _ _, h.undet _ _⟩
  · rfl

/-- A run that does not panic is the same with the other arm. -/
theorem binF_sub {op : Nat} {comm : Bool} {tt tt' : Int → Int → Option (Option Int)} (h : ArmLe tt tt') :
    ∀ n s p r, binF op comm tt n s p = some r → binF op comm tt' n s p = some r := by
  intro n
  induction n with
  | zero => intro s p r hr; cases hr
  | succ n ih =>
    rintro s ⟨f0, g0⟩ r hr
    unfold binF at hr ⊢
    simp only at hr ⊢
    generalize (if comm = true then Min.min f0 g0 else f0) = f at *
    generalize (if comm = true then Max.max f0 g0 else g0) = g at *
    simp only [h.early] at hr
    refine memo_sub (fun q hb => ?_) hr
    rcases hnf : s.arena.node? f with _ | ((_ | u) | ⟨hf, cf⟩) <;>
      rcases hng : s.arena.node? g with _ | ((_ | v) | ⟨hg, cg⟩) <;> simp only [hnf, hng] at hb ⊢ <;>
      first
      | exact hb
      | cases hb
      | exact branchS_sub ih hb
      | exact arms2_sub ih hb
      | skip
    split at hb
    · cases hb
    · rename_i ht; rw [h.ret _ _ _ ht]; exact hb
    · rename_i ht; rw [h.ret _ _ _ ht]; exact hb

theorem bin_sub {op : Nat} {comm : Bool} {tt tt' : Int → Int → Option (Option Int)} (h : ArmLe tt tt') {s : Mtmdd}
    {f g : Nat} {r : Nat × Mtmdd} (hr : bin op comm tt s f g = some r) : bin op comm tt' s f g = some r :=
  binF_sub h _ _ _ _ hr

/-! ## Terminals stay in range -/

/-- Every stored value is an `n`-bit integer. -/
def AllFit (n : Nat) (s : Mtmdd) : Prop := ∀ v : Int, Node.term (some v) ∈ s.arena.nodes → Fits n v

theorem mkNode_mem {T : Type} [DecidableEq T] {m m' : Arena T} {k x : Node T} {i : Nat}
    (h : m.mkNode k = some (i, m')) (hx : x ∈ m'.nodes) : x ∈ m.nodes ∨ x = k := by
  unfold Arena.mkNode at h
  split at h
  · cases h; exact .inl hx
  · split at h
    · cases h
    · rename_i j m1 ha
      cases h
      unfold Arena.alloc at ha
      split at ha
      · split at ha
        · cases ha
          exact List.mem_or_eq_of_mem_set hx
        · cases ha
      · cases ha
        simpa using hx

theorem value_fit {n : Nat} {s s' : Mtmdd} {v : Int} {r : Nat} (hs : AllFit n s) (hv : Fits n v)
    (h : s.value v = some (r, s')) : AllFit n s' := by
  unfold value at h
  split at h
  · cases h
  · rename_i i m hm
    cases h
    intro u hu
    rcases mkNode_mem hm hu with h | h
    · exact hs u h
    · cases h; exact hv

theorem createNode_fit {n : Nat} : PresMk (AllFit n) createNode := by
  intro s h ch r s' hs he
  unfold createNode at he
  split at he
  · cases he
  · rename_i i m hm
    cases he
    intro u hu
    unfold Arena.createFull at hm
    split at hm
    · rcases mkNode_mem hm hu with h | h
      · exact hs u h
      · cases h
    · split at hm
      · cases hm; exact hs u hu
      · rcases mkNode_mem hm hu with h | h
        · exact hs u h
        · cases h

/-- The terminal arm keeps values in range. -/
def ArmFit (n : Nat) (tt : Int → Int → Option (Option Int)) : Prop :=
  ∀ x y z, Fits n x → Fits n y → tt x y = some (some z) → Fits n z

theorem node_fit {n : Nat} {s : Mtmdd} (hs : AllFit n s) {f : Nat} {v : Int}
    (h : s.arena.node? f = some (.term (some v))) : Fits n v := hs v (List.mem_of_getElem? h)

theorem binF_fit {n : Nat} {op : Nat} {comm : Bool} {tt : Int → Int → Option (Option Int)} (h : ArmFit n tt) :
    ∀ k, Pres (AllFit n) (binF op comm tt k) := by
  intro k
  induction k with
  | zero => intro s p r s' _ hr; cases hr
  | succ k ih =>
    rintro s ⟨f0, g0⟩ r s' hs hr
    unfold binF at hr
    simp only at hr
    generalize (if comm = true then Min.min f0 g0 else f0) = f at *
    generalize (if comm = true then Max.max f0 g0 else g0) = g at *
    refine memo_pres ?_ hs ?_ hr
    · intro s r hs; split <;> exact hs
    intro r s' hb
    rcases hnf : s.arena.node? f with _ | ((_ | u) | ⟨hf, cf⟩) <;>
      rcases hng : s.arena.node? g with _ | ((_ | v) | ⟨hg, cg⟩) <;> simp only [hnf, hng] at hb <;>
      first
      | (cases hb; done)
      | (cases hb; exact hs)
      | exact branchS_pres createNode_fit ih hs hb
      | exact arms2_pres createNode_fit ih hs hb
      | skip
    split at hb
    · cases hb
    · cases hb; exact hs
    · rename_i z ht; exact value_fit hs (h _ _ _ (node_fit hs hnf) (node_fit hs hng) ht) hb

theorem bin_fit {n : Nat} {op : Nat} {comm : Bool} {tt : Int → Int → Option (Option Int)} (h : ArmFit n tt)
    {s s' : Mtmdd} {f g r : Nat} (hs : AllFit n s) (hr : bin op comm tt s f g = some (r, s')) : AllFit n s' :=
  binF_fit h _ _ _ _ _ hs hr

theorem replaceF_fit {n : Nat} : ∀ k, Pres (AllFit n) (replaceF k) := by
  intro k
  induction k with
  | zero => intro s p r s' _ hr; cases hr
  | succ k ih =>
    rintro s ⟨f, g⟩ r s' hs hr
    unfold replaceF at hr
    refine memo_pres (P := AllFit n) ?_ hs ?_ hr
    · intro s r hs; exact hs
    intro r s' hb
    rcases hnf : s.arena.node? f with _ | ((_ | u) | ⟨hf, cf⟩) <;>
      rcases hng : s.arena.node? g with _ | ((_ | v) | ⟨hg, cg⟩) <;> simp only [hnf, hng] at hb <;>
      first
      | (cases hb; done)
      | (cases hb; exact hs)
      | exact branchS_pres createNode_fit ih hs hb
      | exact arms2_pres createNode_fit ih hs hb

theorem machAdd_fit (b : Build) {n : Nat} (hn : 0 < n) : ArmFit n (machAdd b n) := by
  intro x y z _ _ h
  simp only [machAdd, Option.map_eq_some_iff, Option.some.injEq] at h
  obtain ⟨r, h, rfl⟩ := h
  exact ovf_fits hn h

theorem machSub_fit (b : Build) {n : Nat} (hn : 0 < n) : ArmFit n (machSub b n) := by
  intro x y z _ _ h
  simp only [machSub, Option.map_eq_some_iff, Option.some.injEq] at h
  obtain ⟨r, h, rfl⟩ := h
  exact ovf_fits hn h

theorem machMul_fit (b : Build) {n : Nat} (hn : 0 < n) : ArmFit n (machMul b n) := by
  intro x y z _ _ h
  simp only [machMul, Option.map_eq_some_iff, Option.some.injEq] at h
  obtain ⟨r, h, rfl⟩ := h
  exact ovf_fits hn h

theorem machDiv_fit (n : Nat) : ArmFit n (machDiv n) := by
  intro x y z _ _ h
  unfold machDiv at h
  split at h
  · cases h
  · split at h
    · cases h; assumption
    · cases h

theorem machRem_fit (n : Nat) : ArmFit n (machRem n) := by
  intro x y z _ hy h
  unfold machRem at h
  split at h
  · cases h
  · rename_i h0
    split at h
    · cases h
      obtain ⟨h1, h2⟩ := hy
      have e := Int.natAbs_tmod x y
      have l := Nat.mod_lt x.natAbs (show 0 < y.natAbs by omega)
      unfold Fits
      generalize (2 : Int) ^ (n - 1) = K at *
      constructor <;> omega
    · cases h

theorem min_fit (n : Nat) : ArmFit n (total fun x y => some (Min.min x y)) := by
  intro x y z hx hy h
  cases h
  obtain ⟨h1, h2⟩ := hx
  obtain ⟨h3, h4⟩ := hy
  constructor <;> omega

theorem max_fit (n : Nat) : ArmFit n (total fun x y => some (Max.max x y)) := by
  intro x y z hx hy h
  cases h
  obtain ⟨h1, h2⟩ := hx
  obtain ⟨h3, h4⟩ := hy
  constructor <;> omega

end Mtmdd

namespace MtOp
open Mtmdd

/-- The terminal arm of an operation over `n`-bit integers. -/
def arm (b : Build) (n : Nat) : MtOp → Option (Int → Int → Option (Option Int))
  | add _ _ => some (machAdd b n)
  | sub _ _ => some (machSub b n)
  | mul _ _ => some (machMul b n)
  | div _ _ => some (machDiv n)
  | rem _ _ => some (machRem n)
  | min _ _ => some (total fun x y => some (Min.min x y))
  | max _ _ => some (total fun x y => some (Max.max x y))
  | replace _ _ => none

/-- The left and the right operand. -/
def fst : MtOp → Nat
  | add f _ | sub f _ | mul f _ | div f _ | rem f _ | min f _ | max f _ | replace f _ => f
@[inherit_doc fst]
def snd : MtOp → Nat
  | add _ g | sub _ g | mul _ g | div _ g | rem _ g | min _ g | max _ g | replace _ g => g

/-- What one point of the result must be. -/
def PtIn (b : Build) (n : Nat) (o : MtOp) (x y z : Option Int) : Prop :=
  match o.arm b n with
  | some tt => ptM tt x y z
  | none => over x y z

/-- The operation overflows at this point. -/
def OverIn (b : Build) (n : Nat) (o : MtOp) (x y : Option Int) : Prop :=
  match o.arm b n with
  | some tt => Over tt x y
  | none => False

end MtOp

namespace Mtmdd

/-- The outcome of an operation over `n`-bit integers. -/
theorem runIn_ok {b : Build} {n : Nat} {s : Mtmdd} (hs : InvA (machFn b n) s) (o : MtOp)
    (hl : ∀ i ∈ o.args, s.arena.Live i) :
    (o.runIn b n s = none ∧ s.arena.Hits (o.OverIn b n) o.fst o.snd) ∨
    ∃ r s', o.runIn b n s = some (r, s') ∧ InvA (machFn b n) s' ∧ Step s.arena s'.arena ∧ s'.arena.Live r ∧
      s'.arena.Sound (Op2 (o.PtIn b n) s.arena s.arena o.fst o.snd) r := by
  have fin : ∀ {k : Nat} {Φ : (Nat → Nat) → Option Int → Prop} {B : Prop} {res : Option (Nat × Mtmdd)},
      (engA (machFn b n)).POk s k Φ B res → (res = none ∧ B) ∨ ∃ r s', res = some (r, s') ∧ InvA (machFn b n) s' ∧
        Step s.arena s'.arena ∧ s'.arena.Live r ∧ s'.arena.Sound Φ r := by
    rintro k Φ B res (h | ⟨r, s', h1, h2, h3, h4, _, h6⟩)
    · exact .inl h
    · exact .inr ⟨r, s', h1, h2, h3, h4, h6⟩
  have nc : ∀ {p : Prop}, false = true → p := fun h => by cases h
  cases o with
  | add f g =>
    exact fin (bin_pok (mach_sane b n) (op := opAdd) rfl (fun _ _ _ h => h)
      (fun _ x y => by simp only [machAdd, Int.add_comm]) (fun _ x y => by simp only [machAdd, Int.add_comm])
      hs (hl f (by simp [MtOp.args])) (hl g (by simp [MtOp.args])))
  | sub f g =>
    exact fin (bin_pok (mach_sane b n) (op := opSub) rfl (fun _ _ _ h => h) nc nc
      hs (hl f (by simp [MtOp.args])) (hl g (by simp [MtOp.args])))
  | mul f g =>
    exact fin (bin_pok (mach_sane b n) (op := opMul) rfl (fun _ _ _ h => h)
      (fun _ x y => by simp only [machMul, Int.mul_comm]) (fun _ x y => by simp only [machMul, Int.mul_comm])
      hs (hl f (by simp [MtOp.args])) (hl g (by simp [MtOp.args])))
  | div f g =>
    exact fin (bin_pok (mach_sane b n) (op := opDiv) rfl (fun _ _ _ h => h) nc nc
      hs (hl f (by simp [MtOp.args])) (hl g (by simp [MtOp.args])))
  | rem f g =>
    exact fin (bin_pok (mach_sane b n) (op := opRem) rfl (fun _ _ _ h => h) nc nc
      hs (hl f (by simp [MtOp.args])) (hl g (by simp [MtOp.args])))
  | min f g =>
    exact fin (bin_pok (mach_sane b n) (op := opMin) rfl (fun _ _ _ h => h)
      (fun _ x y => by simp only [total, Int.min_comm]) (fun _ x y => by simp only [total, Int.min_comm])
      hs (hl f (by simp [MtOp.args])) (hl g (by simp [MtOp.args])))
  | max f g =>
    exact fin (bin_pok (mach_sane b n) (op := opMax) rfl (fun _ _ _ h => h)
      (fun _ x y => by simp only [total, Int.max_comm]) (fun _ x y => by simp only [total, Int.max_comm])
      hs (hl f (by simp [MtOp.args])) (hl g (by simp [MtOp.args])))
  | replace f g =>
    exact fin (B := s.arena.Hits (fun _ _ => False) f g) (replace_okA (mach_sane b n) hs (hl f (by simp [MtOp.args])) (hl g (by simp [MtOp.args]))).pok

/-- Operations keep the values in range. -/
theorem runIn_fit {b : Build} {n : Nat} (hn : 0 < n) {s s' : Mtmdd} (hs : AllFit n s) {o : MtOp} {r : Nat}
    (h : o.runIn b n s = some (r, s')) : AllFit n s' := by
  cases o with
  | add f g => exact bin_fit (machAdd_fit b hn) hs h
  | sub f g => exact bin_fit (machSub_fit b hn) hs h
  | mul f g => exact bin_fit (machMul_fit b hn) hs h
  | div f g => exact bin_fit (machDiv_fit n) hs h
  | rem f g => exact bin_fit (machRem_fit n) hs h
  | min f g => exact bin_fit (min_fit n) hs h
  | max f g => exact bin_fit (max_fit n) hs h
  | replace f g => exact replaceF_fit _ _ _ _ _ hs h

theorem ovf_dev {n : Nat} {v r : Int} (h : ovf .dev n v = some r) : r = v ∧ Fits n v := by
  unfold ovf at h
  split at h
  · cases h; exact ⟨rfl, by assumption⟩
  · cases h

/-- With overflow checks an operation that returns does what it does over the mathematical integers, and what it does
without overflow checks. -/
theorem runIn_dev {n : Nat} {s : Mtmdd} {o : MtOp} {p : Nat × Mtmdd} (h : o.runIn .dev n s = some p) :
    o.run s = some p ∧ o.runIn .release n s = some p := by
  have l1 : ∀ (e : Int → Int → Int) , ArmLe (fun x y => (ovf .dev n (e x y)).map some) (total fun x y => some (e x y)) := by
    intro e
    refine ⟨fun x y z h => ?_, fun x y h => by cases h⟩
    simp only [Option.map_eq_some_iff] at h
    obtain ⟨r, h, rfl⟩ := h
    rw [(ovf_dev h).1]
  have l2 : ∀ (e : Int → Int → Int) , ArmLe (fun x y => (ovf .dev n (e x y)).map some)
      (fun x y => (ovf .release n (e x y)).map some) := by
    intro e
    refine ⟨fun x y z h => ?_, fun x y h => ?_⟩
    · simp only [Option.map_eq_some_iff] at h ⊢
      obtain ⟨r, h, rfl⟩ := h
      obtain ⟨rfl, hf⟩ := ovf_dev h
      exact ⟨_, ovf_of_fits hf, rfl⟩
    · simp only [Option.map_eq_some_iff] at h
      obtain ⟨r, _, h⟩ := h
      cases h
  cases o with
  | add f g => exact ⟨bin_sub (l1 (· + ·)) h, bin_sub (l2 (· + ·)) h⟩
  | sub f g => exact ⟨bin_sub (l1 (· - ·)) h, bin_sub (l2 (· - ·)) h⟩
  | mul f g => exact ⟨bin_sub (l1 (· * ·)) h, bin_sub (l2 (· * ·)) h⟩
  | div f g =>
    refine ⟨bin_sub ⟨fun x y z h => ?_, fun x y h => ?_⟩ h, h⟩
    · unfold machDiv at h
      simp only [total]
      split at h
      · rename_i h0; rw [if_pos h0]; exact h
      · rename_i h0; rw [if_neg h0]; split at h <;> cases h; rfl
    · unfold machDiv
      simp only [total] at h
      split at h
      · rename_i h0; rw [if_pos h0]
      · cases h
  | rem f g =>
    refine ⟨bin_sub ⟨fun x y z h => ?_, fun x y h => ?_⟩ h, h⟩
    · unfold machRem at h
      simp only [total]
      split at h
      · rename_i h0; rw [if_pos h0]; exact h
      · rename_i h0; rw [if_neg h0]; split at h <;> cases h; rfl
    · unfold machRem
      simp only [total] at h
      split at h
      · rename_i h0; rw [if_pos h0]
      · cases h
  | min f g => exact ⟨h, h⟩
  | max f g => exact ⟨h, h⟩
  | replace f g => exact ⟨h, h⟩

/-- States a client of `MtMddManager` over `n`-bit integers can reach (conditions as for `Mtmdd.Reachable`). -/
inductive ReachableIn (b : Build) (n : Nat) : Mtmdd → Prop
  | new : ReachableIn b n Mtmdd.new
  | header {s : Mtmdd} (level : Nat) (label : String) (e : Nat) : ReachableIn b n s → 0 < e →
      (∀ hd ∈ s.arena.headers, hd.level = level → hd.edgeNum = e) →
      ReachableIn b n (s.createHeader level label e).2
  | value {s s' : Mtmdd} {r : Nat} (v : Int) : ReachableIn b n s → Fits n v → s.value v = some (r, s') →
      ReachableIn b n s'
  | node {s s' : Mtmdd} {h r : Nat} {ch : List Nat} {hd : Header} : ReachableIn b n s →
      s.arena.headers[h]? = some hd → ch.length = hd.edgeNum →
      (∀ c ∈ ch, s.arena.Live c ∧ ∀ l, s.arena.level? c = some l → l < hd.level) →
      s.createNode h ch = some (r, s') → ReachableIn b n s'
  | op {s s' : Mtmdd} {r : Nat} (o : MtOp) : ReachableIn b n s → (∀ i ∈ o.args, s.arena.Live i) →
      o.runIn b n s = some (r, s') → ReachableIn b n s'
  | gc {s s' : Mtmdd} {k : Nat} (roots : List Nat) : ReachableIn b n s →
      (∀ r ∈ roots, r < s.arena.nodes.length → s.arena.Live r) →
      s.gc roots = some (k, s') → ReachableIn b n s'
  | clear {s : Mtmdd} : ReachableIn b n s → ReachableIn b n s.clearCache

theorem ReachableIn.inv {b : Build} {n : Nat} (hn : 0 < n) {s : Mtmdd} (h : ReachableIn b n s) :
    InvA (machFn b n) s ∧ AllFit n s := by
  induction h with
  | new =>
    refine ⟨inv_new, ?_⟩
    intro v hv
    simp [Mtmdd.new] at hv
  | header l lab e _ he hc ih =>
    refine ⟨(createHeader_inv ih.1 l lab e he hc).1, ?_⟩
    intro v hv
    rw [(createHeader_inv ih.1 l lab e he hc).2.2.2.2.1] at hv
    exact ih.2 v hv
  | value v _ hv he ih =>
    obtain ⟨r, s', h1, h2, _⟩ := value_raw ih.1 v
    rw [he] at h1; cases h1
    exact ⟨h2, value_fit ih.2 hv he⟩
  | node _ hh hl hk he ih =>
    obtain ⟨r, s', h1, h2, _⟩ := createNode_ok ih.1 hh hl
      (fun c hc => ⟨(hk c hc).1, Bdd.rank_le_of_level (hk c hc).2⟩)
    rw [he] at h1; cases h1
    exact ⟨h2, createNode_fit _ _ _ _ _ ih.2 he⟩
  | op o _ hl he ih =>
    rcases runIn_ok ih.1 o hl with ⟨h1, _⟩ | ⟨r, s', h1, h2, _⟩
    · rw [he] at h1; cases h1
    · have := runIn_fit hn ih.2 he
      rw [he] at h1; cases h1
      exact ⟨h2, this⟩
  | gc roots _ hr he ih =>
    obtain ⟨k, s', h1, h2, _, h4, _⟩ := gc_ok ih.1 hr
    rw [he] at h1; cases h1
    refine ⟨h2, ?_⟩
    intro v hv
    rw [h4] at hv
    exact ih.2 v hv
  | clear _ ih => exact ⟨clearCache_inv ih.1, ih.2⟩

end Mtmdd
end DD
