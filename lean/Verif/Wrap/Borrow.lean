import Mathlib.Data.List.Basic

/-!
# Borrows of the shared cells

The wrappers keep every forest and its collector state in an `Rc<RefCell<..>>` each; handles hold `Weak` references.
Here a call is reduced to its borrows: `borrow`/`borrow_mut` guards with their scopes, `upgrade`s, and the work done in
between, which may panic for reasons of its own.
-/

set_option autoImplicit false
set_option linter.unusedVariables false

namespace DD.Borrow

/-- Which cell of a manager: the forests of `BddMgr`, `ZddMgr`, `MddMgr`, `ZmddMgr` and their `GcState`s
(/repo/bss/src/bdd.rs:55-59, /repo/bss/src/zdd.rs:45-51, /repo/mss/src/mdd.rs:53-57, /repo/mss/src/zmdd.rs:44-47). -/
inductive Kind where
  | bdd | bddGc | zdd | zddGc | mdd | mddGc | zmdd | zmddGc
deriving DecidableEq, Repr

/-- A cell: which kind, of which manager. -/
structure Cell where
  kind : Kind
  mgr : Nat
deriving DecidableEq, Repr

/-- The borrows of a piece of code. -/
inductive Prog where
  /-- nothing -/
  | done
  /-- code that borrows nothing; it may panic -/
  | work
  /-- one after the other -/
  | seq (p q : Prog)
  /-- one of the two -/
  | alt (p q : Prog)
  /-- any number of times -/
  | star (p : Prog)
  /-- `cell.borrow()` with a guard that lives as long as `p` -/
  | shared (c : Cell) (p : Prog)
  /-- `cell.borrow_mut()` with a guard that lives as long as `p` -/
  | excl (c : Cell) (p : Prog)
  /-- `weak.upgrade().unwrap()` -/
  | need (c : Cell)
  /-- `if let Some(_) = weak.upgrade() { p }` -/
  | ifUp (c : Cell) (p : Prog)
deriving DecidableEq, Repr

/-- The borrow flag of a `RefCell`. -/
inductive Flag where
  | free
  /-- `n + 1` shared guards -/
  | reading (n : Nat)
  | writing
deriving DecidableEq, Repr

/-- A further shared guard. -/
def Flag.read : Flag → Flag
  | .free => .reading 0
  | .reading n => .reading (n + 1)
  | .writing => .writing

/-- A shared guard is dropped. -/
def Flag.unread : Flag → Flag
  | .reading (n + 1) => .reading n
  | .reading 0 => .free
  | f => f

/-- How a piece of code ends. -/
inductive End where
  /-- it returns -/
  | ok
  /-- a panic of the work itself -/
  | panic
  /-- `unwrap` of a failed `upgrade` -/
  | gone
  /-- `already borrowed` / `already mutably borrowed` -/
  | borrow
deriving DecidableEq, Repr

abbrev Flags := Cell → Flag

def Flags.set (s : Flags) (c : Cell) (f : Flag) : Flags := fun x => if x = c then f else s x

/-- Runs of a program.  `live` tells which cells still have a strong reference.  Guards are dropped when their scope
ends, by a panic as well. -/
inductive Run (live : Cell → Prop) : Prog → Flags → End → Flags → Prop
  | done {s : Flags} : Run live .done s .ok s
  | work {s : Flags} : Run live .work s .ok s
  | panic {s : Flags} : Run live .work s .panic s
  | seq {p q : Prog} {s t u : Flags} {e : End} : Run live p s .ok t → Run live q t e u → Run live (.seq p q) s e u
  | seqStop {p q : Prog} {s t : Flags} {e : End} : Run live p s e t → e ≠ .ok → Run live (.seq p q) s e t
  | altL {p q : Prog} {s t : Flags} {e : End} : Run live p s e t → Run live (.alt p q) s e t
  | altR {p q : Prog} {s t : Flags} {e : End} : Run live q s e t → Run live (.alt p q) s e t
  | starStop {p : Prog} {s : Flags} : Run live (.star p) s .ok s
  | starStep {p : Prog} {s t u : Flags} {e : End} : Run live p s .ok t → Run live (.star p) t e u →
      Run live (.star p) s e u
  | starPanic {p : Prog} {s t : Flags} {e : End} : Run live p s e t → e ≠ .ok → Run live (.star p) s e t
  | shared {c : Cell} {p : Prog} {s t : Flags} {e : End} : s c ≠ .writing → Run live p (s.set c (s c).read) e t →
      Run live (.shared c p) s e (t.set c (t c).unread)
  | sharedFail {c : Cell} {p : Prog} {s : Flags} : s c = .writing → Run live (.shared c p) s .borrow s
  | excl {c : Cell} {p : Prog} {s t : Flags} {e : End} : s c = .free → Run live p (s.set c .writing) e t →
      Run live (.excl c p) s e (t.set c .free)
  | exclFail {c : Cell} {p : Prog} {s : Flags} : s c ≠ .free → Run live (.excl c p) s .borrow s
  | need {c : Cell} {s : Flags} : live c → Run live (.need c) s .ok s
  | needFail {c : Cell} {s : Flags} : ¬ live c → Run live (.need c) s .gone s
  | ifUp {c : Cell} {p : Prog} {s t : Flags} {e : End} : live c → Run live p s e t → Run live (.ifUp c p) s e t
  | ifGone {c : Cell} {p : Prog} {s : Flags} : ¬ live c → Run live (.ifUp c p) s .ok s

/-- No cell is borrowed. -/
def idle : Flags := fun _ => .free

/-- A check of all borrows: `rd` and `wr` are the cells with shared and exclusive guards. -/
def Prog.fits (rd wr : List Cell) : Prog → Bool
  | .done | .work | .need _ => true
  | .seq p q | .alt p q => p.fits rd wr && q.fits rd wr
  | .star p | .ifUp _ p => p.fits rd wr
  | .shared c p => !wr.contains c && p.fits (c :: rd) wr
  | .excl c p => !wr.contains c && !rd.contains c && p.fits rd (c :: wr)

/-- The flags agree with the guards. -/
def Agree (s : Flags) (rd wr : List Cell) : Prop :=
  ∀ c, (s c = .writing → c ∈ wr) ∧ (s c ≠ .free → c ∈ rd ∨ c ∈ wr)

theorem Agree.idle : Agree idle [] [] := fun c => ⟨nofun, fun h => absurd rfl h⟩

theorem unread_read (f : Flag) (h : f ≠ .writing) : f.read.unread = f := by
  cases f with
  | free => rfl
  | reading n => rfl
  | writing => exact absurd rfl h

theorem Flags.set_get (s : Flags) (c : Cell) (f : Flag) : s.set c f c = f := by simp [Flags.set]
theorem Flags.set_same (s : Flags) (c : Cell) (f g : Flag) (h : s c = g) : (s.set c f).set c g = s := by
  funext x
  by_cases hx : x = c
  · subst hx; simp [Flags.set, h]
  · simp [Flags.set, hx]

theorem Agree.read {s : Flags} {rd wr : List Cell} (h : Agree s rd wr) {c : Cell} (hc : c ∉ wr) :
    Agree (s.set c (s c).read) (c :: rd) wr := by
  intro x
  by_cases hx : x = c
  · subst hx
    have : s x ≠ .writing := fun e => hc ((h x).1 e)
    rw [Flags.set_get]
    refine ⟨fun e => ?_, fun _ => .inl (List.mem_cons_self ..)⟩
    cases hs : s x <;> rw [hs] at e <;> first | exact absurd hs this | cases e
  · simp only [Flags.set, hx, if_false]
    exact ⟨(h x).1, fun e => ((h x).2 e).imp (List.mem_cons_of_mem _) id⟩

theorem Agree.write {s : Flags} {rd wr : List Cell} (h : Agree s rd wr) (c : Cell) :
    Agree (s.set c .writing) rd (c :: wr) := by
  intro x
  by_cases hx : x = c
  · subst hx
    exact ⟨fun _ => List.mem_cons_self .., fun _ => .inr (List.mem_cons_self ..)⟩
  · simp only [Flags.set, hx, if_false]
    exact ⟨fun e => List.mem_cons_of_mem _ ((h x).1 e), fun e => ((h x).2 e).imp id (List.mem_cons_of_mem _)⟩

/-- A program that fits never fails to borrow and leaves the flags as they were. -/
theorem Run.fits {live : Cell → Prop} {p : Prog} {s t : Flags} {e : End} (h : Run live p s e t) {rd wr : List Cell}
    (ha : Agree s rd wr) (hf : p.fits rd wr = true) : e ≠ .borrow ∧ t = s := by
  induction h generalizing rd wr with
  | done => exact ⟨nofun, rfl⟩
  | work => exact ⟨nofun, rfl⟩
  | panic => exact ⟨nofun, rfl⟩
  | seq _ _ ih1 ih2 =>
    simp only [Prog.fits, Bool.and_eq_true] at hf
    obtain ⟨_, rfl⟩ := ih1 ha hf.1
    exact ih2 ha hf.2
  | seqStop _ _ ih =>
    simp only [Prog.fits, Bool.and_eq_true] at hf
    exact ih ha hf.1
  | altL _ ih => simp only [Prog.fits, Bool.and_eq_true] at hf; exact ih ha hf.1
  | altR _ ih => simp only [Prog.fits, Bool.and_eq_true] at hf; exact ih ha hf.2
  | starStop => exact ⟨nofun, rfl⟩
  | starStep _ _ ih1 ih2 =>
    have hf' := hf
    simp only [Prog.fits] at hf'
    obtain ⟨_, rfl⟩ := ih1 ha hf'
    exact ih2 ha hf
  | starPanic _ _ ih => simp only [Prog.fits] at hf; exact ih ha hf
  | @shared c p s t e hw _ ih =>
    simp only [Prog.fits, Bool.and_eq_true, Bool.not_eq_true', List.contains_eq_mem, decide_eq_false_iff_not] at hf
    obtain ⟨h1, rfl⟩ := ih (ha.read hf.1) hf.2
    refine ⟨h1, ?_⟩
    rw [Flags.set_get, unread_read _ hw]
    exact Flags.set_same _ _ _ _ rfl
  | sharedFail hw =>
    simp only [Prog.fits, Bool.and_eq_true, Bool.not_eq_true', List.contains_eq_mem, decide_eq_false_iff_not] at hf
    exact absurd ((ha _).1 hw) hf.1
  | excl hw _ ih =>
    simp only [Prog.fits, Bool.and_eq_true, Bool.not_eq_true', List.contains_eq_mem, decide_eq_false_iff_not] at hf
    obtain ⟨h1, rfl⟩ := ih (ha.write _) hf.2
    exact ⟨h1, Flags.set_same _ _ _ _ hw⟩
  | exclFail hw =>
    simp only [Prog.fits, Bool.and_eq_true, Bool.not_eq_true', List.contains_eq_mem, decide_eq_false_iff_not] at hf
    exact ((ha _).2 hw).elim (fun h => absurd h hf.1.2) (fun h => absurd h hf.1.1)
  | need _ => exact ⟨nofun, rfl⟩
  | needFail _ => exact ⟨nofun, rfl⟩
  | ifUp _ _ ih => simp only [Prog.fits] at hf; exact ih ha hf
  | ifGone _ => exact ⟨nofun, rfl⟩

/-- The same program with other cells. -/
def Prog.map (f : Cell → Cell) : Prog → Prog
  | .done => .done
  | .work => .work
  | .seq p q => .seq (p.map f) (q.map f)
  | .alt p q => .alt (p.map f) (q.map f)
  | .star p => .star (p.map f)
  | .shared c p => .shared (f c) (p.map f)
  | .excl c p => .excl (f c) (p.map f)
  | .need c => .need (f c)
  | .ifUp c p => .ifUp (f c) (p.map f)

/-- It is enough to check a program with several cells taken for one. -/
theorem Prog.fits_of_map (f : Cell → Cell) {p : Prog} {rd wr : List Cell}
    (h : (p.map f).fits (rd.map f) (wr.map f) = true) : p.fits rd wr = true := by
  induction p generalizing rd wr with
  | done => rfl
  | work => rfl
  | need c => rfl
  | seq p q ih1 ih2 =>
    simp only [Prog.map, Prog.fits, Bool.and_eq_true] at h ⊢
    exact ⟨ih1 h.1, ih2 h.2⟩
  | alt p q ih1 ih2 =>
    simp only [Prog.map, Prog.fits, Bool.and_eq_true] at h ⊢
    exact ⟨ih1 h.1, ih2 h.2⟩
  | star p ih => simp only [Prog.map, Prog.fits] at h ⊢; exact ih h
  | ifUp c p ih => simp only [Prog.map, Prog.fits] at h ⊢; exact ih h
  | shared c p ih =>
    simp only [Prog.map, Prog.fits, Bool.and_eq_true, Bool.not_eq_true', List.contains_eq_mem,
      decide_eq_false_iff_not] at h ⊢
    exact ⟨fun hc => h.1 (List.mem_map_of_mem hc), ih (by simpa using h.2)⟩
  | excl c p ih =>
    simp only [Prog.map, Prog.fits, Bool.and_eq_true, Bool.not_eq_true', List.contains_eq_mem,
      decide_eq_false_iff_not] at h ⊢
    exact ⟨⟨fun hc => h.1.1 (List.mem_map_of_mem hc), fun hc => h.1.2 (List.mem_map_of_mem hc)⟩, ih (by simpa using h.2)⟩

/-- Cells whose `upgrade` is unwrapped. -/
def Prog.needs : Prog → List Cell
  | .done | .work => []
  | .seq p q | .alt p q => p.needs ++ q.needs
  | .star p | .ifUp _ p | .shared _ p | .excl _ p => p.needs
  | .need c => [c]

theorem Run.gone {live : Cell → Prop} {p : Prog} {s t : Flags} (h : Run live p s .gone t) :
    ∃ c ∈ p.needs, ¬ live c := by
  generalize he : End.gone = e at h
  induction h with
  | seq _ _ _ ih => obtain ⟨c, h1, h2⟩ := ih he; exact ⟨c, List.mem_append_right _ h1, h2⟩
  | seqStop _ _ ih => obtain ⟨c, h1, h2⟩ := ih he; exact ⟨c, List.mem_append_left _ h1, h2⟩
  | altL _ ih => obtain ⟨c, h1, h2⟩ := ih he; exact ⟨c, List.mem_append_left _ h1, h2⟩
  | altR _ ih => obtain ⟨c, h1, h2⟩ := ih he; exact ⟨c, List.mem_append_right _ h1, h2⟩
  | starStep _ _ _ ih => exact ih he
  | starPanic _ _ ih => exact ih he
  | shared _ _ ih => exact ih he
  | excl _ _ ih => exact ih he
  | needFail h => exact ⟨_, List.mem_singleton.2 rfl, h⟩
  | ifUp _ _ ih => exact ih he
  | _ => cases he

/-- The first thing the program does on every run is to unwrap an `upgrade` of `c`. -/
def Prog.startsWithNeed (c : Cell) : Prog → Bool
  | .need d => c == d
  | .seq p _ => p.startsWithNeed c
  | .alt p q => p.startsWithNeed c && q.startsWithNeed c
  | _ => false

theorem Run.starts {live : Cell → Prop} {c : Cell} (hc : ¬ live c) {p : Prog} {s t : Flags} {e : End}
    (h : Run live p s e t) (hp : p.startsWithNeed c = true) : e = .gone ∧ t = s := by
  induction h with
  | seq _ _ ih _ => simp only [Prog.startsWithNeed] at hp; exact absurd (ih hp).1 nofun
  | seqStop _ _ ih => simp only [Prog.startsWithNeed] at hp; exact ih hp
  | altL _ ih => simp only [Prog.startsWithNeed, Bool.and_eq_true] at hp; exact ih hp.1
  | altR _ ih => simp only [Prog.startsWithNeed, Bool.and_eq_true] at hp; exact ih hp.2
  | need h =>
    simp only [Prog.startsWithNeed, beq_iff_eq] at hp
    subst hp
    exact absurd h hc
  | needFail _ => exact ⟨rfl, rfl⟩
  | _ => cases hp

/-- Fewer guards do no harm. -/
theorem Prog.fits_anti {p : Prog} {rd wr rd' wr' : List Cell} (h : p.fits rd wr = true) (hr : rd' ⊆ rd) (hw : wr' ⊆ wr) :
    p.fits rd' wr' = true := by
  induction p generalizing rd wr rd' wr' with
  | done => rfl
  | work => rfl
  | need c => rfl
  | seq p q ih1 ih2 =>
    simp only [Prog.fits, Bool.and_eq_true] at h ⊢
    exact ⟨ih1 h.1 hr hw, ih2 h.2 hr hw⟩
  | alt p q ih1 ih2 =>
    simp only [Prog.fits, Bool.and_eq_true] at h ⊢
    exact ⟨ih1 h.1 hr hw, ih2 h.2 hr hw⟩
  | star p ih => simp only [Prog.fits] at h ⊢; exact ih h hr hw
  | ifUp c p ih => simp only [Prog.fits] at h ⊢; exact ih h hr hw
  | shared c p ih =>
    simp only [Prog.fits, Bool.and_eq_true, Bool.not_eq_true', List.contains_eq_mem, decide_eq_false_iff_not] at h ⊢
    exact ⟨fun hc => h.1 (hw hc), ih h.2 (List.cons_subset_cons _ hr) hw⟩
  | excl c p ih =>
    simp only [Prog.fits, Bool.and_eq_true, Bool.not_eq_true', List.contains_eq_mem, decide_eq_false_iff_not] at h ⊢
    exact ⟨⟨fun hc => h.1.1 (hw hc), fun hc => h.1.2 (hr hc)⟩, ih h.2 hr (List.cons_subset_cons _ hw)⟩

/-- Every program has a run. -/
theorem Run.exists (live : Cell → Prop) (p : Prog) (s : Flags) : ∃ e t, Run live p s e t := by
  induction p generalizing s with
  | done => exact ⟨_, _, .done⟩
  | work => exact ⟨_, _, .work⟩
  | seq p q ih1 ih2 =>
    obtain ⟨e, t, h⟩ := ih1 s
    by_cases he : e = .ok
    · subst he
      obtain ⟨e', u, h'⟩ := ih2 t
      exact ⟨_, _, .seq h h'⟩
    · exact ⟨_, _, .seqStop h he⟩
  | alt p q ih1 _ => obtain ⟨e, t, h⟩ := ih1 s; exact ⟨_, _, .altL h⟩
  | star p _ => exact ⟨_, _, .starStop⟩
  | shared c p ih =>
    by_cases hs : s c = .writing
    · exact ⟨_, _, .sharedFail hs⟩
    · obtain ⟨e, t, h⟩ := ih (s.set c (s c).read); exact ⟨_, _, .shared hs h⟩
  | excl c p ih =>
    by_cases hs : s c = .free
    · obtain ⟨e, t, h⟩ := ih (s.set c .writing); exact ⟨_, _, .excl hs h⟩
    · exact ⟨_, _, .exclFail hs⟩
  | need c =>
    by_cases hl : live c
    · exact ⟨_, _, .need hl⟩
    · exact ⟨_, _, .needFail hl⟩
  | ifUp c p ih =>
    by_cases hl : live c
    · obtain ⟨e, t, h⟩ := ih s; exact ⟨_, _, .ifUp hl h⟩
    · exact ⟨_, _, .ifGone hl⟩

/-- `upgrade` of `c`, then at once `borrow_mut`. -/
def Prog.writesFirst (c : Cell) : Prog → Bool
  | .seq (.need d) (.excl e _) => d == c && e == c
  | .seq (.need d) (.seq (.excl e _) _) => d == c && e == c
  | _ => false

theorem Run.excl_held {live : Cell → Prop} {c : Cell} {p : Prog} {s t : Flags} {e : End} (hs : s c ≠ .free)
    (h : Run live (.excl c p) s e t) : e = .borrow ∧ t = s := by
  cases h with
  | excl h _ => exact absurd h hs
  | exclFail _ => exact ⟨rfl, rfl⟩

theorem Run.writes {live : Cell → Prop} {c : Cell} (hc : live c) {p : Prog} {s t : Flags} {e : End} (hs : s c ≠ .free)
    (h : Run live p s e t) (hp : p.writesFirst c = true) : e = .borrow ∧ t = s := by
  unfold Prog.writesFirst at hp
  split at hp
  · simp only [Bool.and_eq_true, beq_iff_eq] at hp
    obtain ⟨rfl, rfl⟩ := hp
    cases h with
    | seq h1 h2 => cases h1; exact h2.excl_held hs
    | seqStop h1 h2 => cases h1 with
      | need _ => exact absurd rfl h2
      | needFail h => exact absurd hc h
  · simp only [Bool.and_eq_true, beq_iff_eq] at hp
    obtain ⟨rfl, rfl⟩ := hp
    cases h with
    | seq h1 h2 =>
      cases h1
      cases h2 with
      | seq h3 _ => exact absurd (h3.excl_held hs).1 nofun
      | seqStop h3 _ => exact h3.excl_held hs
    | seqStop h1 h2 => cases h1 with
      | need _ => exact absurd rfl h2
      | needFail h => exact absurd hc h
  · cases hp

/-- Any number of calls one after the other, each a program that satisfies `P`; `ends` are their ends.  A call that
panicked may be followed by others, and managers may be dropped in between. -/
inductive Session (P : Prog → Prop) : Flags → List End → Flags → Prop
  | nil {s : Flags} : Session P s [] s
  | call {live : Cell → Prop} {p : Prog} {e : End} {s t u : Flags} {ends : List End} : P p → Run live p s e t →
      Session P t ends u → Session P s (e :: ends) u

end DD.Borrow
