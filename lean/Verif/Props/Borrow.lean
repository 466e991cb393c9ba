import Verif.Wrap.BorrowCalls

/-!
# Borrows of the shared cells and life of the handles: C79

`IsCall` lists the public calls by their borrows (Verif/Wrap/BorrowCalls.lean), `Run` gives the rules of `RefCell` and
`Weak` (Verif/Wrap/Borrow.lean).
-/

set_option autoImplicit false
set_option linter.unusedVariables false

namespace DD.Props
open Borrow

/-- All managers taken for one. -/
private def merge : Cell → Cell := fun c => ⟨c.kind, 0⟩

/-- The forests of the managers numbered 0. -/
private def forests0 : List Cell := [⟨.bdd, 0⟩, ⟨.zdd, 0⟩, ⟨.mdd, 0⟩, ⟨.zmdd, 0⟩]

set_option maxRecDepth 100000 in
private theorem all_fit (a b x : Nat) :
    ((mgrCalls a b x ++ freeCalls a ++ readCalls a ++ writeCalls a).all fun c => (c.prog.map merge).fits [] []) = true := by
  rfl

set_option maxRecDepth 100000 in
private theorem readers_fit (a : Nat) :
    ((freeCalls a ++ readCalls a).all fun c => (c.prog.map merge).fits forests0 []) = true := by rfl

theorem isCall_fits {p : Prog} (h : IsCall p) : p.fits [] [] = true := by
  obtain ⟨a, b, x, c, hc, rfl⟩ := h
  exact Prog.fits_of_map merge (List.all_eq_true.1 (all_fit a b x) c hc)

/-- A public call made while nothing is borrowed never fails to borrow, and nothing is borrowed after it, however it
ends.  Some run exists. -/
theorem C79_call {live : Cell → Prop} {p : Prog} (hp : IsCall p) :
    (∃ e t, Run live p idle e t) ∧ ∀ e t, Run live p idle e t → e ≠ .borrow ∧ t = idle :=
  ⟨Run.exists _ _ _, fun e t h => h.fits Agree.idle (isCall_fits hp)⟩

/-- The same for any number of calls, in any order, with managers dropped in between and panics caught. -/
theorem C79_session {ends : List End} {t : Flags} (h : Session IsCall idle ends t) : .borrow ∉ ends ∧ t = idle := by
  generalize hs : idle = s at h
  induction h with
  | nil => exact ⟨nofun, rfl⟩
  | call hp hr _ ih =>
    subst hs
    obtain ⟨h1, rfl⟩ := (C79_call hp).2 _ _ hr
    obtain ⟨h2, h3⟩ := ih rfl
    exact ⟨fun hm => (List.mem_cons.1 hm).elim (fun e => h1 e.symm) h2, h3⟩

/-- Whoever holds shared borrows of forests (`handle.get_mgr().borrow()`) may make every call of a handle or iterator
that is listed as reading. -/
theorem C79_reader {live : Cell → Prop} {a : Nat} {c : Call} (hc : c ∈ freeCalls a ++ readCalls a) {s : Flags}
    {held : List Cell} (hk : ∀ x ∈ held, x.kind = .bdd ∨ x.kind = .zdd ∨ x.kind = .mdd ∨ x.kind = .zmdd)
    (hs : ∀ x, s x ≠ .writing ∧ (s x ≠ .free → x ∈ held)) {e : End} {t : Flags} (h : Run live c.prog s e t) :
    e ≠ .borrow ∧ t = s := by
  refine h.fits (rd := held) (wr := []) (fun x => ⟨fun hw => absurd hw (hs x).1, fun hf => .inl ((hs x).2 hf)⟩) ?_
  refine Prog.fits_of_map merge (Prog.fits_anti (List.all_eq_true.1 (readers_fit a) c hc) ?_ (List.Subset.refl _))
  intro y hy
  obtain ⟨x, hx, rfl⟩ := List.mem_map.1 hy
  rcases hk x hx with h | h | h | h <;> simp [merge, forests0, h]

/-- The writing calls of handles with the forest they write to. -/
def writers (a : Nat) : List (Cell × Call) :=
  (bddWriteCalls (bddOf a)).map ((bddOf a).d, ·) ++ (zddWriteCalls (zddOf a)).map ((zddOf a).d, ·) ++
  (mddWriteCalls (mddOf a)).map ((mddOf a).d, ·) ++ (zmddWriteCalls (zmddOf a)).map ((zmddOf a).d, ·)

/-- The calls of handles whose first step asks for the forest. -/
def askers (a : Nat) : List (Cell × Call) :=
  (bddReadCalls (bddOf a)).map ((bddOf a).d, ·) ++ (zddReadCalls (zddOf a)).map ((zddOf a).d, ·) ++
  (mddReadCalls (mddOf a)).map ((mddOf a).d, ·) ++ (zmddReadCalls (zmddOf a)).map ((zmddOf a).d, ·) ++ writers a

private theorem writers_write (a : Nat) : ∀ x ∈ writers a, x.2.prog.writesFirst x.1 = true := by
  simp [writers, bddWriteCalls, zddWriteCalls, mddWriteCalls, zmddWriteCalls, Cells.op, Cells.readMut, steps,
    Prog.writesFirst]

private theorem askers_ask (a : Nat) : ∀ x ∈ askers a, x.2.prog.startsWithNeed x.1 = true := by
  simp [askers, writers, bddReadCalls, zddReadCalls, mddReadCalls, zmddReadCalls, bddWriteCalls, zddWriteCalls,
    mddWriteCalls, zmddWriteCalls, Cells.op, Cells.read, Cells.readMut, steps, zmddNext, Prog.startsWithNeed]

/-- Whoever holds a borrow of the forest makes every writing call of its handles panic, `prob`, `bmeas` and
`bdd_count` among them; the borrow stays as it was. -/
theorem C79_writer {live : Cell → Prop} {a : Nat} {d : Cell} {c : Call} (hc : (d, c) ∈ writers a) (hl : live d)
    {s : Flags} (hs : s d ≠ .free) {e : End} {t : Flags} (h : Run live c.prog s e t) : e = .borrow ∧ t = s :=
  h.writes hl hs (writers_write a _ hc)

/-- A handle whose forest is gone: every call that asks for the forest panics at once, and borrows nothing. -/
theorem C79_gone {live : Cell → Prop} {a : Nat} {d : Cell} {c : Call} (hc : (d, c) ∈ askers a) (hl : ¬ live d)
    {s : Flags} {e : End} {t : Flags} (h : Run live c.prog s e t) : e = .gone ∧ t = s :=
  h.starts hl (askers_ask a _ hc)

/-- `bdd_extract` of such a handle clones it first and then panics the same way, unless the clone panicked. -/
theorem C79_gone_extract {live : Cell → Prop} {a : Nat} (hl : ¬ live (bddOf a).d) {e : End} {t : Flags}
    (h : Run live (bddExtract (bddOf a)) idle e t) : (e = .gone ∨ e = .panic) ∧ t = idle := by
  have hf : (bddExtract (bddOf a)).fits [] [] = true := Prog.fits_of_map merge rfl
  have h0 := h.fits Agree.idle hf
  refine ⟨?_, h0.2⟩
  cases h with
  | seq _ h2 => exact .inl (h2.starts hl (by simp [steps, Cells.read, Prog.startsWithNeed])).1
  | seqStop h1 h2 =>
    cases e with
    | ok => exact absurd rfl h2
    | panic => exact .inr rfl
    | gone => exact .inl rfl
    | borrow => exact absurd rfl h0.1

/-- Cloning, dropping and comparing handles, their identities, and `extract` of families work without a forest. -/
theorem C79_free {live : Cell → Prop} {a : Nat} {c : Call} (hc : c ∈ freeCalls a) {s : Flags} {e : End} {t : Flags}
    (h : Run live c.prog s e t) : e ≠ .gone := by
  rintro rfl
  obtain ⟨x, hx, _⟩ := h.gone
  have : ∀ c ∈ freeCalls a, c.prog.needs = [] := by
    simp [freeCalls, bddFreeCalls, zddFreeCalls, mddFreeCalls, zmddFreeCalls, Cells.pin, Cells.unpin, Prog.needs]
  rw [this c hc] at hx
  cases hx

/-- A call of a manager misses a forest only if it is the forest of the node passed to `minpath` or `mincut`: its own
forest lives as long as the manager. -/
theorem C79_mgr {live : Cell → Prop} {a b x : Nat} {c : Call} (hc : c ∈ mgrCalls a b x)
    (ho : live (bddOf a).d ∧ live (zddOf a).d ∧ live (mddOf a).d) {s t : Flags} (h : Run live c.prog s .gone t) :
    (¬ live (bddOf x).d ∧ c ∈ bssCalls (bddOf a) (zddOf b) (bddOf x)) ∨
      (¬ live (mddOf x).d ∧ c ∈ mssCalls (mddOf a) (zmddOf b) (mddOf x)) := by
  obtain ⟨y, hy, hl⟩ := h.gone
  simp only [mgrCalls, List.mem_append] at hc
  have own : ∀ c ∈ bddMgrCalls (bddOf a) ++ zddMgrCalls (zddOf a) ++ mddMgrCalls (mddOf a) ++ zmddMgrCalls (zmddOf a),
      ∀ y ∈ c.prog.needs, y = (zddOf a).d ∨ y = (mddOf a).d := by
    simp [bddMgrCalls, zddMgrCalls, mddMgrCalls, zmddMgrCalls, Cells.make, Cells.wrap, Cells.pin, Cells.unpin,
      Cells.maybeGc, Cells.op, Cells.rewrap, Cells.read, bddDefvar, bddRpn, zddSingleton, zddFromSets, mddDefvar, mddRpn,
      mddVarorder, steps, Prog.needs]
  have no : c ∈ bddMgrCalls (bddOf a) ++ zddMgrCalls (zddOf a) ++ mddMgrCalls (mddOf a) ++ zmddMgrCalls (zmddOf a) →
      False := fun hm => (own c hm y hy).elim (fun e => hl (e ▸ ho.2.1)) (fun e => hl (e ▸ ho.2.2))
  have bs : ∀ c ∈ bssCalls (bddOf a) (zddOf b) (bddOf x), ∀ y ∈ c.prog.needs, y = (bddOf x).d := by
    simp [bssCalls, bssMinpath, Cells.wrap, Cells.pin, Cells.unpin, Cells.maybeGc, Cells.op, Cells.rewrap, steps,
      Prog.needs]
  have ms : ∀ c ∈ mssCalls (mddOf a) (zmddOf b) (mddOf x), ∀ y ∈ c.prog.needs, y = (mddOf x).d ∨ y = (mddOf a).d := by
    simp [mssCalls, mssSol, mddVarorder, Cells.wrap, Cells.pin, Cells.maybeGc, Cells.read, steps, Prog.needs]
  rcases hc with ((((hc | hc) | hc) | hc) | hc) | hc
  · exact (no (by simp [hc])).elim
  · exact (no (by simp [hc])).elim
  · exact .inl ⟨bs c hc y hy ▸ hl, hc⟩
  · exact (no (by simp [hc])).elim
  · exact (no (by simp [hc])).elim
  · exact .inr ⟨(ms c hc y hy).elim (fun e => e ▸ hl) (fun e => absurd ho.2.2 (e ▸ hl)), hc⟩

/-! ## Examples -/

/-- `BddNode::and` on a handle of manager 3. -/
example : IsCall (bddOf 3).op := ⟨3, 0, 0, ⟨"BddNode::and 444", (bddOf 3).op⟩, by simp [writeCalls, bddWriteCalls], rfl⟩

/-- Why `get_children` only pins: with `rewrap` inside its borrow, a collection that is due panics. -/
example : ∃ t, Run (fun _ => True) (.seq (.need (bddOf 0).d) (.shared (bddOf 0).d (bddOf 0).rewrap)) idle .borrow t := by
  refine ⟨_, .seq (.need trivial) (.shared (by decide) (.seq (.ifUp trivial (.excl (by decide) .work))
    (.ifUp trivial (.seq (.shared (by decide) (.shared (by decide) .work)) (.altR (.seq (.shared (by decide) .work)
      (.seqStop (.exclFail ?_) nofun)))))))⟩
  decide

/-- Forest 0 borrowed shared twice by the caller: the hypotheses of `C79_reader`, `C79_writer`. -/
example : let s : Flags := fun x => if x = (bddOf 0).d then .reading 1 else .free
    (∀ x, s x ≠ .writing ∧ (s x ≠ .free → x ∈ [(bddOf 0).d])) ∧ s (bddOf 0).d ≠ .free := by
  refine ⟨fun x => ?_, by decide⟩
  by_cases h : x = (bddOf 0).d <;> simp [h]

example : ((bddOf 0).d, (⟨"BddNode::prob 478", (bddOf 0).readMut⟩ : Call)) ∈ writers 0 := by
  simp [writers, bddWriteCalls]

/-- Two calls: one on a handle of a dropped manager, then a clone of it. -/
example : Session IsCall idle [.gone, .ok] idle :=
  .call (live := fun _ => False) (p := (bddOf 3).op)
    ⟨3, 0, 0, ⟨"BddNode::and 444", (bddOf 3).op⟩, by simp [writeCalls, bddWriteCalls], rfl⟩ (.seqStop (.needFail id) nofun)
    (.call (live := fun _ => False) (p := (bddOf 3).pin)
      ⟨3, 0, 0, ⟨"BddNode::clone 101", (bddOf 3).pin⟩, by simp [freeCalls, bddFreeCalls], rfl⟩ (.ifGone id) .nil)

end DD.Props
