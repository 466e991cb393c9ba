import Verif.Core.Work
import Verif.Bss.Dual

/-!
# The work done by `dual`

`dualW` is `dualF` (/repo/bss/src/bdd_dual.rs:12-37) with a tally.
-/

set_option autoImplicit false
set_option linter.unusedSectionVars false
set_option linter.unusedVariables false

namespace DD
open Arena

namespace Bdd

/-- /repo/bss/src/bdd_dual.rs:12-37 with a tally. -/
def dualW : Nat → (Bdd × AMap Nat Nat) × Tally → Nat → Option (Nat × (Bdd × AMap Nat Nat) × Tally)
  | 0, _, _ => none
  | n + 1, (p, t), f =>
    match p.2.get f with
    | some r => some (r, p, t.enter)
    | none =>
      match p.1.arena.node? f with
      | none => none
      | some (.term .zero) => some (one, (p.1, p.2.insert f one), t.enter.done f)
      | some (.term .one) => some (zero, (p.1, p.2.insert f zero), t.enter.done f)
      | some (.term .undet) => some (undet, (p.1, p.2.insert f undet), t.enter.done f)
      | some (.nt h [lo, hi]) =>
        match dualW n (p, t.enter) hi with
        | none => none
        | some (a, q) =>
          match dualW n q lo with
          | none => none
          | some (b, (s, c), t) =>
            match mkn s h [a, b] with
            | none => none
            | some (r, s) => some (r, (s, c.insert f r), t.done f)
      | some (.nt _ _) => none

/-- Counting does not change the result. -/
theorem dualW_erase : ∀ (n : Nat) (p : Bdd × AMap Nat Nat) (t : Tally) (f : Nat),
    (dualW n (p, t) f).map (fun x => (x.1, x.2.1)) = dualF n p f := by
  intro n
  induction n with
  | zero => intro p t f; rfl
  | succ n ih =>
    intro p t f
    unfold dualW dualF memo
    simp only
    cases p.2.get f with
    | some r => rfl
    | none =>
      simp only
      cases p.1.arena.node? f with
      | none => rfl
      | some nd =>
        match nd with
        | .term .zero => rfl
        | .term .one => rfl
        | .term .undet => rfl
        | .nt _ [] => rfl
        | .nt _ [_] => rfl
        | .nt _ (_ :: _ :: _ :: _) => rfl
        | .nt h [lo, hi] =>
          simp only [branchS, mapS]
          rw [← ih p t.enter hi]
          cases dualW n (p, t.enter) hi with
          | none => rfl
          | some x =>
            obtain ⟨a, p1, t1⟩ := x
            simp only [Option.map_some]
            rw [← ih p1 t1 lo]
            cases dualW n (p1, t1) lo with
            | none => rfl
            | some x =>
              obtain ⟨b, ⟨s2, c2⟩, t2⟩ := x
              simp only [Option.map_some, mknP]
              cases mkn s2 h [a, b] with
              | none => rfl
              | some y => rfl

theorem dualW_walk {m : Arena T3} (wf : WF RFull m) : ∀ (n : Nat) (p : Bdd × AMap Nat Nat) (t : Tally) (f : Nat),
    dualEng.Inv p → Step m p.1.arena → m.Live f → m.rank f < n → Seen m t.nodes → KeysAre p.2 t →
    ∃ r p' t', dualW n (p, t) f = some (r, p', t') ∧ dualEng.Inv p' ∧ Step m p'.1.arena ∧ Walk m [f] t t' ∧
      KeysAre p'.2 t' := by
  intro n
  induction n with
  | zero => intro p t f _ _ _ h; omega
  | succ n ih =>
    intro p t f hp st lf hr hs hk
    have ok := dualF_ok (n + 1) p f hp (st.keep _ lf).1 (by rw [wf.rank_ext st.toExt lf]; exact hr)
    obtain ⟨r, p', e, i', st', -⟩ := ok
    have he := dualW_erase (n + 1) p t f
    rw [e] at he
    have hkf := hk f
    have hst' : Step m p'.1.arena := st.trans st'
    revert he
    cases hw : dualW (n + 1) (p, t) f with
    | none => intro he; cases he
    | some x =>
      obtain ⟨r1, p1, t1⟩ := x
      intro he
      simp only [Option.map_some, Option.some.injEq, Prod.mk.injEq] at he
      obtain ⟨rfl, rfl⟩ := he
      refine ⟨r1, p1, t1, rfl, i', hst', ?_⟩
      unfold dualW at hw
      revert hw
      cases hg : p.2.get f with
      | some v =>
        intro hw
        rw [hg] at hkf
        cases hw
        exact ⟨.hit hs (hkf.1 rfl), hk⟩
      | none =>
        rw [hg] at hkf
        have hni : f ∉ t.nodes := fun e => by simpa using hkf.2 e
        have hnode : p.1.arena.node? f = m.nodes[f]? := (st.keep _ lf).2
        simp only [hnode]
        obtain ⟨nd, hn⟩ := lf.node
        rw [hn]
        match nd, hn with
        | .term .zero, hn =>
          intro hw; cases hw
          exact ⟨.leaf hs hni hn, KeysAre.done (t := t.enter) hk f _⟩
        | .term .one, hn =>
          intro hw; cases hw
          exact ⟨.leaf hs hni hn, KeysAre.done (t := t.enter) hk f _⟩
        | .term .undet, hn =>
          intro hw; cases hw
          exact ⟨.leaf hs hni hn, KeysAre.done (t := t.enter) hk f _⟩
        | .nt _ [], hn => intro hw; cases hw
        | .nt _ [_], hn => intro hw; cases hw
        | .nt _ (_ :: _ :: _ :: _), hn => intro hw; cases hw
        | .nt h [lo, hi], hn =>
          obtain ⟨hd, _, _, hrk, _, _, hkid⟩ := wf.nt lf hn
          have hhi := hkid hi (by simp)
          have hlo := hkid lo (by simp)
          obtain ⟨a, pa, ta, ea, ia, sa, wa, ka⟩ := ih p t.enter hi hp st hhi.1 (by omega) hs hk
          obtain ⟨b, pb, tb, eb, ib, sb, wb, kb⟩ := ih pa ta lo ia sa hlo.1 (by omega) wa.ok ka
          obtain ⟨s2, c2⟩ := pb
          simp only [ea, eb]
          cases mkn s2 h [a, b] with
          | none => intro hw; cases hw
          | some y =>
            intro hw
            cases hw
            exact ⟨.node wf lf hni hn (List.Perm.swap _ _ _) (wa.cons wb), kb.done f _⟩

/-- `dual` with the tally, from the fresh cache of /repo/bss/src/bdd.rs:508-516. -/
def dualWork (s : Bdd) (f : Nat) : Option (Nat × Bdd × Tally) :=
  (dualW (s.arena.rank f + 1) ((s, AMap.empty), Tally.zero) f).map fun x => (x.1, x.2.1.1, x.2.2)

/-- `dual` computes each reachable node exactly once. -/
theorem dualWork_ok {s : Bdd} (hs : Inv s) {f : Nat} (lf : s.arena.Live f) :
    ∃ r s' t, dualWork s f = some (r, s', t) ∧ s.dual f = some (r, s') ∧ t.nodes.Nodup ∧
      (∀ j, j ∈ t.nodes ↔ Reach s.arena f j) ∧ t.calls = 1 + (t.nodes.map s.arena.outDeg).sum := by
  obtain ⟨r, p', t, e, -, -, w, -⟩ := dualW_walk hs.wf (s.arena.rank f + 1) (s, AMap.empty) Tally.zero f
    ⟨hs, by intro f r h; cases h⟩ (Step.refl _) lf (Nat.lt_succ_self _) ⟨List.nodup_nil, by simp [Tally.zero]⟩
    (by intro j; simp [Tally.zero])
  have he := dualW_erase (s.arena.rank f + 1) (s, AMap.empty) Tally.zero f
  rw [e] at he
  refine ⟨r, p'.1, t, by simp [dualWork, e], ?_, w.ok.nodup, fun j => ?_, ?_⟩
  · unfold dual
    rw [← he]
    rfl
  · rw [w.mem]; simp [Tally.zero]
  · have := w.calls
    simp only [Tally.zero, List.map_nil, List.sum_nil, List.length_cons, List.length_nil] at this
    omega

end Bdd
end DD
