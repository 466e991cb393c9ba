import Verif.Bdd.Depth
import Verif.Mdd.Depth
import Verif.Mtmdd.Depth
import Verif.Mtmdd2.Depth
import Verif.Zdd.Depth
import Verif.Zmdd.Depth
import Verif.Ev.Depth
import Verif.Props.Size
import Verif.Props.SizeMss
import Verif.Props.Zdd
import Verif.Props.Mss
import Verif.Props.Evmdd

/-!
# Property C75: recursion depth

The recursive functions of the model take the number of nested calls that are still allowed, and fail when it is used
up.  Here: any limit above the number of variables changes nothing, so no operation recurses deeper than that.
Calls to *other* operations (`xor` to `not`, `product` to `union`, `divide` to `intersect`) start a recursion of their
own, again with at most one nested call per variable.
-/

set_option autoImplicit false
set_option linter.unusedSectionVars false
set_option linter.unusedVariables false

namespace DD

/-- The call returns `r`, and needs at most `N + 1` nested calls of the recursive function: every limit above `N` gives
the same outcome.  `F n` is the call with at most `n` nested calls. -/
def Within {α : Type} (N : Nat) (F : Nat → Option α) (r : Option α) : Prop := r.isSome ∧ ∀ n, N < n → F n = r

theorem Within.of {α : Type} {N k : Nat} {F : Nat → Option α} {x : α} (lim : ∀ n, Lim (F n) (F (n + 1)))
    (he : F (k + 1) = some x) (hk : k ≤ N) : Within N F (F (k + 1)) :=
  ⟨by rw [he]; rfl, fun n hn => ((Lim.mono lim (show k + 1 ≤ n by omega)).eq he).trans he.symm⟩

namespace Arena
variable {T : Type} {m : Arena T}

theorem rank_le_of_levels {N : Nat} (h : ∀ hd ∈ m.headers, hd.level < N) (i : Nat) : m.rank i ≤ N := by
  unfold rank level?
  cases m.nodes[i]? with
  | none => exact Nat.zero_le _
  | some n =>
    cases n with
    | term t => exact Nat.zero_le _
    | nt x ch =>
      simp only
      cases hh : m.headers[x]? with
      | none => exact Nat.zero_le _
      | some hd => exact h hd (List.mem_of_getElem? hh)

end Arena

theorem mkHeaders_level {names : List String} : ∀ hd ∈ mkHeaders names, hd.level < names.length := by
  intro hd hm
  obtain ⟨k, hk⟩ := List.mem_iff_getElem?.1 hm
  obtain ⟨s, h1, rfl⟩ := mkHeaders_get.1 hk
  exact (List.getElem?_eq_some_iff.1 h1).1

theorem mkH_level {vs : List (String × Nat)} : ∀ hd ∈ mkH vs, hd.level < vs.length := by
  intro hd hm
  obtain ⟨k, hk⟩ := List.mem_iff_getElem?.1 hm
  obtain ⟨s, h1, rfl⟩ := mkH_get.1 hk
  exact (List.getElem?_eq_some_iff.1 h1).1

namespace Props
open Arena

/-! ## BDDs -/

/-- **C75.** On handles of a BDD manager `not`, `and`, `or`, `xor`, `ite` nest at most one call per variable, plus
one. -/
theorem C75_bdd_depth {w : World} (hw : w.Reachable) {f g h i j k : Nat} (hf : w.held.get f = some i)
    (hg : w.held.get g = some j) (hh : w.held.get h = some k) :
    let b := w.mgr.bdd
    let N := w.mgr.vars.len
    Within N (fun n => Bdd.notF n b i) (b.not i) ∧ Within N (fun n => Bdd.andF n b (i, j)) (b.and i j) ∧
    Within N (fun n => Bdd.orF n b (i, j)) (b.or i j) ∧ Within N (fun n => Bdd.xorF n b (i, j)) (b.xor i j) ∧
    Within N (fun n => Bdd.iteF n b (i, j, k)) (b.ite i j k) := by
  intro b N
  obtain ⟨A, R⟩ := hw.rel
  have hr : ∀ x, b.arena.rank x ≤ N := rank_le_of_levels (by
    intro hd hm
    have hm : hd ∈ w.mgr.bdd.arena.headers := hm
    rw [R.mok.hdrs] at hm
    have := mkHeaders_level hd hm
    have e : N = A.names.length := R.mok.varsLen
    omega)
  obtain ⟨_, _, di⟩ := R.heldS f i hf
  obtain ⟨_, _, dj⟩ := R.heldS g j hg
  obtain ⟨_, _, dk⟩ := R.heldS h k hh
  have I := R.mok.inv
  obtain ⟨_, _, e1, _⟩ := Bdd.not_ok I di.live
  obtain ⟨_, _, e2, _⟩ := Bdd.and_ok I di.live dj.live
  obtain ⟨_, _, e3, _⟩ := Bdd.or_ok I di.live dj.live
  obtain ⟨_, _, e4, _⟩ := Bdd.xor_ok I di.live dj.live
  obtain ⟨_, _, e5, _⟩ := Bdd.ite_ok I di.live dj.live dk.live
  have a := hr i
  have b := hr j
  have c := hr k
  exact ⟨.of (fun n => Bdd.notF_lim n _ _) e1 (hr i), .of (fun n => Bdd.andF_lim n _ _) e2 (Nat.max_le.2 ⟨hr i, hr j⟩),
    .of (fun n => Bdd.orF_lim n _ _) e3 (Nat.max_le.2 ⟨hr i, hr j⟩),
    .of (fun n => Bdd.xorF_lim n _ _) e4 (Nat.max_le.2 ⟨hr i, hr j⟩),
    .of (fun n => Bdd.iteF_lim n _ _) e5 (Nat.max_le.2 ⟨hr i, Nat.max_le.2 ⟨hr j, hr k⟩⟩)⟩

/-! ## ZDDs -/

/-- **C75.** On handles of a ZDD manager `union`, `intersect`, `setdiff`, `product`, `divide` nest at most one call
per variable, plus one. -/
theorem C75_zdd_depth {w : ZWorld} (hw : w.Reachable) {f g i j : Nat} (hf : w.hs.held.get f = some i)
    (hg : w.hs.held.get g = some j) :
    let z := w.mgr.w.eng
    let N := z.arena.headers.length
    Within N (fun n => Zdd.unionF n z (i, j)) (z.union i j) ∧
    Within N (fun n => Zdd.intersectF n z (i, j)) (z.intersect i j) ∧
    Within N (fun n => Zdd.setdiffF n z (i, j)) (z.setdiff i j) ∧
    Within N (fun n => Zdd.productF n z (i, j)) (z.product i j) ∧
    Within N (fun n => Zdd.divideF n z (i, j)) (z.divide i j) := by
  intro z N
  obtain ⟨names, R⟩ := hw.rel
  have hr : ∀ x, z.arena.rank x ≤ N := rank_le_of_levels (by
    intro hd hm
    have hm : hd ∈ w.mgr.w.eng.arena.headers := hm
    have e : N = names.length := by
      show w.mgr.w.eng.arena.headers.length = _
      rw [R.mok.hdrs]; simp [mkHeaders]
    rw [R.mok.hdrs] at hm
    have := mkHeaders_level hd hm
    omega)
  obtain ⟨_, di, _⟩ := R.has hf
  obtain ⟨_, dj, _⟩ := R.has hg
  have I := R.mok.ok.inv
  obtain ⟨_, _, e1, _⟩ := Zdd.union_ok I di.live dj.live
  obtain ⟨_, _, e2, _⟩ := Zdd.intersect_ok I di.live dj.live
  obtain ⟨_, _, e3, _⟩ := Zdd.setdiff_ok I di.live dj.live
  obtain ⟨_, _, e4, _⟩ := Zdd.product_ok I di.live dj.live
  obtain ⟨_, _, e5, _⟩ := Zdd.divide_ok I di.live dj.live
  have m := Nat.max_le.2 ⟨hr i, hr j⟩
  exact ⟨.of (fun n => Zdd.unionF_lim n _ _) e1 m, .of (fun n => Zdd.intersectF_lim n _ _) e2 m,
    .of (fun n => Zdd.setdiffF_lim n _ _) e3 m, .of (fun n => Zdd.productF_lim n _ _) e4 m,
    .of (fun n => Zdd.divideF_lim n _ _) e5 m⟩

/-! ## MDDs -/

section
variable {w : MWorld}

theorem mdd_ranks {vs : List (String × Nat)} (R : MRel w vs) :
    (∀ x, w.mgr.w.eng.mdd.arena.rank x ≤ w.mgr.vars.len) ∧ ∀ x, w.mgr.w.eng.mtmdd.arena.rank x ≤ w.mgr.vars.len := by
  have h : ∀ hd ∈ w.mgr.w.eng.mdd.arena.headers, hd.level < w.mgr.vars.len := by
    intro hd hm
    rw [R.mok.hdrs] at hm
    rw [R.mok.varsLen]
    exact mkH_level hd hm
  exact ⟨rank_le_of_levels h, rank_le_of_levels (R.mok.inv.hdr ▸ h)⟩

theorem mdd_live {vs : List (String × Nat)} (R : MRel w vs) {f : Nat} {x : MNode} (hf : w.hs.held.get f = some x) :
    w.mgr.w.eng.MLive x := by
  obtain ⟨F, _, y, hy, hD⟩ := R.has hf
  rw [hf] at hy
  cases hy
  exact hD.live

/-- **C75.** On Boolean handles of an MDD manager `not`, `and`, `or`, `xor`, `ite` and `replace` nest at most one call
per variable, plus one. -/
theorem C75_mdd_depth (hw : w.Reachable) {f g h i j k : Nat} (hf : w.hs.held.get f = some (.bool i))
    (hg : w.hs.held.get g = some (.bool j)) (hh : w.hs.held.get h = some (.bool k)) :
    let b := w.mgr.w.eng.mdd
    let N := w.mgr.vars.len
    Within N (fun n => Mdd.notF n b i) (b.not i) ∧ Within N (fun n => Mdd.andF n b (i, j)) (b.and i j) ∧
    Within N (fun n => Mdd.orF n b (i, j)) (b.or i j) ∧ Within N (fun n => Mdd.xorF n b (i, j)) (b.xor i j) ∧
    Within N (fun n => Mdd.iteF n b (i, j, k)) (b.ite i j k) ∧
    Within N (fun n => Mdd.replaceF n b (i, j)) (b.replace i j) := by
  intro b N
  obtain ⟨vs, R⟩ := hw.rel
  obtain ⟨hr, _⟩ := mdd_ranks R
  have li : b.arena.Live i := mdd_live R hf
  have lj : b.arena.Live j := mdd_live R hg
  have lk : b.arena.Live k := mdd_live R hh
  have I := R.mok.inv.b
  obtain ⟨_, _, e1, _⟩ := Mdd.not_ok I li
  obtain ⟨_, _, e2, _⟩ := Mdd.and_ok I li lj
  obtain ⟨_, _, e3, _⟩ := Mdd.or_ok I li lj
  obtain ⟨_, _, e4, _⟩ := Mdd.xor_ok I li lj
  obtain ⟨_, _, e5, _⟩ := Mdd.ite_ok I li lj lk
  obtain ⟨_, _, e6, _⟩ := Mdd.replace_ok I li lj
  have m := Nat.max_le.2 ⟨hr i, hr j⟩
  exact ⟨.of (fun n => Mdd.notF_lim n _ _) e1 (hr i), .of (fun n => Mdd.andF_lim n _ _) e2 m,
    .of (fun n => Mdd.orF_lim n _ _) e3 m, .of (fun n => Mdd.xorF_lim n _ _) e4 m,
    .of (fun n => Mdd.iteF_lim n _ _) e5 (Nat.max_le.2 ⟨hr i, Nat.max_le.2 ⟨hr j, hr k⟩⟩),
    .of (fun n => Mdd.replaceF_lim n _ _) e6 m⟩

/-- The arithmetic operations of `MtMddManager`: operation code, whether the operands are sorted, the operation. -/
def arithOps : List (Nat × Bool × (Int → Int → Option Int)) :=
  [(Mtmdd.opAdd, true, fun a b => some (a + b)), (Mtmdd.opSub, false, fun a b => some (a - b)),
   (Mtmdd.opMul, true, fun a b => some (a * b)),
   (Mtmdd.opDiv, false, fun a b => if b = 0 then none else some (a.tdiv b)),
   (Mtmdd.opRem, false, fun a b => if b = 0 then none else some (a.tmod b)),
   (Mtmdd.opMin, true, fun a b => some (Min.min a b)), (Mtmdd.opMax, true, fun a b => some (Max.max a b))]

/-- **C75.** On value handles the seven arithmetic operations, `replace`, the comparisons `eq` and `lt`, and with a
Boolean handle `vif` and `vite`, nest at most one call per variable, plus one. -/
theorem C75_mtmdd_depth (hw : w.Reachable) {c f g i j k : Nat} (hc : w.hs.held.get c = some (.bool k))
    (hf : w.hs.held.get f = some (.value i)) (hg : w.hs.held.get g = some (.value j)) :
    let s := w.mgr.w.eng
    let N := w.mgr.vars.len
    (∀ o ∈ arithOps, Within N (fun n => Mtmdd.binF o.1 o.2.1 (Mtmdd.total o.2.2) n s.mtmdd (i, j))
      (Mtmdd.bin o.1 o.2.1 (Mtmdd.total o.2.2) s.mtmdd i j)) ∧
    Within N (fun n => Mtmdd.replaceF n s.mtmdd (i, j)) (s.mtmdd.replace i j) ∧
    Within N (fun n => Mtmdd2.cmpF Mtmdd2.opEq (fun a b => decide (a = b)) n s (i, j)) (s.veq i j) ∧
    Within N (fun n => Mtmdd2.cmpF Mtmdd2.opLt (fun a b => decide (a < b)) n s (i, j)) (s.vlt i j) ∧
    Within N (fun n => Mtmdd2.vifF n s (k, i)) (s.vif k i) ∧
    Within N (fun n => Mtmdd2.viteF n s (k, i, j)) (s.vite k i j) := by
  intro s N
  obtain ⟨vs, R⟩ := hw.rel
  obtain ⟨hb, hr⟩ := mdd_ranks R
  have li : s.mtmdd.arena.Live i := mdd_live R hf
  have lj : s.mtmdd.arena.Live j := mdd_live R hg
  have lk : s.mdd.arena.Live k := mdd_live R hc
  have I : Mtmdd2.Inv s := R.mok.inv
  obtain ⟨_, _, e2, _⟩ := Mtmdd.replace_ok I.v li lj
  obtain ⟨_, _, e3, _⟩ := Mtmdd2.veq_ok I li lj
  obtain ⟨_, _, e4, _⟩ := Mtmdd2.vlt_ok I li lj
  obtain ⟨_, _, e5, _⟩ := Mtmdd2.vif_ok I lk li
  obtain ⟨_, _, e6, _⟩ := Mtmdd2.vite_ok I lk li lj
  have m := Nat.max_le.2 ⟨hr i, hr j⟩
  refine ⟨fun o ho => ?_, .of (fun n => Mtmdd.replaceF_lim n _ _) e2 m, .of (fun n => Mtmdd2.cmpF_lim n _ _) e3 m,
    .of (fun n => Mtmdd2.cmpF_lim n _ _) e4 m, .of (fun n => Mtmdd2.vifF_lim n _ _) e5 (Nat.max_le.2 ⟨hb k, hr i⟩),
    .of (fun n => Mtmdd2.viteF_lim n _ _) e6 (Nat.max_le.2 ⟨hb k, m⟩)⟩
  have e1 : ∃ r s', Mtmdd.bin o.1 o.2.1 (Mtmdd.total o.2.2) s.mtmdd i j = some (r, s') := by
    simp only [arithOps, List.mem_cons, List.not_mem_nil, or_false] at ho
    rcases ho with rfl | rfl | rfl | rfl | rfl | rfl | rfl
    · obtain ⟨r, s', e, _⟩ := Mtmdd.add_ok I.v li lj; exact ⟨r, s', e⟩
    · obtain ⟨r, s', e, _⟩ := Mtmdd.sub_ok I.v li lj; exact ⟨r, s', e⟩
    · obtain ⟨r, s', e, _⟩ := Mtmdd.mul_ok I.v li lj; exact ⟨r, s', e⟩
    · obtain ⟨r, s', e, _⟩ := Mtmdd.div_ok I.v li lj; exact ⟨r, s', e⟩
    · obtain ⟨r, s', e, _⟩ := Mtmdd.rem_ok I.v li lj; exact ⟨r, s', e⟩
    · obtain ⟨r, s', e, _⟩ := Mtmdd.min_ok I.v li lj; exact ⟨r, s', e⟩
    · obtain ⟨r, s', e, _⟩ := Mtmdd.max_ok I.v li lj; exact ⟨r, s', e⟩
  obtain ⟨_, _, e1⟩ := e1
  exact .of (fun n => Mtmdd.binF_lim n _ _) e1 m

end

/-! ## Zero-suppressed MDDs -/

/-- **C75.** On handles of a ZMDD manager `intersect`, `setdiff` and `set_baseline` nest at most one call per variable
of the handles, plus one. -/
theorem C75_zmdd_depth {w : MssW} (hw : w.Reachable) {f g : Nat} {x y : ZNd} (hf : w.z.hs.held.get f = some x)
    (hg : w.z.hs.held.get g = some y) (v : Int) :
    let s := w.z.mgr.eng
    let N := Max.max x.vars.length y.vars.length
    Within N (fun n => Zmdd.intersectF n s (x.node, y.node)) (s.intersect x.node y.node) ∧
    Within N (fun n => Zmdd.setdiffF n s (x.node, y.node)) (s.setdiff x.node y.node) ∧
    Within x.vars.length (fun n => Zmdd.setBaselineF v n s x.node) (s.setBaseline x.node v) := by
  intro s N
  obtain ⟨vs, R⟩ := hw.rel
  have R := R.z
  have I : Zmdd.Inv s := R.ok.inv
  obtain ⟨_, hx⟩ := R.held hf
  obtain ⟨_, hy⟩ := R.held hg
  have lx : s.arena.Live x.node := hx.2.1
  have ly : s.arena.Live y.node := hy.2.1
  have rx : s.arena.rank x.node ≤ x.vars.length := I.wf.zrank lx (R.vars f x hf).2
  have ry : s.arena.rank y.node ≤ y.vars.length := I.wf.zrank ly (R.vars g y hg).2
  obtain ⟨_, _, e1, _⟩ := Zmdd.intersect_ok I lx ly
  obtain ⟨_, _, e2, _⟩ := Zmdd.setdiff_ok I lx ly
  obtain ⟨_, _, e3, _⟩ := Zmdd.setBaseline_ok I lx v
  have m : Max.max (s.arena.rank x.node) (s.arena.rank y.node) ≤ N := by show _ ≤ Max.max _ _; omega
  exact ⟨.of (fun n => Zmdd.intersectF_lim n _ _) e1 m, .of (fun n => Zmdd.setdiffF_lim n _ _) e2 m,
    .of (fun n => Zmdd.setBaselineF_lim v n _ _) e3 rx⟩

/-! ## Edge-valued MDDs -/

/-- **C75.** If all levels are below `N`, then `min`, `max`, `add`, `sub` of `EvMddManager` nest at most `N + 1`
calls. -/
theorem C75_ev_depth {s : Ev} (hs : EvReachable s) (o : EvOp) {x y : EvEdge} (hx : x.node < s.nodes.length)
    (hy : y.node < s.nodes.length) {N : Nat} (hN : ∀ hd ∈ s.headers, hd.level < N) :
    Within N (fun n => Ev.applyF o n s x y) (s.apply o x y) := by
  have hr : ∀ i, s.rank i ≤ N := by
    intro i
    unfold Ev.rank Ev.level?
    cases s.nodes[i]? with
    | none => exact Nat.zero_le _
    | some n =>
      cases n with
      | omega => exact Nat.zero_le _
      | infinity => exact Nat.zero_le _
      | nt h es =>
        simp only
        cases hh : s.headers[h]? with
        | none => exact Nat.zero_le _
        | some hd => exact hN hd (List.mem_of_getElem? hh)
  obtain ⟨_, _, e, _⟩ := Ev.apply_ok hs.inv o hx hy
  exact .of (fun n => Ev.applyF_lim o n _ _ _) e (Nat.max_le.2 ⟨hr _, hr _⟩)

/-! ## Examples -/

/-- The bound is reached: for `y ∧ x` and `y ∧ ¬x` over the two variables `x`, `y`, two nested calls of `and` are not
enough, three are. -/
example : ∃ b i j, (do
      let (hx, b) := Bdd.new.createHeader 0 "x"
      let (hy, b) := b.createHeader 1 "y"
      let (x, b) ← b.createNode hx 0 1
      let (x', b) ← b.createNode hx 1 0
      let (i, b) ← b.createNode hy 0 x
      let (j, b) ← b.createNode hy 0 x'
      pure (b, i, j)) = some (b, i, j) ∧
    (Bdd.andF 2 b (i, j)).isNone ∧ (Bdd.andF 3 b (i, j)).map (·.1) = some Bdd.zero := by
  refine ⟨_, _, _, rfl, ?_⟩
  decide +kernel

end Props
end DD
