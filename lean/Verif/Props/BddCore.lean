import Verif.Bdd.Reach
import Verif.Bdd.Bool
import Mathlib.Data.List.Perm.Subperm

/-!
# Properties of the core BDD manager: C01, C02, C04, C52

`Eval m a i t`: reading node `i` at assignment `a` (level ↦ edge number) ends in terminal `t`.
`Bdd.Reachable`: states reachable by any interleaving of calls.
-/

set_option autoImplicit false
set_option linter.unusedSectionVars false

namespace DD.Props
open Arena

/-! ## Specification -/

/-- Truth table of a connective. -/
def truth : BddOp → List Bool → Bool
  | .not _, [x] => !x
  | .and _ _, [x, y] => x && y
  | .or _ _, [x, y] => x || y
  | .xor _ _, [x, y] => x ^^ y
  | .imp _ _, [x, y] => !x || y
  | .nand _ _, [x, y] => !(x && y)
  | .nor _ _, [x, y] => !(x || y)
  | .xnor _ _, [x, y] => !(x ^^ y)
  | .ite _ _ _, [x, y, z] => if x then y else z
  | _, _ => false

/-- At assignment `a` the nodes are determined, with the listed truth values. -/
def Reads (m : Arena T3) (a : Nat → Nat) : List Nat → List Bool → Prop
  | [], [] => True
  | i :: is, b :: bs => Eval m a i (T3.ofBool b) ∧ Reads m a is bs
  | _, _ => False

/-- Every node of `m` that is not reclaimed is still there in `m'` and reads the same. -/
def SameMeaning (m m' : Arena T3) : Prop :=
  ∀ i, m.Live i → m'.Live i ∧ ∀ a t, Eval m' a i t ↔ Eval m a i t

/-! ## C01 -/

theorem reads_two {m : Arena T3} {a : Nat → Nat} {f g : Nat} {bs : List Bool}
    (h : Reads m a [f, g] bs) : ∃ x y, bs = [x, y] ∧ Eval m a f (T3.ofBool x) ∧
      Eval m a g (T3.ofBool y) := by
  match bs, h with
  | [x, y], h => exact ⟨x, y, rfl, h.1, h.2.1⟩
  | [], h => exact h.elim
  | [_], h => exact h.2.elim
  | _ :: _ :: _ :: _, h => exact h.2.2.elim

/-- **C01.** In any reachable state, a connective applied to nodes that are not reclaimed returns,
without panic, a node whose value is the connective of the operands' values wherever these are
determined; all existing nodes keep their meaning. -/
theorem C01_connectives {s : Bdd} (hs : s.Reachable) (o : BddOp)
    (hl : ∀ i ∈ o.args, s.arena.Live i) :
    ∃ r s', o.run s = some (r, s') ∧ s'.Reachable ∧ s'.arena.Live r ∧
      (∀ a, s.arena.ValidA a → ∀ bs, Reads s.arena a o.args bs →
        Eval s'.arena a r (T3.ofBool (truth o bs))) ∧
      SameMeaning s.arena s'.arena := by
  have inv := hs.inv
  have fin : ∀ {Φ : (Nat → Nat) → T3 → Prop} {k : Nat},
      Bdd.eng.Ok s k Φ (o.run s) →
      (∀ a bs, Reads s.arena a o.args bs → ∀ z, Φ a z → z = T3.ofBool (truth o bs)) →
      ∃ r s', o.run s = some (r, s') ∧ s'.Reachable ∧ s'.arena.Live r ∧
      (∀ a, s.arena.ValidA a → ∀ bs, Reads s.arena a o.args bs →
        Eval s'.arena a r (T3.ofBool (truth o bs))) ∧
      SameMeaning s.arena s'.arena := by
    rintro Φ k ⟨r, s', h1, h2, h3, h4, _, h6⟩ hΦ
    have h3 : Step s.arena s'.arena := h3
    have h2 : Bdd.Inv s' := h2
    refine ⟨r, s', h1, .op o hs hl h1, h4, ?_, ?_⟩
    · intro a ha bs hb
      have ha' : s'.arena.ValidA a := (ValidA.step h3).2 ha
      obtain ⟨t, ht⟩ := h2.wf.eval_total ha' h4
      have := hΦ a bs hb t (h6 a ha' t ht)
      rw [← this]; exact ht
    · intro i hi
      exact ⟨(h3.keep i hi).1, fun a t => inv.wf.eval_ext h3.toExt hi⟩
  cases o with
  | not f =>
    refine fin (Bdd.not_ok inv (hl f (by simp [BddOp.args]))) ?_
    intro a bs hb z hz
    match bs, hb with
    | [x], hb => exact hz _ hb.1 x rfl
    | [], hb => exact hb.elim
    | _ :: _ :: _, hb => exact hb.2.elim
  | ite f g h =>
    refine fin (Bdd.ite_ok inv (hl f (by simp [BddOp.args])) (hl g (by simp [BddOp.args]))
      (hl h (by simp [BddOp.args]))) ?_
    intro a bs hb z hz
    match bs, hb with
    | [x, y, w], hb =>
      have := hz _ _ _ hb.1 hb.2.1 hb.2.2.1
      cases x with
      | true => exact this.1 rfl
      | false => exact this.2 rfl
    | [], hb => exact hb.elim
    | [_], hb => exact hb.2.elim
    | [_, _], hb => exact hb.2.2.elim
    | _ :: _ :: _ :: _ :: _, hb => exact hb.2.2.2.elim
  | and f g =>
    refine fin (Bdd.and_ok inv (hl f (by simp [BddOp.args])) (hl g (by simp [BddOp.args]))) ?_
    intro a bs hb z hz
    obtain ⟨x, y, rfl, hx, hy⟩ := reads_two hb
    exact hz _ _ hx hy x y rfl rfl
  | or f g =>
    refine fin (Bdd.or_ok inv (hl f (by simp [BddOp.args])) (hl g (by simp [BddOp.args]))) ?_
    intro a bs hb z hz
    obtain ⟨x, y, rfl, hx, hy⟩ := reads_two hb
    exact hz _ _ hx hy x y rfl rfl
  | xor f g =>
    refine fin (Bdd.xor_ok inv (hl f (by simp [BddOp.args])) (hl g (by simp [BddOp.args]))) ?_
    intro a bs hb z hz
    obtain ⟨x, y, rfl, hx, hy⟩ := reads_two hb
    exact hz _ _ hx hy x y rfl rfl
  | imp f g =>
    refine fin (Bdd.imp_ok inv (hl f (by simp [BddOp.args])) (hl g (by simp [BddOp.args]))) ?_
    intro a bs hb z hz
    obtain ⟨x, y, rfl, hx, hy⟩ := reads_two hb
    exact hz _ _ hx hy x y rfl rfl
  | nand f g =>
    refine fin (Bdd.nand_ok inv (hl f (by simp [BddOp.args])) (hl g (by simp [BddOp.args]))) ?_
    intro a bs hb z hz
    obtain ⟨x, y, rfl, hx, hy⟩ := reads_two hb
    exact hz _ _ hx hy x y rfl rfl
  | nor f g =>
    refine fin (Bdd.nor_ok inv (hl f (by simp [BddOp.args])) (hl g (by simp [BddOp.args]))) ?_
    intro a bs hb z hz
    obtain ⟨x, y, rfl, hx, hy⟩ := reads_two hb
    exact hz _ _ hx hy x y rfl rfl
  | xnor f g =>
    refine fin (Bdd.xnor_ok inv (hl f (by simp [BddOp.args])) (hl g (by simp [BddOp.args]))) ?_
    intro a bs hb z hz
    obtain ⟨x, y, rfl, hx, hy⟩ := reads_two hb
    exact hz _ _ hx hy x y rfl rfl

/-- **C01.** `ite` needs only the selected branch to be determined. -/
theorem C01_ite_selects {s : Bdd} (hs : s.Reachable) {f g h : Nat} (lf : s.arena.Live f)
    (lg : s.arena.Live g) (lh : s.arena.Live h) :
    ∃ r s', s.ite f g h = some (r, s') ∧ ∀ a, s.arena.ValidA a →
      (Eval s.arena a f .one → ∀ t, Eval s'.arena a r t ↔ Eval s.arena a g t) ∧
      (Eval s.arena a f .zero → ∀ t, Eval s'.arena a r t ↔ Eval s.arena a h t) := by
  have inv := hs.inv
  obtain ⟨r, s', h1, h2, h3, h4, _, h6⟩ := Bdd.ite_ok inv lf lg lh
  have h2 : Bdd.Inv s' := h2
  have h3 : Step s.arena s'.arena := h3
  refine ⟨r, s', h1, fun a ha => ?_⟩
  have ha' : s'.arena.ValidA a := (ValidA.step h3).2 ha
  obtain ⟨t, ht⟩ := h2.wf.eval_total ha' h4
  obtain ⟨y, hy⟩ := inv.wf.eval_total ha lg
  obtain ⟨w, hw⟩ := inv.wf.eval_total ha lh
  constructor
  · intro hf t'
    have : t = y := (h6 a ha' t ht _ _ _ hf hy hw).1 rfl
    subst this
    exact ⟨fun h => by rw [h.det ht]; exact hy, fun h => by rw [h.det hy]; exact ht⟩
  · intro hf t'
    have : t = w := (h6 a ha' t ht _ _ _ hf hy hw).2 rfl
    subst this
    exact ⟨fun h => by rw [h.det ht]; exact hw, fun h => by rw [h.det hw]; exact ht⟩

/-- Every node that is not reclaimed reads as some terminal at every assignment. -/
theorem C01_total {s : Bdd} (hs : s.Reachable) {i : Nat} (hi : s.arena.Live i) {a : Nat → Nat}
    (ha : s.arena.ValidA a) : ∃ t, Eval s.arena a i t ∧ ∀ t', Eval s.arena a i t' → t' = t := by
  obtain ⟨t, ht⟩ := hs.inv.wf.eval_total ha hi
  exact ⟨t, ht, fun t' ht' => ht'.det ht⟩

/-! ## C02 -/

/-- **C02.** If distinct headers have distinct levels, two unreclaimed nodes are the same id exactly
when they read the same at every assignment (including `Undet`). -/
theorem C02_canonical {s : Bdd} (hs : s.Reachable) (inj : s.arena.LevInj) {i j : Nat}
    (hi : s.arena.Live i) (hj : s.arena.Live j) :
    i = j ↔ ∀ a, s.arena.ValidA a → ∀ t, Eval s.arena a i t ↔ Eval s.arena a j t := by
  constructor
  · rintro rfl a _ t; exact Iff.rfl
  · exact hs.inv.wf.canon inj hi hj

/-! ## C04 -/

/-- **C04.** Collection with unreclaimed roots never panics and frees exactly the slots that are
neither terminals nor reachable from a root; contents and headers are untouched, and the number
returned is the number of free slots. -/
theorem C04_gc_exact {s : Bdd} (hs : s.Reachable) {roots : List Nat}
    (hr : ∀ r ∈ roots, r < s.arena.nodes.length → s.arena.Live r) :
    ∃ n s', s.gc roots = some (n, s') ∧ s'.Reachable ∧
      (∀ i, i ∈ s'.arena.free ↔ i < s.arena.nodes.length ∧ i ∉ [0, 1, 2] ∧
        ¬ ∃ r ∈ roots, r < s.arena.nodes.length ∧ Reach s.arena r i) ∧
      s'.arena.nodes = s.arena.nodes ∧ s'.arena.headers = s.arena.headers ∧
      n = s'.arena.free.length ∧ s'.arena.free.Nodup ∧
      (∀ i, s'.arena.Live i → ∀ a t, Eval s'.arena a i t ↔ Eval s.arena a i t) := by
  obtain ⟨n, s', h1, h2, h3, h4, h5, h6, h7, _, _⟩ := Bdd.gc_ok hs.inv hr
  refine ⟨n, s', h1, .gc roots hs hr h1, ?_, h4, h3, h7, h2.wf.free_nodup, ?_⟩
  · intro i
    have h5' := h5 i
    unfold Survives at h5'
    have hsl : i ∈ slots T3 ↔ i ∈ [0, 1, 2] := Iff.rfl
    rw [hsl] at h5'
    constructor
    · intro hi
      have hlt := h2.wf.free_lt i hi
      rw [h4] at hlt
      have hn : ¬ s'.arena.Live i := fun h => h.2 hi
      rw [h5'] at hn
      exact ⟨hlt, fun h => hn (.inl h), fun h => hn (.inr h)⟩
    · rintro ⟨hlt, hn1, hn2⟩
      apply Decidable.byContradiction
      intro hni
      have : s'.arena.Live i := ⟨by rw [h4]; exact hlt, hni⟩
      rcases h5'.1 this with h | h
      · exact hn1 h
      · exact hn2 h
  · intro i hi a t
    exact (h2.wf.eval_ext h6.toExt hi).symm

/-- **C04.** `live_node_count` after a collection is the number of slots that are terminals or
reachable from a root. -/
theorem C04_live_count {s : Bdd} (hs : s.Reachable) {roots : List Nat}
    (hr : ∀ r ∈ roots, r < s.arena.nodes.length → s.arena.Live r) {n : Nat} {s' : Bdd}
    (h : s.gc roots = some (n, s')) (L : List Nat) (nd : L.Nodup)
    (hL : ∀ i, i ∈ L ↔ i ∈ [0, 1, 2] ∨ ∃ r ∈ roots, r < s.arena.nodes.length ∧ Reach s.arena r i) :
    s'.liveNodeCount = L.length := by
  obtain ⟨n', s'', h1, h2, h3, h4, h5, h6, h7, _, _⟩ := Bdd.gc_ok hs.inv hr
  rw [h] at h1; cases h1
  have hsub : ∀ i ∈ L ++ s'.arena.free, i ∈ List.range s'.arena.nodes.length := by
    intro i hi
    rw [List.mem_range]
    rcases List.mem_append.1 hi with hi | hi
    · exact ((h5 i).2 ((hL i).1 hi)).1
    · exact h2.wf.free_lt i hi
  have hnd : (L ++ s'.arena.free).Nodup := by
    rw [List.nodup_append]
    refine ⟨nd, h2.wf.free_nodup, ?_⟩
    rintro x hx y hy rfl
    exact ((h5 x).2 ((hL x).1 hx)).2 hy
  have hsup : ∀ i ∈ List.range s'.arena.nodes.length, i ∈ L ++ s'.arena.free := by
    intro i hi
    rw [List.mem_range] at hi
    by_cases hf : i ∈ s'.arena.free
    · exact List.mem_append_right _ hf
    · exact List.mem_append_left _ ((hL i).2 ((h5 i).1 ⟨hi, hf⟩))
  have l1 := (hnd.subperm hsub).length_le
  have l2 := ((List.nodup_range (n := s'.arena.nodes.length)).subperm hsup).length_le
  simp only [List.length_append, List.length_range] at l1 l2
  show s'.arena.nodes.length - s'.arena.free.length = L.length
  omega

/-! ## C52 -/

/-- **C52.** A slot handed out by the allocator is never in use (any engine: `T` arbitrary), and
nothing else is touched. -/
theorem C52_alloc_fresh {T : Type} [DecidableEq T] [Fixed T] {R : List Nat → Prop} {m : Arena T}
    (wf : WF R m) (n : Node T) : ∃ r m', m.alloc n = some (r, m') ∧ ¬ m.Live r ∧ m'.Live r ∧
      m'.nodes[r]? = some n ∧
      ∀ i, m.Live i → i ≠ r ∧ m'.Live i ∧ m'.nodes[i]? = m.nodes[i]? := by
  obtain ⟨r, m', h1, h2, h3, h4, _, _, _, _, h5⟩ := alloc_spec wf.free_lt wf.free_nodup n
  refine ⟨r, m', h1, h2, h3, h4, fun i hi => ?_⟩
  have hne : i ≠ r := fun e => h2 (e ▸ hi)
  exact ⟨hne, ((h5 i hne).1).2 hi, (h5 i hne).2 hi⟩

/-- **C52.** No BDD operation overwrites a node in use. -/
theorem C52_bdd {s s' : Bdd} (hs : s.Reachable) (o : BddOp) (hl : ∀ i ∈ o.args, s.arena.Live i)
    {r : Nat} (h : o.run s = some (r, s')) :
    ∀ i, s.arena.Live i → s'.arena.Live i ∧ s'.arena.nodes[i]? = s.arena.nodes[i]? := by
  obtain ⟨r', s'', h1, _, h3, _⟩ := Bdd.op_ok hs.inv o hl
  rw [h] at h1; cases h1
  exact fun i hi => h3.keep i hi

/-! ## Concrete cases -/

/-- Two variables `x` (level 0) and `y` (level 1): nodes 3 and 4. -/
def demo0 : Bdd := ((Bdd.new.createHeader 0 "x").2.createHeader 1 "y").2
@[inherit_doc demo0]
def demo1 : Option (Nat × Bdd) := demo0.createNode 0 0 1
@[inherit_doc demo0]
def demo2 : Option (Nat × Bdd) := demo1.bind fun p => p.2.createNode 1 0 1

theorem demo2_reachable : ∃ s, demo2 = some (4, s) ∧ s.Reachable ∧ s.arena.Live 3 ∧
    s.arena.Live 4 ∧ s.arena.LevInj := by
  refine ⟨_, rfl, ?_, by decide +kernel, by decide +kernel, ?_⟩
  · refine .node (h := 1) (lo := 0) (hi := 1) (r := 4) (hd := ⟨1, "y", 2⟩)
      (.node (s := demo0) (h := 0) (lo := 0) (hi := 1) (r := 3) (hd := ⟨0, "x", 2⟩)
        (.header 1 "y" (.header 0 "x" .new)) rfl ?_ ?_ ?_ ?_ rfl) rfl ?_ ?_ ?_ ?_ rfl
    · decide +kernel
    · decide +kernel
    · intro l h; cases h
    · intro l h; cases h
    · decide +kernel
    · decide +kernel
    · intro l h; cases h
    · intro l h; cases h
  · intro h h' hd hd' e1 e2 hl
    have k1 : h < 2 := (List.getElem?_eq_some_iff.1 e1).1
    have k2 : h' < 2 := (List.getElem?_eq_some_iff.1 e2).1
    match h, h', k1, k2 with
    | 0, 0, _, _ => rfl
    | 1, 1, _, _ => rfl
    | 0, 1, _, _ => cases e1; cases e2; cases hl
    | 1, 0, _, _ => cases e1; cases e2; cases hl

/-- C01, C02, C04, C52 apply to it: `x ∧ y` is built, is a new node, and a collection keeping only
`y` frees the other two. -/
example : (demo2.bind fun p => (p.2.and 3 4)).map (·.1) = some 5 ∧
    ((demo2.bind fun p => (p.2.and 3 4)).bind fun q => (q.2.gc [4]).map
      (fun t => (t.1, t.2.liveNodeCount))) = some (2, 4) := by
  decide +kernel

end DD.Props
