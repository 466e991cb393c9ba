import Verif.Ev.Canon

/-!
# Properties of the edge-valued engine: C65, C66, C67
-/

set_option autoImplicit false
set_option linter.unusedVariables false
set_option linter.unusedSectionVars false

namespace DD.Props
open Ev

/-! ## Sessions -/

/-- Public calls of `EvMddManager` that change it. -/
inductive EvCmd where
  | header (level : Nat) (label : String) (edgeNum : Nat)
  | node (h : Nat) (edges : List EvEdge)
  | op (o : EvOp) (x y : EvEdge)

/-- What they return. -/
inductive EvOut where
  | id (h : Nat)
  | edge (e : EvEdge)
deriving DecidableEq

/-- One call (`create_edge` is `create_node` with the result in an edge, /repo/evmdd_core/src/evplus_mdd.rs:217-220). -/
def evStep (s : Ev) : EvCmd → Option (EvOut × Ev)
  | .header l x n => some (.id (s.createHeader l x n).1, (s.createHeader l x n).2)
  | .node h es => (s.createNode h es).map fun p => (.edge p.1, p.2)
  | .op o x y => (s.apply o x y).map fun p => (.edge p.1, p.2)

/-- What the client must respect: one header per level, with at least one edge; a node has as many edges as its
header says, to existing nodes of lower levels; operands exist. -/
def EvLegal (s : Ev) : EvCmd → Prop
  | .header l _ n => (∀ hd ∈ s.headers, hd.level ≠ l) ∧ 0 < n
  | .node h es => ∃ hd, s.headers[h]? = some hd ∧ es.length = hd.edgeNum ∧
      ∀ e ∈ es, e.node < s.nodes.length ∧ ∀ l, s.level? e.node = some l → l < hd.level
  | .op _ x y => x.node < s.nodes.length ∧ y.node < s.nodes.length

/-- States of a client that respects this. -/
inductive EvReachable : Ev → Prop
  | new : EvReachable Ev.new
  | step {s s' : Ev} {o : EvOut} (c : EvCmd) : EvReachable s → EvLegal s c → evStep s c = some (o, s') → EvReachable s'

/-- The edge exists and its value at every valid assignment is that of `F`; `none` = infinity. -/
def EvDenotes (s : Ev) (e : EvEdge) (F : (Nat → Nat) → Option Int) : Prop :=
  e.node < s.nodes.length ∧ ∀ a, s.ValidA a → EVal s a e (F a)

theorem kids_of_legal {s : Ev} {hd : Header} {es : List EvEdge}
    (h : ∀ e ∈ es, e.node < s.nodes.length ∧ ∀ l, s.level? e.node = some l → l < hd.level) :
    ∀ e ∈ es, e.node < s.nodes.length ∧ s.rank e.node ≤ hd.level := by
  intro e he
  refine ⟨(h e he).1, ?_⟩
  unfold Ev.rank
  cases hl : s.level? e.node with
  | none => simp [depth]
  | some l => exact (h e he).2 l hl

theorem ev_step {s : Ev} (I : Ev.Inv s) {c : EvCmd} (h : EvLegal s c) :
    ∃ o s', evStep s c = some (o, s') ∧ Ev.Inv s' ∧ Ev.Ext s s' := by
  cases c with
  | header l x n =>
    obtain ⟨k1, k2⟩ := I.createHeader x h.1 h.2
    exact ⟨_, _, rfl, k1, k2⟩
  | node hh es =>
    obtain ⟨hd, h1, h2, h3⟩ := h
    obtain ⟨r, s', e, k⟩ := createNode_ok I h1 h2 (kids_of_legal h3)
    exact ⟨.edge r, s', by simp [evStep, e], k.inv, k.ext⟩
  | op o x y =>
    obtain ⟨r, s', e, k⟩ := apply_ok I o h.1 h.2
    exact ⟨.edge r, s', by simp [evStep, e], k.inv, k.ext⟩

theorem EvReachable.inv {s : Ev} (h : EvReachable s) : Ev.Inv s := by
  induction h with
  | new => exact .new
  | @step s s' o c _ hl hs ih =>
    obtain ⟨o', s2, h1, h2, _⟩ := ev_step ih hl
    rw [hs] at h1
    cases h1
    exact h2

variable {s : Ev}

/-- **C65.** No call of such a client panics. -/
theorem C65_total (hs : EvReachable s) {c : EvCmd} (h : EvLegal s c) : ∃ o s', evStep s c = some (o, s') := by
  obtain ⟨o, s', h1, _⟩ := ev_step hs.inv h
  exact ⟨o, s', h1⟩

/-- **C65.** Calls leave the meaning of all edges as it was. -/
theorem C65_keep (hs : EvReachable s) {c : EvCmd} (h : EvLegal s c) {o : EvOut} {s' : Ev}
    (hc : evStep s c = some (o, s')) {e : EvEdge} {F : (Nat → Nat) → Option Int} (hD : EvDenotes s e F) :
    EvDenotes s' e F := by
  obtain ⟨o', s2, h1, _, x⟩ := ev_step hs.inv h
  rw [hc] at h1
  cases h1
  exact ⟨x.lt hD.1, fun a ha => (hD.2 a (x.valid ha)).ext x⟩

/-- **C65.** `create_node` gives the edge whose value at `a` is that of the edge numbered by the state of the header's
variable. -/
theorem C65_create_node (hs : EvReachable s) {h : Nat} {hd : Header} (hh : s.headers[h]? = some hd) {es : List EvEdge}
    (hl : EvLegal s (.node h es)) {F : Nat → (Nat → Nat) → Option Int}
    (hF : ∀ (k : Nat) (e : EvEdge), es[k]? = some e → EvDenotes s e (F k)) :
    ∃ r s', evStep s (.node h es) = some (.edge r, s') ∧ EvDenotes s' r (fun a => F (a hd.level) a) := by
  obtain ⟨hd', h1, h2, h3⟩ := hl
  rw [hh] at h1
  cases h1
  obtain ⟨r, s', e, k⟩ := createNode_ok hs.inv hh h2 (kids_of_legal h3)
  refine ⟨r, s', by simp [evStep, e], k.live, ?_⟩
  intro a ha
  have ha' := k.ext.valid ha
  have hk := ha' hd (mem_of_get hh)
  rw [← h2] at hk
  obtain ⟨x, hx⟩ := get_of_lt hk
  exact k.val a x _ ha' hx ((hF _ x hx).2 a ha')

/-- **C65.** The constants. -/
theorem C65_constants (hs : EvReachable s) (v : Int) :
    EvDenotes s ⟨v, omega⟩ (fun _ => some v) ∧ EvDenotes s ⟨v, infinity⟩ (fun _ => none) :=
  ⟨⟨lt_of_get hs.inv.n0, fun a _ => ⟨_, .omega hs.inv.n0, by simp⟩⟩,
    lt_of_get hs.inv.n1, fun a _ => ⟨_, .infinity hs.inv.n1, rfl⟩⟩

/-- **C66.** `min`, `max`, `add`, `sub` work value by value; infinity is neutral for `min` and absorbing for the
others (`evop`). -/
theorem C66_op (hs : EvReachable s) (o : EvOp) {x y : EvEdge} {F G : (Nat → Nat) → Option Int} (hx : EvDenotes s x F)
    (hy : EvDenotes s y G) :
    ∃ r s', evStep s (.op o x y) = some (.edge r, s') ∧ EvDenotes s' r (fun a => evop o (F a) (G a)) := by
  obtain ⟨r, s', e, k⟩ := apply_ok hs.inv o hx.1 hy.1
  refine ⟨r, s', by simp [evStep, e], k.live, ?_⟩
  intro a ha
  have ha' := k.ext.valid ha
  obtain ⟨u, h1, h2⟩ := hx.2 a ha'
  obtain ⟨v, h3, h4⟩ := hy.2 a ha'
  show EVal s' a r (evop o (F a) (G a))
  rw [h2, h4]
  exact k.val a u v ha' h1 h3

/-- **C67.** Edges with the same function, finite everywhere, are the same edge. -/
theorem C67_canonical (hs : EvReachable s) {e e' : EvEdge} {F : (Nat → Nat) → Option Int} (hF : ∀ a, s.ValidA a → F a ≠ none)
    (h : EvDenotes s e F) (h' : EvDenotes s e' F) : e = e' := by
  refine hs.inv.canon (max (s.rank e.node) (s.rank e'.node)) e e' h.1 h'.1 (by omega) (by omega) ?_
  intro a ha
  have h1 := h.2 a ha
  have h2 := h'.2 a ha
  cases hv : F a with
  | none => exact absurd hv (hF a ha)
  | some v =>
    rw [hv] at h1 h2
    exact ⟨v, h1, h2⟩

/-- **C67.** The value of an edge is a lower bound of its function, and the least value if the function is finite
everywhere. -/
theorem C67_least (hs : EvReachable s) {e : EvEdge} {F : (Nat → Nat) → Option Int} (h : EvDenotes s e F) :
    (∀ a v, s.ValidA a → F a = some v → e.value ≤ v) ∧
    ((∀ a, s.ValidA a → F a ≠ none) → ∃ a, s.ValidA a ∧ F a = some e.value) := by
  have I := hs.inv
  constructor
  · intro a v ha hv
    obtain ⟨u, h1, h2⟩ := h.2 a ha
    rw [hv] at h2
    cases u with
    | none => cases h2
    | some u =>
      have := h1.nonneg I u rfl
      simp only [Option.map_some, Option.some.injEq] at h2
      omega
  · intro hF
    have hf : FinN s e.node := by
      intro a ha
      obtain ⟨u, h1, h2⟩ := h.2 a ha
      cases u with
      | none => exact absurd h2 (hF a ha)
      | some u => exact ⟨u, h1⟩
    obtain ⟨a, ha, hv⟩ := I.attain _ e.node h.1 (Nat.le_refl _) hf
    obtain ⟨u, h1, h2⟩ := h.2 a ha
    rw [h1.det hv] at h2
    exact ⟨a, ha, by simpa using h2⟩

/-- **C67.** `create_node` a second time with the same arguments: the same edge, nothing changes. -/
theorem C67_once (hs : EvReachable s) {h : Nat} {es : List EvEdge} (hl : EvLegal s (.node h es)) {o : EvOut} {s' : Ev}
    (hc : evStep s (.node h es) = some (o, s')) : evStep s' (.node h es) = some (o, s') := by
  simp only [evStep] at hc ⊢
  cases es with
  | nil => simp [createNode] at hc
  | cons first rest =>
    unfold createNode at hc ⊢
    simp only at hc ⊢
    split at hc
    · rename_i hall
      rw [if_pos hall]
      simp only [Option.map_some, Option.some.injEq, Prod.mk.injEq] at hc ⊢
      exact ⟨hc.1, trivial⟩
    · rename_i hall
      rw [if_neg hall]
      split at hc
      · rename_i i hu
        simp only [Option.map_some, Option.some.injEq, Prod.mk.injEq] at hc
        obtain ⟨h1, rfl⟩ := hc
        rw [hu]
        simp [h1]
      · simp only [Option.map_some, Option.some.injEq, Prod.mk.injEq] at hc
        obtain ⟨h1, rfl⟩ := hc
        simp only [AMap.get_insert_self]
        simp [h1]

/-! ## Functions with infinite values have several edges -/

/-- Several calls. -/
def evRun (s : Ev) : List EvCmd → Option (List EvOut × Ev)
  | [] => some ([], s)
  | c :: cs =>
    match evStep s c with
    | none => none
    | some (o, s) => (evRun s cs).map fun p => (o :: p.1, p.2)

/-- One variable with two states; the functions (∞, 5) and (∞, 8). -/
def evInf : Ev :=
  ⟨[⟨0, "x", 2⟩], [.omega, .infinity, .nt 0 [⟨0, 1⟩, ⟨5, 0⟩], .nt 0 [⟨0, 1⟩, ⟨8, 0⟩]],
    (AMap.empty.insert (0, [⟨0, 1⟩, ⟨5, 0⟩]) 2).insert (0, [⟨0, 1⟩, ⟨8, 0⟩]) 3, AMap.empty⟩

theorem evInf_reachable : EvReachable evInf := by
  refine .step (o := .edge ⟨0, 3⟩) (.node 0 [⟨0, 1⟩, ⟨8, 0⟩]) (.step (o := .edge ⟨0, 2⟩) (.node 0 [⟨0, 1⟩, ⟨5, 0⟩])
    (.step (o := .id 0) (.header 0 "x" 2) .new ⟨by simp [Ev.new], by decide⟩ rfl) ?_ rfl) ?_ rfl
  · refine ⟨⟨0, "x", 2⟩, rfl, rfl, ?_⟩
    intro e he
    simp only [List.mem_cons, List.not_mem_nil, or_false] at he
    rcases he with rfl | rfl <;> exact ⟨by decide, by intro l hl; cases hl⟩
  · refine ⟨⟨0, "x", 2⟩, rfl, rfl, ?_⟩
    intro e he
    simp only [List.mem_cons, List.not_mem_nil, or_false] at he
    rcases he with rfl | rfl <;> exact ⟨by decide, by intro l hl; cases hl⟩

/-- **C67.** With infinite values edges are not canonical: (∞, 8) is 8 at the second node's edge and 3 above the
first node. -/
theorem C67_infinite_not_canonical : ∃ (s : Ev) (e e' : EvEdge) (F : (Nat → Nat) → Option Int), EvReachable s ∧
    EvDenotes s e F ∧ EvDenotes s e' F ∧ e ≠ e' := by
  refine ⟨evInf, ⟨3, 2⟩, ⟨0, 3⟩, fun a => if a 0 = 0 then none else some 8, evInf_reachable, ⟨by decide, ?_⟩,
    ⟨by decide, ?_⟩, by decide⟩
  all_goals
    intro a ha
    have h0 : a 0 < 2 := ha ⟨0, "x", 2⟩ (by simp [evInf])
    by_cases hc : a 0 = 0
    · simp only [if_pos hc]
      refine ⟨_, .nt rfl rfl (e := ⟨0, 1⟩) (by rw [hc]; rfl) (.infinity rfl), rfl⟩
    · simp only [if_neg hc]
      have hc : a 0 = 1 := by omega
      refine ⟨_, .nt rfl rfl (by rw [hc]; rfl) (.omega rfl), rfl⟩

/-! ## Concrete cases -/

/-- Two variables, `x` with values 1, 2 and `y` with values 1, 3. -/
def evDemo : List EvCmd :=
  [.header 0 "x" 2, .header 1 "y" 2, .node 0 [⟨1, 0⟩, ⟨2, 0⟩], .node 1 [⟨1, 0⟩, ⟨3, 0⟩]]

example : (evRun Ev.new (evDemo ++ [.op .min ⟨1, 2⟩ ⟨1, 3⟩, .op .max ⟨1, 2⟩ ⟨1, 3⟩, .op .add ⟨1, 2⟩ ⟨1, 3⟩,
    .op .sub ⟨1, 2⟩ ⟨1, 3⟩, .op .min ⟨5, 2⟩ ⟨5, 3⟩])).map (·.1) =
    some [.id 0, .id 1, .edge ⟨1, 2⟩, .edge ⟨1, 3⟩, .edge ⟨1, 4⟩, .edge ⟨1, 5⟩, .edge ⟨2, 6⟩, .edge ⟨-2, 7⟩,
      .edge ⟨5, 4⟩] := by
  decide +kernel

end DD.Props
