import Verif.Props.VarOrder
import Verif.Props.Zdd

/-!
# C87: walking a diagram by its accessors
-/

set_option autoImplicit false
set_option linter.unusedSectionVars false
set_option linter.unusedVariables false

namespace DD

/-- `BddNode::get_header`, /repo/bss/src/bdd.rs:368-373; `none` for a handle that the client does not hold. -/
def World.header (w : World) (f : Nat) : Option (Option Nat) :=
  match w.held.get f with
  | none => none
  | some i =>
    match w.mgr.bdd.arena.node? i with
    | some (.nt h _) => some (some h)
    | _ => some none

/-- `BddNode::get_label`, /repo/bss/src/bdd.rs:384-391. -/
def World.label (w : World) (f : Nat) : Option (Option String) :=
  match w.held.get f with
  | none => none
  | some i => some (w.mgr.bdd.arena.label? i)

namespace Props
open Arena Zdd

/-! ## BDD -/

section bdd
variable {w : World} {names : List String} {F : BFun}

/-- **C87.** `get_header`, `get_level` and `get_label` name the highest variable on which the function depends. -/
theorem C87_top (hw : w.Reachable) (hn : Names w names) {f : Nat} (hf : w.Denotes f F) :
    ∃ t, IsTop F t ∧ w.step (.level f) = some (.level t, w) ∧ w.header f = some t ∧
      w.label f = some (t.bind fun l => names[l]?) ∧ ∀ l, t = some l → l < names.length := by
  obtain ⟨t, h1, h2⟩ := C02_level hw hf
  obtain ⟨A, R⟩ := hw.rel
  rw [names_iff R] at hn
  subst hn
  obtain ⟨i, e1, e2⟩ := R.get (R.denotes_iff.1 hf)
  simp only [World.step, e1, Option.some.injEq, Prod.mk.injEq, Out.level.injEq, and_true] at h1
  refine ⟨t, h2, by simp only [World.step, e1, h1], ?_⟩
  unfold World.header World.label
  simp only [e1]
  rw [← h1]
  unfold Arena.level? Arena.label? Arena.node?
  obtain ⟨n, hn⟩ := e2.live.node
  replace hn : w.mgr.bdd.arena.nodes[i]? = some n := hn
  cases hg : w.mgr.bdd.arena.nodes[i]? with
  | none => rw [hg] at hn; cases hn
  | some n' =>
    cases n' with
    | term t => exact ⟨rfl, rfl, by simp⟩
    | nt h es =>
      have hnode : w.mgr.bdd.arena.node? i = some (.nt h es) := hg
      cases hh : w.mgr.bdd.arena.headers[h]? with
      | none =>
        exfalso
        obtain ⟨hd, hhd, _⟩ := R.mok.inv.wf.hdr i h es e2.live hg
        rw [hh] at hhd; cases hhd
      | some hd =>
        have hh' := hh
        rw [R.mok.hdrs] at hh'
        obtain ⟨s, hs, rfl⟩ := mkHeaders_get.1 hh'
        refine ⟨by simp [hh], by simp [hh, hs], ?_⟩
        intro l hl
        simp [hh] at hl
        subst hl
        exact (List.getElem?_eq_some_iff.1 hs).1

/-- **C87.** `get_children` of a constant is `None`; otherwise it returns handles for the function with its
highest variable false and with it true.  All handles keep their functions. -/
theorem C87_children (hw : w.Reachable) (hn : Names w names) {f : Nat} (hf : w.Denotes f F) :
    ∃ t, IsTop F t ∧ match t with
      | none => w.step (.children f) = some (.pair none, w)
      | some l => ∃ c0 c1 w', w.step (.children f) = some (.pair (some (c0, c1)), w') ∧ w'.Reachable ∧ Names w' names ∧
          w'.Denotes c0 (F.cof l false) ∧ w'.Denotes c1 (F.cof l true) ∧ ∀ h G, w.Denotes h G → w'.Denotes h G := by
  obtain ⟨A, R⟩ := hw.rel
  have hA := R.denotes_iff.1 hf
  obtain ⟨o, w', A', h1, ⟨F', t, h2, h3, h4⟩, R'⟩ := R.step (c := .children f) (by show (A.held f).isSome; rw [hA]; rfl)
  rw [hA] at h2; cases h2
  refine ⟨t, h3, ?_⟩
  cases t with
  | none =>
    obtain ⟨rfl, rfl⟩ := h4
    obtain ⟨i, e1, e2⟩ := R.get hA
    rw [h1]
    simp only [World.step, e1] at h1
    split at h1 <;> simp_all
  | some l =>
    obtain ⟨rfl, rfl⟩ := h4
    refine ⟨_, _, w', h1, .step (.children f) hw trivial h1, ?_, ?_, ?_, ?_⟩
    · rw [names_iff R']; rw [names_iff R] at hn; exact hn
    · refine R'.denotes_iff.2 ?_
      simp [Abs.give]
    · refine R'.denotes_iff.2 ?_
      simp [Abs.give]
    · intro h G hG
      have hG' := R.denotes_iff.1 hG
      refine R'.denotes_iff.2 ?_
      have : h < A.next := by
        obtain ⟨i, hi, _⟩ := hG
        have := R.fresh h i hi
        rw [R.next]; omega
      show (if h = A.next + 1 then _ else if h = A.next then _ else A.held h) = some G
      rw [if_neg (by omega), if_neg (by omega)]; exact hG'

theorem cof_below {l : Nat} (h : DependsBelow (l + 1) F) (b : Bool) : DependsBelow l (F.cof l b) := by
  intro a c hac
  refine h _ _ fun x hx => ?_
  by_cases e : x = l
  · simp [e]
  · simp only [if_neg e]; exact hac x (by omega)

/-- **C87.** `create_node` of the header and the children gives the handle's node back. -/
theorem C87_recompose (hw : w.Reachable) (hn : Names w names) {f l : Nat} (hf : w.Denotes f F) (ht : IsTop F (some l)) :
    ∃ c0 c1 w1 r w2, w.header f = some (some l) ∧ w.step (.children f) = some (.pair (some (c0, c1)), w1) ∧
      w1.step (.createNode l c0 c1) = some (.handle r, w2) ∧ w2.step (.eq f r) = some (.bool true, w2) := by
  obtain ⟨t, h1, _, h3, _, h5⟩ := C87_top hw hn hf
  obtain ⟨t', k1, k2⟩ := C87_children hw hn hf
  obtain rfl := h1.unique ht
  obtain rfl := k1.unique ht
  obtain ⟨c0, c1, w1, e1, e2, e3, e4, e5, e6⟩ := k2
  obtain ⟨A, R⟩ := e2.rel
  rw [names_iff R] at e3
  obtain ⟨w2, g1, g2, g3, _, g4⟩ := C01_createNode e2 e4 e5 (h := l) (by
    rw [R.mok.hdrs, ← e3]; simpa [mkHeaders] using h5 l rfl) (cof_below ht.1 _) (cof_below ht.1 _)
  obtain ⟨b, b1, b2⟩ := C02_eq g2 (g4 _ _ (e6 _ _ hf)) g3
  obtain rfl : b = true := b2.2 (by
    funext a
    cases ha : a l <;> simp only [BFun.cof, Bool.false_eq_true, if_false, if_true] <;> congr 1 <;> funext x <;>
      by_cases e : x = l <;> simp [e, ha])
  exact ⟨c0, c1, w1, _, w2, h3, e1, g1, b1⟩

/-- A client's evaluation loop: at a node with a label go to the child of that variable's value, at a terminal
ask `is_one`.  At most `n` nodes are visited. -/
def walk (ν : String → Bool) : Nat → World → Nat → Option (Bool × World)
  | 0, _, _ => none
  | n + 1, w, f =>
    match w.label f with
    | none => none
    | some none =>
      match w.step (.isOne f) with
      | some (.bool b, w) => some (b, w)
      | _ => none
    | some (some x) =>
      match w.step (.children f) with
      | some (.pair (some (c0, c1)), w) => walk ν n w (if ν x then c1 else c0)
      | _ => none

/-- **C87.** Walking from a handle along the values of the names ends after at most one step per variable with
the function's value. -/
theorem C87_walk {a : Nat → Bool} {ν : String → Bool} (ha : Agrees names a ν) : ∀ (n : Nat) (w : World) (f : Nat) (F : BFun),
    w.Reachable → Names w names → w.Denotes f F → DependsBelow n F →
    ∃ w', walk ν (n + 1) w f = some (F a, w') ∧ w'.Reachable ∧ ∀ h G, w.Denotes h G → w'.Denotes h G := by
  intro n
  induction n with
  | zero =>
    intro w f F hw hn hf hd
    obtain ⟨t, h1, _, _, h4, h5⟩ := C87_top hw hn hf
    cases t with
    | some l => exact absurd (hd _ _ (fun _ h => absurd h (Nat.not_lt_zero _))) h1.2.choose_spec
    | none =>
      obtain ⟨_, ⟨b, b1, b2⟩, _⟩ := C02_constants hw hf
      refine ⟨w, ?_, hw, fun _ _ h => h⟩
      have : b = F a := Bool.eq_iff_iff.2 (b2.trans ⟨fun h => h a, fun h c => (h1 c a).trans h⟩)
      simp only [walk, h4, Option.bind_none, b1, this]
  | succ n ih =>
    intro w f F hw hn hf hd
    obtain ⟨t, h1, _, _, h4, h5⟩ := C87_top hw hn hf
    cases t with
    | none =>
      obtain ⟨_, ⟨b, b1, b2⟩, _⟩ := C02_constants hw hf
      refine ⟨w, ?_, hw, fun _ _ h => h⟩
      have : b = F a := Bool.eq_iff_iff.2 (b2.trans ⟨fun h => h a, fun h c => (h1 c a).trans h⟩)
      simp only [walk, h4, Option.bind_none, b1, this]
    | some l =>
      obtain ⟨t', k1, k2⟩ := C87_children hw hn hf
      obtain rfl := k1.unique h1
      obtain ⟨c0, c1, w1, e1, e2, e3, e4, e5, e6⟩ := k2
      have hl := h5 l rfl
      have hx : names[l]? = some names[l] := List.getElem?_eq_getElem hl
      have hln : l ≤ n := by
        by_contra hc
        obtain ⟨b, hb⟩ := h1.2
        exact hb (hd _ _ fun x hx => by rw [if_neg (by omega), if_neg (by omega)])
      have key : ∀ b, a l = b → F.cof l b a = F a := by
        intro b hb
        unfold BFun.cof
        congr 1; funext x
        by_cases e : x = l
        · subst e; simp [hb]
        · simp [e]
      have below : ∀ b, DependsBelow n (F.cof l b) := fun b c d hcd =>
        cof_below h1.1 b _ _ fun x hx => hcd x (by omega)
      have hν := ha l _ hx
      rw [← key _ hν]
      have step : walk ν (n + 1 + 1) w f = walk ν (n + 1) w1 (if ν names[l] then c1 else c0) := by
        rw [walk]; simp only [h4, Option.bind_some, hx, e1]
      rw [step]
      cases hv : ν names[l] with
      | false =>
        obtain ⟨w', g1, g2, g3⟩ := ih w1 c0 _ e2 e3 e4 (below false)
        exact ⟨w', by simpa using g1, g2, fun h G hG => g3 _ _ (e6 _ _ hG)⟩
      | true =>
        obtain ⟨w', g1, g2, g3⟩ := ih w1 c1 _ e2 e3 e5 (below true)
        exact ⟨w', by simpa using g1, g2, fun h G hG => g3 _ _ (e6 _ _ hG)⟩

end bdd

/-! ## MDD -/

section mdd
variable {w : MWorld} {vs : List (String × Nat)} {F : MFun}

/-- **C87.** `get_children` of an `MddNode` without top variable is `None`; otherwise it returns one handle per state
of the top variable, for the function with the variable in that state.  `get_header` and `get_level` give the variable's
level, `get_label` its name.  All handles keep their functions. -/
theorem C87_mdd_children (hw : w.Reachable) (hv : MVars w vs) {f : Nat} (hf : w.Has f F) :
    ∃ t, MTop vs F t ∧ w.step (.level f) = some (.nat t, w) ∧ w.step (.header f) = some (.nat t, w) ∧
      w.step (.label f) = some (.str (t.bind fun l => vs[l]?.map Prod.fst), w) ∧ match t with
      | none => w.step (.children f) = some (.handles none, w)
      | some l => ∃ x r cs w', vs[l]? = some (x, r) ∧ w.step (.children f) = some (.handles (some cs), w') ∧
          w'.Reachable ∧ MVars w' vs ∧ cs.length = r ∧ (∀ (j c : Nat), cs[j]? = some c → w'.Has c (fun a => F (upd a l j))) ∧
          ∀ h G, w.Has h G → w'.Has h G := by
  have hh : ∀ g ∈ [f], ∃ x, w.hs.held.get g = some x := by
    intro g hg; rw [List.mem_singleton.1 hg]; obtain ⟨x, hx, _⟩ := hf; exact ⟨x, hx⟩
  obtain ⟨_, _, _, l1, ⟨rfl, rfl, l2⟩, _⟩ := C34_effect hw hv (c := .level f) trivial hh
  obtain ⟨t, rfl, ht⟩ := l2 F hf
  obtain ⟨_, _, _, h1, ⟨rfl, rfl, h2⟩, _⟩ := C34_effect hw hv (c := .header f) trivial hh
  obtain ⟨t', rfl, ht'⟩ := h2 F hf
  obtain rfl := ht'.unique ht
  obtain ⟨_, _, _, b1, ⟨rfl, rfl, b2⟩, _⟩ := C34_effect hw hv (c := .label f) trivial hh
  obtain ⟨t', ht', rfl⟩ := b2 F hf
  obtain rfl := ht'.unique ht
  obtain ⟨o, w', vs', c1, ⟨hvs, c2⟩, c3, _, c4⟩ := C34_effect hw hv (c := .children f) trivial hh
  rw [hvs] at c3
  refine ⟨_, ht, l1, h1, b1, ?_⟩
  rcases c2 F hf with ⟨d1, rfl, rfl⟩ | ⟨l, ⟨x, r⟩, d1, d2, rfl, d3⟩
  · obtain rfl := d1.unique ht; exact c1
  · obtain rfl := d2.unique ht
    refine ⟨x, r, _, w', d1, c1, c4 trivial, c3, by simp, fun j c hc => ?_, fun h G hG => C34_step (c := .children f) hw trivial c1 (by simp) hG⟩
    rw [List.getElem?_map] at hc
    obtain ⟨j', hj, rfl⟩ := Option.map_eq_some_iff.1 hc
    obtain ⟨hlt, rfl⟩ := List.getElem?_eq_some_iff.1 hj
    simp only [List.getElem_range]
    exact d3 _ (by simpa using hlt)

/-- A client's evaluation loop: at a node with a label go to the child of that variable's state; returns the handle
of the terminal reached.  At most `n` nodes are visited. -/
def walkM (ν : String → Nat) : Nat → MWorld → Nat → Option (Nat × MWorld)
  | 0, _, _ => none
  | n + 1, w, f =>
    match w.step (.label f) with
    | some (.str none, w) => some (f, w)
    | some (.str (some x), w) =>
      match w.step (.children f) with
      | some (.handles (some cs), w) =>
        match cs[ν x]? with
        | some c => walkM ν n w c
        | none => none
      | _ => none
    | _ => none

/-- **C87.** Walking from a handle along the states of the names ends after at most one step per variable at a
handle whose function is constantly the value of the function in those states. -/
theorem C87_mdd_walk {a : Nat → Nat} {ν : String → Nat} (ha : At vs a ν) : ∀ (n : Nat) (w : MWorld) (f : Nat) (F : MFun),
    w.Reachable → MVars w vs → w.Has f F → (∀ l, MTop vs F (some l) → l < n) →
    ∃ r w' G, walkM ν (n + 1) w f = some (r, w') ∧ w'.Reachable ∧ w'.Has r G ∧ (∀ b, ValidV vs b → G b = F a) ∧
      ∀ h G, w.Has h G → w'.Has h G := by
  intro n
  induction n with
  | zero =>
    intro w f F hw hv hf hd
    obtain ⟨t, h1, _, _, h4, _⟩ := C87_mdd_children hw hv hf
    cases t with
    | some l => exact absurd (hd l h1) (Nat.not_lt_zero _)
    | none => exact ⟨f, w, F, by simp only [walkM, h4, Option.bind_none], hw, hf, fun b hb => h1 b a hb ha.valid, fun _ _ h => h⟩
  | succ n ih =>
    intro w f F hw hv hf hd
    obtain ⟨t, h1, _, _, h4, h5⟩ := C87_mdd_children hw hv hf
    cases t with
    | none => exact ⟨f, w, F, by simp only [walkM, h4, Option.bind_none], hw, hf, fun b hb => h1 b a hb ha.valid, fun _ _ h => h⟩
    | some l =>
      obtain ⟨x, r, cs, w1, e1, e2, e3, e4, e5, e6, e7⟩ := h5
      have hx : a l = ν x := ha.agree l x r e1
      have hlt : a l < r := ha.valid l x r e1
      obtain ⟨c, hc⟩ : ∃ c, cs[a l]? = some c := ⟨_, List.getElem?_eq_getElem (by omega)⟩
      obtain ⟨r', w', G, g1, g2, g3, g4, g5⟩ := ih w1 c _ e3 e4 (e6 _ _ hc) (by
        intro l' hl'
        have := hd l h1
        obtain ⟨b, c, hb, hc, hbc, hne⟩ := hl'.2
        by_contra hge
        refine hne (h1.1 _ _ (validV_upd hb e1 hlt) (validV_upd hc e1 hlt) fun y hy => ?_)
        by_cases ey : y = l
        · subst ey; simp
        · rw [upd_ne _ _ ey, upd_ne _ _ ey]; exact hbc y (by omega))
      refine ⟨r', w', G, ?_, g2, g3, fun b hb => by rw [g4 b hb, upd_id rfl], fun h G hG => g5 _ _ (e7 _ _ hG)⟩
      rw [walkM]
      simp only [h4, Option.bind_some, e1, Option.map_some, e2, ← hx, hc]
      exact g1

theorem hasL_map {α : Type} {f : α → Nat} {G : α → MFun} : ∀ (l : List α), (∀ j ∈ l, w.Has (f j) (G j)) →
    w.HasL (l.map f) (l.map G)
  | [], _ => trivial
  | j :: l, h => ⟨h j List.mem_cons_self, hasL_map l fun k hk => h k (List.mem_cons_of_mem _ hk)⟩

/-- **C87.** `create_node` of the header and the children gives the handle's node back. -/
theorem C87_mdd_recompose (hw : w.Reachable) (hv : MVars w vs) {f l : Nat} (hf : w.Has f F) (ht : MTop vs F (some l)) :
    ∃ cs w1 r w2 x, w.step (.header f) = some (.nat (some l), w) ∧ w.step (.children f) = some (.handles (some cs), w1) ∧
      w1.step (.createNode l cs) = some (.handle r, w2) ∧ w2.Reachable ∧ w2.step (.node f) = some (.node x, w2) ∧
      w2.step (.node r) = some (.node x, w2) := by
  obtain ⟨t, h1, h2, h3, h4, h5⟩ := C87_mdd_children hw hv hf
  obtain rfl := h1.unique ht
  obtain ⟨x, r, cs, w1, e1, e2, e3, e4, e5, e6, e7⟩ := h5
  have R1 := mrel e3 e4
  have get : ∀ c ∈ cs, ∃ j, j < r ∧ w1.Has c (fun a => F (upd a l j)) := by
    intro c hc
    obtain ⟨j, hj⟩ := List.mem_iff_getElem?.1 hc
    exact ⟨j, by have := (List.getElem?_eq_some_iff.1 hj).1; omega, e6 j c hj⟩
  obtain ⟨a0, _, ha0, _⟩ := h1.2
  have kind : ∀ {G : MFun} {c : Nat} {y : MNode}, w1.Has c G → w1.hs.held.get c = some y → (G a0).isBool = y.isBool := by
    intro G c y hG hy
    obtain ⟨_, _, _, s1, ⟨_, _, s2⟩, _⟩ := C34_effect e3 e4 (c := .isBoolean c) trivial (by
      intro g hg; rw [List.mem_singleton.1 hg]; exact ⟨y, hy⟩)
    obtain ⟨b, rfl, hb⟩ := s2 G hG
    simp only [MWorld.step, MWorld.on1, hy, Option.some.injEq, Prod.mk.injEq, MOut.bool.injEq] at s1
    rw [hb a0 ha0, s1.1]
  have ok : w1.CreateOk l cs := by
    refine ⟨⟨l, x, r⟩, (F a0).isBool, ?_, e5, fun c hc => ?_⟩
    · have : w1.mgr.w.eng.mdd.arena.headers = mkH vs := e4
      rw [this]; simp [mkH, e1]
    · obtain ⟨j, hj, hc'⟩ := get c hc
      obtain ⟨y, hy, _⟩ := id hc'
      refine ⟨y, hy, ?_, fun l' hl' => ?_⟩
      · rw [← kind hc' hy]
        have k0 := kind (e7 _ _ hf) (e7 _ _ hf).choose_spec.1
        obtain ⟨_, _, _, s1, ⟨_, _, s2⟩, _⟩ := C34_effect e3 e4 (c := .isBoolean f) trivial (by
          intro g hg; rw [List.mem_singleton.1 hg]; exact ⟨_, (e7 _ _ hf).choose_spec.1⟩)
        obtain ⟨b, rfl, hb⟩ := s2 F (e7 _ _ hf)
        rw [hb _ (validV_upd ha0 e1 hj), hb a0 ha0]
      · obtain ⟨_, _, _, s1, ⟨_, _, s2⟩, _⟩ := C34_effect e3 e4 (c := .level c) trivial (by
          intro g hg; rw [List.mem_singleton.1 hg]; exact ⟨y, hy⟩)
        obtain ⟨t, rfl, hb⟩ := s2 _ hc'
        simp only [MWorld.step, MWorld.on1, hy, Option.some.injEq, Prod.mk.injEq, MOut.nat.injEq] at s1
        rw [hl'] at s1
        obtain rfl := s1.1
        obtain ⟨b, c, hb', hc', hbc, hne⟩ := hb.2
        by_contra hge
        refine hne (h1.1 _ _ (validV_upd hb' e1 hj) (validV_upd hc' e1 hj) fun y hy => ?_)
        by_cases ey : y = l
        · subst ey; simp
        · rw [upd_ne _ _ ey, upd_ne _ _ ey]; exact hbc y (by simp only at hge; omega)
  obtain ⟨o, w2, vs', s1, ⟨s2, s3⟩, s4, _, s5⟩ := C34_effect e3 e4 (c := .createNode l cs) ok (by
    intro c hc
    obtain ⟨j, _, y, hy, _⟩ := get c hc
    exact ⟨y, hy⟩)
  rw [s2] at s4
  have hcs : cs = (List.range r).map fun j => cs[j]?.getD 0 := by
    refine List.ext_getElem? fun j => ?_
    rw [List.getElem?_map]
    by_cases hj : j < r
    · rw [List.getElem?_range hj, Option.map_some, List.getElem?_eq_getElem (by omega)]; rfl
    · rw [List.getElem?_eq_none (by omega), List.getElem?_eq_none (by simp; omega)]; rfl
  obtain ⟨rfl, V, hV, hVF⟩ := s3 ((List.range r).map fun j a => F (upd a l j)) (by
    rw [hcs]
    refine hasL_map _ fun j hj => e6 j _ ?_
    rw [List.getElem?_eq_getElem (by rw [e5]; exact List.mem_range.1 hj)]; rfl)
  obtain ⟨y, z, y1, z1, yz⟩ := C27_handles (s5 ok) s4 (C34_step (c := .createNode l cs) e3 ok s1 (by simp) (e7 _ _ hf)) hV
  have : y = z := yz.2 (by
    intro a ha
    obtain ⟨G, hG, hz⟩ := hVF a ha
    rw [hz, List.getElem?_map] at *
    obtain ⟨j, hj, rfl⟩ := Option.map_eq_some_iff.1 hG
    obtain ⟨_, rfl⟩ := List.getElem?_eq_some_iff.1 hj
    rw [List.getElem_range]; show F a = F (upd a l (a l)); rw [upd_id rfl])
  subst this
  exact ⟨cs, w1, _, w2, y, h3, e2, s1, s5 ok, y1, z1⟩

end mdd

/-! ## ZDD -/

section zdd
variable {w : ZWorld}

/-- **C87.** A ZDD handle with a label `x`: `get_children` returns the members without `x`, and the members with
`x` after removal of `x`; `x` occurs in a member.  A handle without label has no children and no member other than
the empty set. -/
theorem C87_zdd_children (hw : w.Reachable) {f : Nat} {𝓕 : Set (Set String)} (hf : w.Denotes f 𝓕) :
    (w.step (.label f) = some (.str none, w) ∧ w.step (.children f) = some (.pair none, w) ∧ 𝓕 ⊆ {∅}) ∨
    ∃ x c0 c1 w', w.step (.label f) = some (.str (some x), w) ∧
      w.step (.children f) = some (.pair (some (c0, c1)), w') ∧ w'.Reachable ∧ (∃ S ∈ 𝓕, x ∈ S) ∧
      w'.Denotes c0 {S | S ∈ 𝓕 ∧ x ∉ S} ∧ w'.Denotes c1 {S | x ∉ S ∧ insert x S ∈ 𝓕} ∧
      ∀ h 𝓖, w.Denotes h 𝓖 → w'.Denotes h 𝓖 := by
  obtain ⟨names, R⟩ := hw.rel
  have hops : ∀ g ∈ [f], ∃ i, w.hs.held.get g = some i := by
    intro g hg; rw [List.mem_singleton.1 hg]; exact hf.held
  obtain ⟨o, w', n, h1, ⟨hn0, F, hF, hc⟩, R', hp, hk⟩ := R.step (c := .children f) hops
  rw [hn0] at R' hp
  obtain ⟨o2, w2, n2, l1, ⟨_, rfl, F2, t, hF2, htop, rfl⟩, _⟩ := R.step (c := .label f) hops
  cases ZRel.has_unique hF2 hF
  obtain ⟨F3, hF3, fc, fe, fb, fi⟩ := R.of_denotes hf
  cases ZRel.has_unique hF3 hF
  rcases hc with ⟨ht, rfl, rfl⟩ | ⟨l, ht, rfl, hlo, hhi⟩
  · left
    have : t = none := by
      cases t with
      | none => rfl
      | some l =>
        obtain ⟨a, z, ha, h1⟩ := htop.2
        rw [ht a z ha] at h1; cases h1
    subst this
    refine ⟨l1, h1, ?_⟩
    rw [fe]
    rintro S ⟨a, ha, rfl⟩
    rw [ht a _ ha, labS_zero]; rfl
  · right
    obtain ⟨a1, z1, ha1, hl1⟩ := ht.2
    have : t = some l := by
      cases t with
      | none => rw [htop a1 z1 ha1] at hl1; cases hl1
      | some l' =>
        obtain ⟨a2, z2, ha2, hl2⟩ := htop.2
        congr 1
        rcases Nat.lt_trichotomy l l' with h | h | h
        · have := ht.1 a2 z2 ha2 l' h; omega
        · exact h.symm
        · have := htop.1 a1 z1 ha1 l h; omega
    subst this
    obtain ⟨x, hx⟩ : ∃ x, names[l]? = some x := by
      rcases fb a1 z1 ha1 l with h | ⟨_, h⟩
      · omega
      · exact h
    have nd := R.mok.nodup
    have mem : ∀ a : Nat → Nat, x ∈ labS names a ↔ a l = 1 := by
      intro a
      constructor
      · rintro ⟨l', h1, h2⟩
        have := nodup_getElem?_inj nd h1 hx
        subst this; exact h2
      · intro h; exact ⟨l, hx, h⟩
    have up : ∀ {a : Nat → Nat}, a l = 0 → labS names (upd a l 1) = insert x (labS names a) := by
      intro a h0
      rcases labS_upd (a := a) hx with h | h
      · exact h
      · omega
    have z1one : z1 = .one ∨ z1 = .zero := by
      cases z1 with
      | one => exact .inl rfl
      | zero => exact .inr rfl
      | undet => exact absurd ha1 (fc _)
    refine ⟨x, _, _, w', by rw [l1]; simp [hx], h1, .step _ hw h1, ?_, ?_, ?_, ?_⟩
    · rcases z1one with rfl | rfl
      · exact ⟨labS names a1, by rw [fe]; exact ⟨a1, ha1, rfl⟩, (mem a1).2 hl1⟩
      · exfalso
        obtain ⟨i, hi, hden⟩ := hF
        exact ((hden.val a1 .zero).1 ha1).1 rfl
    · have := R'.denotes_of hlo (fun a h => fc _ h.2)
      convert this using 1
      ext S
      constructor
      · rintro ⟨hS, hxS⟩
        rw [fe] at hS
        obtain ⟨a, ha, rfl⟩ := hS
        have : a l = 0 := by
          rcases fb a _ ha l with h | ⟨h, _⟩
          · exact h
          · exact absurd ((mem a).2 h) hxS
        exact ⟨a, ⟨this, ha⟩, rfl⟩
      · rintro ⟨a, ⟨h0, ha⟩, rfl⟩
        refine ⟨by rw [fe]; exact ⟨a, ha, rfl⟩, fun h => ?_⟩
        rw [mem] at h; omega
    · have := R'.denotes_of hhi (fun a h => fc _ h.2)
      convert this using 1
      ext S
      constructor
      · rintro ⟨hxS, hS⟩
        rw [fe] at hS
        obtain ⟨a, ha, e⟩ := hS
        have h1 : a l = 1 := (mem a).1 (e ▸ Set.mem_insert _ _)
        refine ⟨upd a l 0, ⟨by simp [upd], by rw [upd_upd, upd_id h1]; exact ha⟩, ?_⟩
        have e' : insert x (labS names (upd a l 0)) = labS names a := by
          rw [← up (by simp [upd]), upd_upd, upd_id h1]
        have hx0 : x ∉ labS names (upd a l 0) := by rw [mem]; simp [upd]
        rw [← e'] at e
        ext y
        by_cases hy : y = x
        · subst hy; exact iff_of_false hxS hx0
        · have := Set.ext_iff.1 e y
          simpa [hy] using this
      · rintro ⟨a, ⟨h0, ha⟩, rfl⟩
        refine ⟨fun h => ?_, by rw [fe]; exact ⟨_, ha, (up h0).symm⟩⟩
        rw [mem] at h; omega
    · exact fun h 𝓖 hG => denotes_keep R R' hp (fun G hG => hk h G hG (by simp)) hG

/-- **C87.** A ZDD handle is put together again from its label and children: `lo ∪ {x}·hi`. -/
theorem C87_zdd_recompose (hw : w.Reachable) {f : Nat} {𝓕 : Set (Set String)} (hf : w.Denotes f 𝓕) {x : String}
    (hl : w.step (.label f) = some (.str (some x), w)) :
    ∃ c0 c1 w1 s w2 p w3 r w4, w.step (.children f) = some (.pair (some (c0, c1)), w1) ∧
      w1.step (.singleton x) = some (.handle s, w2) ∧ w2.step (.product s c1) = some (.handle p, w3) ∧
      w3.step (.union c0 p) = some (.handle r, w4) ∧ w4.step (.eq f r) = some (.bool true, w4) := by
  rcases C87_zdd_children hw hf with ⟨h1, _⟩ | ⟨y, c0, c1, w1, h1, h2, h3, h4, h5, h6, h7⟩
  · rw [hl] at h1; cases h1
  rw [hl] at h1; cases h1
  obtain ⟨w2, i1, i2, i3, _, i4⟩ := C23_singleton h3 x
  obtain ⟨w3, j1, j2, j3, _, j4⟩ := C20_product i2 i3 (i4 _ _ h6)
  obtain ⟨w4, k1, k2, k3, _, k4⟩ := C20_union j2 (j4 _ _ (i4 _ _ h5)) j3
  obtain ⟨b, b1, b2⟩ := C24_eq k2 (k4 _ _ (j4 _ _ (i4 _ _ (h7 _ _ hf)))) k3
  obtain rfl : b = true := b2.2 (by
    ext S
    constructor
    · intro hS
      by_cases hx : x ∈ S
      · refine .inr ⟨{x}, rfl, S \ {x}, ⟨by simp, by rwa [Set.insert_sdiff_singleton, Set.insert_eq_of_mem hx]⟩, ?_⟩
        rw [Set.singleton_union, Set.insert_sdiff_singleton, Set.insert_eq_of_mem hx]
      · exact .inl ⟨hS, hx⟩
    · rintro (⟨hS, _⟩ | ⟨A, rfl, B, ⟨_, hB⟩, rfl⟩)
      · exact hS
      · rw [Set.singleton_union]; exact hB)
  exact ⟨c0, c1, w1, _, w2, _, w3, _, w4, h2, i1, j1, k1, b1⟩

end zdd

/-! ## Examples -/

/-- `x & y | z` with `x` on top: labels, children, the node put together again, and the value at `x = y = 1`, `z = 0`
and at `x = 1` alone. -/
example : (World.new.run [.rpn (lex "z"), .rpn (lex "y"), .rpn (lex "x y & z |"), .children 2, .createNode 2 3 4, .eq 2 5,
    .children 4]).map (·.1) =
    some [.handle 0, .handle 1, .handle 2, .pair (some (3, 4)), .handle 5, .bool true, .pair (some (6, 7))] := by decide +kernel

example : (World.new.run [.rpn (lex "z"), .rpn (lex "y"), .rpn (lex "x y & z |"), .children 2, .createNode 2 3 4, .eq 2 5,
    .children 4]).map (fun p => ([0, 2, 4, 6].map p.2.label, [0, 2, 4, 7].map p.2.header)) =
    some ([some (some "z"), some (some "x"), some (some "y"), some (some "z")],
      [some (some 0), some (some 2), some (some 1), some none]) := by decide +kernel

example : (World.new.run [.rpn (lex "z"), .rpn (lex "y"), .rpn (lex "x y & z |")]).map (fun p =>
    [(walk (fun x => x != "z") 4 p.2 2).map (·.1), (walk (fun x => x == "x") 4 p.2 2).map (·.1),
      (walk (fun x => x == "x") 1 p.2 2).map (·.1)]) = some [some true, some false, none] := by decide +kernel

/-- `{{a}, {b, c}}`. -/
example : (ZWorld.new.run [.fromSets [["a"], ["b", "c"]], .label 0, .children 0, .singleton "c", .product 3 2, .union 1 4, .eq 0 5]).map (·.1) =
    some [.handle 0, .str (some "c"), .pair (some (1, 2)), .handle 3, .handle 4, .handle 5, .bool true] := by decide +kernel

/-- `x + y` with `x` in three states. -/
def walked : Option (List MOut × Option (Option MOut)) :=
  (mrun MWorld.new [.defvar "y" 2, .defvar "x" 3, .bin .add 0 1, .label 2, .children 2, .createNode 1 [3, 4, 5]]).map fun p =>
    (p.1 ++ (p.2.step (.node 2)).toList.map (·.1) ++ (p.2.step (.node 6)).toList.map (·.1),
      (walkM (fun x => if x = "x" then 2 else 1) 3 p.2 2).map fun q => (q.2.step (.valueOf q.1)).map (·.1))

example : walked.map (fun p => (p.1.take 6, p.2)) = some ([.handle 0, .handle 1, .handle 2, .str (some "x"), .handles (some [3, 4, 5]),
    .handle 6], some (some (.int (some 3)))) := by decide +kernel

example : walked.map (fun p => p.1[6]? == p.1[7]? && p.1[6]?.isSome) = some true := by decide +kernel

end Props
end DD
