import Verif.Props.Mss
import Verif.Props.Bss
import Verif.Props.BddRpn
import Verif.Core.DotRead
import Verif.Common.DotText
import Verif.Bss.Dot
import Verif.Mss.Dot

/-!
# Graphviz output: C59, C60

`dot` returns a text: a frame around a list of statements (`dotText`).  A reader of the statements follows arrows
(`Follow`), or collects the paths (`PicPath`); `PicOK` says that nothing is drawn twice or besides.
-/

set_option autoImplicit false
set_option linter.unusedSectionVars false
set_option linter.unusedVariables false

namespace DD.Props
open Arena

/-! ## C59 -/

/-- Round nodes carry names of variables, squares the labels of terminals. -/
def LabelsFrom (P : List DotLine) (round square : String → Prop) : Prop :=
  ∀ j r l, DotLine.node j r l ∈ P → if r then round l else square l

theorem labelsFrom {T : Type} [DecidableEq T] [Fixed T] {m : Arena T} {st : DotStyle T} {i : Nat} {P : List DotLine}
    (hP : ∀ x, x ∈ P ↔ ∃ j, Shown m st i j ∧ LineOf m st j x) {N S : String → Prop} (hN : ∀ hd ∈ m.headers, N hd.label)
    (hS : ∀ t, S (st.label t)) : LabelsFrom P N S := by
  intro j r l h
  cases r with
  | true =>
    obtain ⟨_, _, hd, _, h2, rfl⟩ := line_round hP h
    exact hN hd (List.mem_of_getElem? h2)
  | false =>
    obtain ⟨t, _, rfl⟩ := line_leaf hP h
    exact hS t

/-- `dot` of a BDD handle draws its function. -/
theorem C59_bdd {w : World} (hw : w.Reachable) {h : Nat} {F : BFun} (hf : w.Denotes h F) {names : List String}
    (hn : Names w names) :
    ∃ P i, w.dot h = some (dotText P) ∧ PicOK P i ∧ LabelsFrom P (· ∈ names) (· ∈ ["0", "1", "?"]) ∧
      ∀ a ν, Agrees names a ν → ∀ l, Follow P (fun x => (ν x).toNat) i l ↔ l = if F a then "1" else "0" := by
  obtain ⟨A, R⟩ := hw.rel
  rw [names_iff R] at hn
  subst hn
  obtain ⟨i, hi, hd⟩ := hf
  obtain ⟨F', h1, _⟩ := R.heldS h i hi
  obtain ⟨i', hi', hl⟩ := R.get h1
  rw [hi] at hi'; cases hi'
  obtain ⟨P, k1, k2, k3⟩ := dotLines_pic R.mok.inv.wf bddDot hl.live
  refine ⟨P, i, by unfold World.dot; rw [hi]; simp [k1], k2, labelsFrom k3 ?_ ?_, ?_⟩
  · intro hd hm
    rw [R.mok.hdrs] at hm
    obtain ⟨h, hh⟩ := List.mem_iff_getElem?.1 hm
    obtain ⟨s, h1, rfl⟩ := mkHeaders_get.1 hh
    exact List.mem_of_getElem? h1
  · intro t; cases t <;> simp [bddDot]
  · intro a ν hν l
    have hag : ∀ hd ∈ w.mgr.bdd.arena.headers, bl a hd.level = (ν hd.label).toNat := by
      intro hd hm
      rw [R.mok.hdrs] at hm
      obtain ⟨h, hh⟩ := List.mem_iff_getElem?.1 hm
      obtain ⟨s, h1, rfl⟩ := mkHeaders_get.1 hh
      show (a h).toNat = _
      rw [hν h s h1]
    have hlab : (if F a then "1" else "0") = bddDot.label (T3.ofBool (F a)) := by cases F a <;> rfl
    rw [hlab]
    constructor
    · intro hl
      obtain ⟨t, g1, g2, _⟩ := follow_sound k3 hag hl
      rw [g2, g1.det (hd a)]
    · rintro rfl
      exact follow_complete k3 hag (hd a) (.root i) (.inl (by cases F a <;> rfl))

/-- How a value of an MDD function is written. -/
def valueText : MVal → String
  | .b .zero => "F"
  | .b .one => "T"
  | .b .undet => "?"
  | .v (some n) => toString n
  | .v none => "Undet"

/-- The value is not one of the two undetermined ones. -/
def Determined (v : MVal) : Prop := v ≠ .b .undet ∧ v ≠ .v none

/-- The assignment `a` (by level) gives the variables the states `ν` (by name). -/
def AgreesM (vs : List (String × Nat)) (a : Nat → Nat) (ν : String → Nat) : Prop :=
  ∀ (i : Nat) (x : String) (r : Nat), vs[i]? = some (x, r) → a i = ν x

/-- `dot` of an MDD handle draws its function; arrows to undetermined values are left out. -/
theorem C59_mdd {w : MWorld} (hw : w.Reachable) {h : Nat} {F : MFun} (hf : w.Has h F) {vs : List (String × Nat)}
    (hv : MVars w vs) :
    ∃ P i, w.dot h = some (dotText P) ∧ PicOK P i ∧ LabelsFrom P (· ∈ vs.map Prod.fst) (fun l => ∃ v, l = valueText v) ∧
      ∀ a ν, ValidV vs a → AgreesM vs a ν → (∀ l, Follow P ν i l → l = valueText (F a)) ∧
        (Determined (F a) → Follow P ν i (valueText (F a))) := by
  obtain ⟨vs', R⟩ := hw.rel
  have := mkH_inj (hv.symm.trans R.mok.hdrs)
  subst this
  obtain ⟨x, hx, hd⟩ := hf
  have inv := R.mok.ok.inv
  have hhdr : ∀ {hd : Header}, hd ∈ w.mgr.w.eng.mdd.arena.headers → ∃ l r, vs[l]? = some (hd.label, r) ∧ hd.level = l := by
    intro hd hm
    rw [R.mok.hdrs] at hm
    obtain ⟨h, hh⟩ := List.mem_iff_getElem?.1 hm
    obtain ⟨p, h1, rfl⟩ := mkH_get.1 hh
    exact ⟨h, p.2, h1, rfl⟩
  have hnm : ∀ hd ∈ w.mgr.w.eng.mdd.arena.headers, hd.label ∈ vs.map Prod.fst := by
    intro hd hm
    obtain ⟨l, r, h1, _⟩ := hhdr hm
    exact List.mem_map.2 ⟨_, List.mem_of_getElem? h1, rfl⟩
  have hag : ∀ {a : Nat → Nat} {ν : String → Nat}, AgreesM vs a ν → ∀ hd ∈ w.mgr.w.eng.mdd.arena.headers,
      a hd.level = ν hd.label := by
    intro a ν hν hd hm
    obtain ⟨l, r, h1, h2⟩ := hhdr hm
    rw [h2]
    exact hν l _ r h1
  have ev : ∀ a, ValidV vs a → w.mgr.w.eng.MEval a x (F a) := fun a ha => hd.val a (R.mok.valid.2 ha)
  cases x with
  | bool i =>
    obtain ⟨P, k1, k2, k3⟩ := dotLines_pic inv.b.wf mddDot (show w.mgr.w.eng.mdd.arena.Live i from hd.live)
    refine ⟨P, i, by unfold MWorld.dot; rw [hx]; simp [Mtmdd2.dotLines, k1], k2, labelsFrom k3 hnm ?_, ?_⟩
    · intro t; exact ⟨.b t, by cases t <;> rfl⟩
    · intro a ν ha hν
      have e := ev a ha
      cases hF : F a with
      | v t => rw [hF] at e; exact e.elim
      | b t =>
        rw [hF] at e
        replace e : Eval w.mgr.w.eng.mdd.arena a i t := e
        have hl : valueText (.b t) = mddDot.label t := by cases t <;> rfl
        rw [hl]
        refine ⟨fun l hl => ?_, fun hdet => follow_complete k3 (hag hν) e (.root i) (.inl ?_)⟩
        · obtain ⟨t', g1, g2, _⟩ := follow_sound k3 (hag hν) hl
          rw [g2, g1.det e]
        · cases t with
          | undet => exact absurd rfl hdet.1
          | _ => rfl
  | value i =>
    rw [inv.hdr] at hnm
    obtain ⟨P, k1, k2, k3⟩ := dotLines_pic inv.v.wf valDot (show w.mgr.w.eng.mtmdd.arena.Live i from hd.live)
    refine ⟨P, i, by unfold MWorld.dot; rw [hx]; simp [Mtmdd2.dotLines, k1], k2, labelsFrom k3 hnm ?_, ?_⟩
    · intro t; exact ⟨.v t, by cases t <;> rfl⟩
    · intro a ν ha hν
      have hag' := hag hν
      rw [inv.hdr] at hag'
      have e := ev a ha
      cases hF : F a with
      | b t => rw [hF] at e; exact e.elim
      | v t =>
        rw [hF] at e
        replace e : Eval w.mgr.w.eng.mtmdd.arena a i t := e
        have hl : valueText (.v t) = valDot.label t := by cases t <;> rfl
        rw [hl]
        refine ⟨fun l hl => ?_, fun hdet => follow_complete k3 hag' e (.root i) (.inl ?_)⟩
        · obtain ⟨t', g1, g2, _⟩ := follow_sound k3 hag' hl
          rw [g2, g1.det e]
        · cases t with
          | none => exact absurd rfl hdet.2
          | some n => rfl

/-- The set read from a path: the variables left by an arrow labelled 1. -/
def ones (d : String → Nat) : Set String := {x | d x = 1}

theorem zdd_pic {s : Zdd} (hs : Zdd.Inv s) {names : List String} (hl : Zdd.Lbl s.arena names) {i : Nat}
    (li : s.arena.Live i) :
    ∃ P, s.arena.dotLines zddDot i = some P ∧ PicOK P i ∧ LabelsFrom P (· ∈ names) (· ∈ ["0", "1", "*"]) ∧
      ∀ S, Zdd.Mem s.arena .one i S ↔ ∃ d, PicPath P i d "1" ∧ S = ones d := by
  obtain ⟨P, k1, k2, k3⟩ := dotLines_pic hs.wf zddDot li
  have hnm : ∀ hd ∈ s.arena.headers, (fun l => names[l]?) hd.level = some hd.label := hl.lab
  have hinj : ∀ l l' x, (fun l => names[l]?) l = some x → (fun l => names[l]?) l' = some x → l = l' :=
    fun l l' x h h' => (List.getElem?_inj (List.getElem?_eq_some_iff.1 h).1 hl.nodup).1 (h.trans h'.symm)
  refine ⟨P, k1, k2, labelsFrom k3 (fun hd hm => List.mem_of_getElem? (hl.lab hd hm)) (by intro t; cases t <;> simp [zddDot]), ?_⟩
  intro S
  rw [Zdd.mem_iff hs hl li]
  have key : ∀ {a : Nat → Nat} {d : String → Nat}, ByName (fun l => names[l]?) a d → Zdd.labS names a = ones d := by
    intro a d hb
    ext x
    constructor
    · rintro ⟨l, h1, h2⟩
      show d x = 1
      rw [hb.named l x h1, h2]
    · intro hx
      replace hx : d x = 1 := hx
      by_cases hm : ∃ l : Nat, names[l]? = some x
      · obtain ⟨l, hl⟩ := hm
        exact ⟨l, hl, by rw [← hb.named l x hl, hx]⟩
      · have := hb.other x (fun l hl => hm ⟨l, hl⟩)
        omega
  constructor
  · rintro ⟨a, h1, rfl⟩
    obtain ⟨d, g1, g2⟩ := picPath_complete k3 hnm hinj h1 (.root i) (.inl rfl)
    exact ⟨d, g2, key g1⟩
  · rintro ⟨d, h1, rfl⟩
    obtain ⟨a, t, g1, g2, g3, _⟩ := picPath_sound k3 hnm hinj h1
    refine ⟨a, ?_, (key g1).symm⟩
    cases t with
    | one => exact g2
    | zero => exact absurd g3 (by decide)
    | undet => exact absurd g3 (by decide)

/-- `dot` of a ZDD handle draws its family; the empty family and arrows to it are left out. -/
theorem C59_zdd {w : ZWorld} (hw : w.Reachable) {h : Nat} {𝓕 : Set (Set String)} (hD : w.Denotes h 𝓕) :
    ∃ P i, w.dot h = some (dotText P) ∧ PicOK P i ∧
      LabelsFrom P (fun x => ∃ n, w.mgr.vars.get x = some n) (· ∈ ["0", "1", "*"]) ∧
      ∀ S, S ∈ 𝓕 ↔ ∃ d, PicPath P i d "1" ∧ S = ones d := by
  obtain ⟨i, names, hi, R, li, hf⟩ := denotes_node hw hD
  obtain ⟨P, k1, k2, k3, k4⟩ := zdd_pic R.mok.ok.inv R.lbl li
  refine ⟨P, i, by unfold ZWorld.dot; rw [hi]; simp [k1], k2, ?_, fun S => (hf S).trans (k4 S)⟩
  intro j r l h
  have := k3 j r l h
  cases r with
  | true =>
    obtain ⟨n, hn⟩ := List.mem_iff_getElem?.1 (show l ∈ names from this)
    exact ⟨n, (R.mok.vars l n).2 hn⟩
  | false => exact this

/-- `dot` of a ZDD handle of a `BssMgr`, such as a result of `minpath`. -/
theorem C59_bss_zdd {w : BssW} (hw : w.Reachable) {h : Nat} {𝓕 : Set (Set String)} (hD : w.zdd.Denotes h 𝓕)
    {names : List String} (hn : Names w.bdd names) :
    ∃ P i, w.zdd.dot h = some (dotText P) ∧ PicOK P i ∧ LabelsFrom P (· ∈ names) (· ∈ ["0", "1", "*"]) ∧
      ∀ S, S ∈ 𝓕 ↔ ∃ d, PicPath P i d "1" ∧ S = ones d := by
  obtain ⟨_, A, R⟩ := hw.rel
  rw [names_iff R.bdd] at hn
  subst hn
  obtain ⟨i, hi⟩ := hD.held
  obtain ⟨F, hF, _⟩ := R.zdd.has hi
  obtain ⟨P, k1, k2, k3, k4⟩ := zdd_pic R.zdd.ok.inv R.zdd.lbl hF.live
  refine ⟨P, i, by unfold ZWorld.dot; rw [hi]; simp [k1], k2, k3, fun S => ?_⟩
  rw [← k4, hD.fam]
  constructor
  · rintro ⟨j, hj, hm⟩; rw [hi] at hj; cases hj; exact hm
  · intro hm; exact ⟨i, hi, hm⟩

/-- The state vector of a path: its arrow labels are distances from state 0, in a cut family from the last state. -/
def pathVec (vs : List (String × Nat)) (cut : Bool) (d : String → Nat) (l : Nat) : Nat :=
  match vs[l]? with
  | some (x, s) => if cut then s - 1 - d x else d x
  | none => 0

/-- `dot` of a family of state vectors draws it; the empty family and arrows to it are left out. -/
theorem C59_zmdd {w : MssW} (hw : w.Reachable) {h : Nat} {vs : List (String × Nat)} {cut : Bool}
    (hk : FamKind w.z h vs cut) {all : List (String × Nat)} (hv : MVars w.mdd all) :
    ∃ P i, w.z.dot h = some (dotText P) ∧ PicOK P i ∧
      LabelsFrom P (· ∈ all.map Prod.fst) (fun l => l = "Undet" ∨ ∃ v : Int, l = toString v) ∧
      ∀ a v, FamHas w.z h a v ↔ ∃ d, PicPath P i d (toString v) ∧ a = pathVec vs cut d := by
  have R := mssrel hw hv
  obtain ⟨z, hz, rfl, rfl⟩ := famKind_held hk
  have inv := R.z.ok.inv
  obtain ⟨P0, hP0⟩ := R.z.ok.live z.node (List.mem_map.2 ⟨z, AMap.mem_vals_of_get hz, rfl⟩)
  have li : w.z.mgr.eng.arena.Live z.node := hP0.live
  obtain ⟨P, k1, k2, k3⟩ := dotLines_pic inv.wf valDot li
  let nm : Nat → Option String := fun l => (all[l]?).map Prod.fst
  have hnm : ∀ hd ∈ w.z.mgr.eng.arena.headers, nm hd.level = some hd.label := by
    intro hd hm
    show (all[hd.level]?).map Prod.fst = _
    rw [R.z.hdr hd hm]; rfl
  have hinj : ∀ l l' x, nm l = some x → nm l' = some x → l = l' := by
    intro l l' x h h'
    replace h : (all.map Prod.fst)[l]? = some x := by rw [List.getElem?_map]; exact h
    replace h' : (all.map Prod.fst)[l']? = some x := by rw [List.getElem?_map]; exact h'
    exact (List.getElem?_inj (List.getElem?_eq_some_iff.1 h).1 R.z.nodup).1 (h.trans h'.symm)
  have hpre := (R.z.vars h z hz).1
  have key : ∀ {a d}, ByName nm a d → stVec z.vars z.reverse a = pathVec z.vars z.reverse d := by
    intro a d hb
    funext l
    unfold stVec pathVec
    cases hl : z.vars[l]? with
    | none => rfl
    | some p =>
      obtain ⟨x, s⟩ := p
      have : nm l = some x := by
        show (all[l]?).map Prod.fst = _
        obtain ⟨t, ht⟩ := hpre
        rw [← ht, List.getElem?_append_left (List.getElem?_eq_some_iff.1 hl).1, hl]; rfl
      simp only [Zma.stOf, hb.named l x this]
  refine ⟨P, z.node, by unfold ZMWorld.dot; rw [hz]; simp [k1], k2, labelsFrom k3 ?_ ?_, ?_⟩
  · intro hd hm
    exact List.mem_map.2 ⟨_, List.mem_of_getElem? (R.z.hdr hd hm), rfl⟩
  · intro t
    cases t with
    | none => exact .inl rfl
    | some v => exact .inr ⟨v, rfl⟩
  · intro a v
    constructor
    · rintro ⟨z', d, h1, h2, rfl⟩
      rw [hz] at h1; cases h1
      obtain ⟨d', g1, g2⟩ := picPath_complete k3 hnm hinj h2 (.root _) (.inl rfl)
      exact ⟨d', g2, key g1⟩
    · rintro ⟨d, h1, rfl⟩
      obtain ⟨a, t, g1, g2, g3, _⟩ := picPath_sound k3 hnm hinj h1
      refine ⟨z, a, hz, ?_, (key g1).symm⟩
      cases t with
      | none => exact absurd g3 (int_ne_undet v)
      | some u => rw [int_toString_inj g3]; exact g2

/-! ## C60 -/

theorem plain_of {P : List DotLine} {N S : String → Prop} (h : LabelsFrom P N S) (hN : ∀ x, N x → Plain x)
    (hS : ∀ l, S l → Plain l) : ∀ x ∈ P, x.PlainL := by
  intro x hx
  cases x with
  | edge i j k => trivial
  | node i r l =>
    have := h i r l hx
    cases r with
    | true => exact hN l this
    | false => exact hS l this

/-- Two BDD handles, of any two sessions, with the same `dot` are the same function of the variables' names, if no
name has a quotation mark. -/
theorem C60_bdd_partial {w w' : World} (hw : w.Reachable) (hw' : w'.Reachable) {h h' : Nat} {F F' : BFun}
    (hf : w.Denotes h F) (hf' : w'.Denotes h' F') {names names' : List String} (hn : Names w names)
    (hn' : Names w' names') (hp : ∀ x ∈ names, Plain x) (hp' : ∀ x ∈ names', Plain x) (e : w.dot h = w'.dot h') :
    ∀ ν a a', Agrees names a ν → Agrees names' a' ν → F a = F' a' := by
  obtain ⟨P, i, k1, k2, k3, k4⟩ := C59_bdd hw hf hn
  obtain ⟨P', i', g1, g2, g3, g4⟩ := C59_bdd hw' hf' hn'
  have hS : ∀ l, l ∈ ["0", "1", "?"] → Plain l := by
    intro l hl
    simp only [List.mem_cons, List.not_mem_nil, or_false] at hl
    rcases hl with rfl | rfl | rfl <;> (unfold Plain; decide)
  rw [k1, g1] at e
  have := dotText_inj (plain_of k3 hp hS) (plain_of g3 hp' hS) (Option.some.inj e)
  subst this
  obtain rfl := k2.root.unique g2.root
  intro ν a a' ha ha'
  have := (k4 a ν ha _).2 rfl
  have := (g4 a' ν ha' _).1 this
  cases hF : F a <;> cases hF' : F' a' <;> simp [hF, hF'] at this <;> rfl

theorem valueText_plain (v : MVal) : Plain (valueText v) := by
  cases v with
  | b t => cases t <;> (unfold Plain; decide)
  | v t =>
    cases t with
    | none => unfold Plain; decide
    | some n => exact int_plain n

theorem valueText_inj {u v : MVal} (h : valueText u = valueText v) : u = v := by
  have hd : ∀ (n : Int) (s : String) (c : Char) (cs : List Char), s.toList = c :: cs → c.isDigit = false → c ≠ '-' →
      toString n ≠ s := by
    intro n s c cs hs hc hm e
    rw [int_toString] at e
    cases n with
    | ofNat n =>
      obtain ⟨c', cs', e', hc'⟩ := nat_head n
      have : (toString n).toList = s.toList := congrArg String.toList e
      rw [e', hs] at this
      cases this
      rw [hc] at hc'; cases hc'
    | negSucc n =>
      have : ("-" ++ toString (n + 1)).toList = s.toList := congrArg String.toList e
      rw [hs] at this
      simp at this
      exact hm this.1.symm
  cases u with
  | b t =>
    cases v with
    | b t' => cases t <;> cases t' <;> first | rfl | (exfalso; revert h; decide)
    | v t' =>
      exfalso
      cases t' with
      | none => cases t <;> (revert h; decide)
      | some n =>
        cases t with
        | zero => exact hd n _ 'F' [] (by decide) (by decide) (by decide) h.symm
        | one => exact hd n _ 'T' [] (by decide) (by decide) (by decide) h.symm
        | undet => exact hd n _ '?' [] (by decide) (by decide) (by decide) h.symm
  | v t =>
    cases v with
    | b t' =>
      exfalso
      cases t with
      | none => cases t' <;> (revert h; decide)
      | some n =>
        cases t' with
        | zero => exact hd n _ 'F' [] (by decide) (by decide) (by decide) h
        | one => exact hd n _ 'T' [] (by decide) (by decide) (by decide) h
        | undet => exact hd n _ '?' [] (by decide) (by decide) (by decide) h
    | v t' =>
      cases t with
      | none =>
        cases t' with
        | none => rfl
        | some n => exact absurd h.symm (int_ne_undet n)
      | some n =>
        cases t' with
        | none => exact absurd h (int_ne_undet n)
        | some k => rw [int_toString_inj h]

/-- The same for MDD handles: the functions agree, up to the kind of undetermined values. -/
theorem C60_mdd_partial {w w' : MWorld} (hw : w.Reachable) (hw' : w'.Reachable) {h h' : Nat} {F F' : MFun}
    (hf : w.Has h F) (hf' : w'.Has h' F') {vs vs' : List (String × Nat)} (hn : MVars w vs)
    (hn' : MVars w' vs') (hp : ∀ p ∈ vs, Plain p.1) (hp' : ∀ p ∈ vs', Plain p.1) (e : w.dot h = w'.dot h') :
    ∀ ν a a', ValidV vs a → ValidV vs' a' → AgreesM vs a ν → AgreesM vs' a' ν →
      F a = F' a' ∨ (¬ Determined (F a) ∧ ¬ Determined (F' a')) := by
  obtain ⟨P, i, k1, k2, k3, k4⟩ := C59_mdd hw hf hn
  obtain ⟨P', i', g1, g2, g3, g4⟩ := C59_mdd hw' hf' hn'
  have hS : ∀ l, (∃ v, l = valueText v) → Plain l := by
    rintro _ ⟨v, rfl⟩; exact valueText_plain v
  have hN : ∀ {us : List (String × Nat)}, (∀ p ∈ us, Plain p.1) → ∀ x, x ∈ us.map Prod.fst → Plain x := by
    intro us hu x hx
    obtain ⟨p, h1, rfl⟩ := List.mem_map.1 hx
    exact hu p h1
  rw [k1, g1] at e
  have := dotText_inj (plain_of k3 (hN hp) hS) (plain_of g3 (hN hp') hS) (Option.some.inj e)
  subst this
  obtain rfl := k2.root.unique g2.root
  intro ν a a' va va' ha ha'
  obtain ⟨x1, x2⟩ := k4 a ν va ha
  obtain ⟨y1, y2⟩ := g4 a' ν va' ha'
  by_cases h1 : Determined (F a)
  · exact .inl (valueText_inj (y1 _ (x2 h1)))
  · by_cases h2 : Determined (F' a')
    · exact .inl (valueText_inj (x1 _ (y2 h2))).symm
    · exact .inr ⟨h1, h2⟩

/-- The same for ZDD handles: the families are equal. -/
theorem C60_zdd_partial {w w' : ZWorld} (hw : w.Reachable) (hw' : w'.Reachable) {h h' : Nat} {𝓕 𝓖 : Set (Set String)}
    (hf : w.Denotes h 𝓕) (hf' : w'.Denotes h' 𝓖) (hp : ∀ x n, w.mgr.vars.get x = some n → Plain x)
    (hp' : ∀ x n, w'.mgr.vars.get x = some n → Plain x) (e : w.dot h = w'.dot h') : 𝓕 = 𝓖 := by
  obtain ⟨P, i, k1, k2, k3, k4⟩ := C59_zdd hw hf
  obtain ⟨P', i', g1, g2, g3, g4⟩ := C59_zdd hw' hf'
  have hS : ∀ l, l ∈ ["0", "1", "*"] → Plain l := by
    intro l hl
    simp only [List.mem_cons, List.not_mem_nil, or_false] at hl
    rcases hl with rfl | rfl | rfl <;> (unfold Plain; decide)
  rw [k1, g1] at e
  have := dotText_inj (plain_of k3 (fun x ⟨n, hn⟩ => hp x n hn) hS) (plain_of g3 (fun x ⟨n, hn⟩ => hp' x n hn) hS)
    (Option.some.inj e)
  subst this
  obtain rfl := k2.root.unique g2.root
  ext S
  rw [k4, g4]

/-- The same for ZDD handles of two `BssMgr`s. -/
theorem C60_bss_zdd_partial {w w' : BssW} (hw : w.Reachable) (hw' : w'.Reachable) {h h' : Nat}
    {𝓕 𝓖 : Set (Set String)} (hf : w.zdd.Denotes h 𝓕) (hf' : w'.zdd.Denotes h' 𝓖) {names names' : List String}
    (hn : Names w.bdd names) (hn' : Names w'.bdd names') (hp : ∀ x ∈ names, Plain x) (hp' : ∀ x ∈ names', Plain x)
    (e : w.zdd.dot h = w'.zdd.dot h') : 𝓕 = 𝓖 := by
  obtain ⟨P, i, k1, k2, k3, k4⟩ := C59_bss_zdd hw hf hn
  obtain ⟨P', i', g1, g2, g3, g4⟩ := C59_bss_zdd hw' hf' hn'
  have hS : ∀ l, l ∈ ["0", "1", "*"] → Plain l := by
    intro l hl
    simp only [List.mem_cons, List.not_mem_nil, or_false] at hl
    rcases hl with rfl | rfl | rfl <;> (unfold Plain; decide)
  rw [k1, g1] at e
  have := dotText_inj (plain_of k3 hp hS) (plain_of g3 hp' hS) (Option.some.inj e)
  subst this
  obtain rfl := k2.root.unique g2.root
  ext S
  rw [k4, g4]

/-- The same for families of state vectors over the same variables. -/
theorem C60_zmdd_partial {w w' : MssW} (hw : w.Reachable) (hw' : w'.Reachable) {h h' : Nat}
    {vs all all' : List (String × Nat)} {cut : Bool} (hk : FamKind w.z h vs cut) (hk' : FamKind w'.z h' vs cut)
    (hv : MVars w.mdd all) (hv' : MVars w'.mdd all') (hp : ∀ p ∈ all, Plain p.1) (hp' : ∀ p ∈ all', Plain p.1)
    (e : w.z.dot h = w'.z.dot h') : ∀ a v, FamHas w.z h a v ↔ FamHas w'.z h' a v := by
  obtain ⟨P, i, k1, k2, k3, k4⟩ := C59_zmdd hw hk hv
  obtain ⟨P', i', g1, g2, g3, g4⟩ := C59_zmdd hw' hk' hv'
  have hS : ∀ l, (l = "Undet" ∨ ∃ v : Int, l = toString v) → Plain l := by
    rintro _ (rfl | ⟨v, rfl⟩)
    · unfold Plain; decide
    · exact int_plain v
  have hN : ∀ {us : List (String × Nat)}, (∀ p ∈ us, Plain p.1) → ∀ x, x ∈ us.map Prod.fst → Plain x := by
    intro us hu x hx
    obtain ⟨p, h1, rfl⟩ := List.mem_map.1 hx
    exact hu p h1
  rw [k1, g1] at e
  have := dotText_inj (plain_of k3 (hN hp) hS) (plain_of g3 (hN hp') hS) (Option.some.inj e)
  subst this
  obtain rfl := k2.root.unique g2.root
  intro a v
  rw [k4, g4]

/-- The session that makes `x ∨ y` (handle 2). -/
def twoNames (x y : String) : World :=
  ((World.new.run [.defvar x, .defvar y, .or 0 1]).getD ([], World.new)).2

theorem twoNames_reachable (x y : String) : (twoNames x y).Reachable := by
  unfold twoNames
  cases h : World.new.run [.defvar x, .defvar y, .or 0 1] with
  | none => exact .new
  | some q =>
    obtain ⟨os, w⟩ := q
    simp only [World.run] at h
    split at h
    · cases h
    · rename_i h1
      split at h
      · cases h
      · rename_i h2
        split at h2
        · cases h2
        · rename_i h3
          split at h2
          · cases h2
          · rename_i h4
            split at h4
            · cases h4
            · rename_i h5
              cases h4
              cases h2
              cases h
              exact .step (.or 0 1) (.step (.defvar y) (.step (.defvar x) .new trivial h1) trivial h3) trivial h5

/-- The text from the end of a label to the start of the label of node 3. -/
def label3 : String := "\"];\n\"obj3\" [shape=circle, label=\""

/-- Names are not escaped, and with quotation marks the text does not tell where a name ends: in the first session the
variables are `qs` (read `label3` between the letters) and `p`, in the second `s` and `pq`.  The functions are `qs ∨ p`
and `s ∨ pq`; they differ where only `p` is true. -/
theorem C60_violated : ∃ (w w' : World) (h h' : Nat) (F F' : BFun) (names names' : List String), w.Reachable ∧
    w'.Reachable ∧ w.Denotes h F ∧ w'.Denotes h' F' ∧ Names w names ∧ Names w' names' ∧ w.dot h = w'.dot h' ∧
    ∃ ν a a', Agrees names a ν ∧ Agrees names' a' ν ∧ F a ≠ F' a' := by
  have r := twoNames_reachable ("q" ++ label3 ++ "s") "p"
  have r' := twoNames_reachable "s" ("p" ++ label3 ++ "q")
  obtain ⟨F, hF, _⟩ := denotes_exists r (h := 2) (i := 5) (by decide +kernel)
  obtain ⟨F', hF', _⟩ := denotes_exists r' (h := 2) (i := 5) (by decide +kernel)
  refine ⟨_, _, 2, 2, F, F', ["q" ++ label3 ++ "s", "p"], ["s", "p" ++ label3 ++ "q"], r, r', hF, hF', ?_, ?_,
    by decide +kernel, fun x => x == "p", fun l => l == 1, fun _ => false, ?_, ?_, ?_⟩
  · have : (twoNames ("q" ++ label3 ++ "s") "p").mgr.getVarorder = some ["q" ++ label3 ++ "s", "p"] := by
      decide +kernel
    unfold Names
    simp only [World.step, this, Option.map_some]
  · have : (twoNames "s" ("p" ++ label3 ++ "q")).mgr.getVarorder = some ["s", "p" ++ label3 ++ "q"] := by
      decide +kernel
    unfold Names
    simp only [World.step, this, Option.map_some]
  · intro i v hv
    match i, hv with
    | 0, hv => cases hv; decide +kernel
    | 1, hv => cases hv; rfl
    | i + 2, hv => simp at hv
  · intro i v hv
    match i, hv with
    | 0, hv => cases hv; rfl
    | 1, hv => cases hv; decide +kernel
    | i + 2, hv => simp at hv
  · obtain ⟨i, h1, h2⟩ := hF
    obtain ⟨i', h1', h2'⟩ := hF'
    have e : (twoNames ("q" ++ label3 ++ "s") "p").held.get 2 = some 5 := by decide +kernel
    have e' : (twoNames "s" ("p" ++ label3 ++ "q")).held.get 2 = some 5 := by decide +kernel
    rw [e] at h1; cases h1
    rw [e'] at h1'; cases h1'
    have k : Eval (twoNames ("q" ++ label3 ++ "s") "p").mgr.bdd.arena (bl fun l => l == 1) 5 .one :=
      .nt (h := 1) (ch := [3, 1]) (hd := ⟨1, "p", 2⟩) (c := 1) (by decide +kernel) (by decide +kernel) rfl
        (.term (by decide +kernel))
    have k' : Eval (twoNames "s" ("p" ++ label3 ++ "q")).mgr.bdd.arena (bl fun _ => false) 5 .zero :=
      .nt (h := 1) (ch := [3, 1]) (hd := ⟨1, "p" ++ label3 ++ "q", 2⟩) (c := 3) (by decide +kernel) (by decide +kernel) rfl
        (.nt (h := 0) (ch := [0, 1]) (hd := ⟨0, "s", 2⟩) (c := 0) (by decide +kernel) (by decide +kernel) rfl
          (.term (by decide +kernel)))
    have g := (h2 _).det k
    have g' := (h2' _).det k'
    intro hne
    rw [hne, g'] at g
    cases g

/-! ## Examples -/

/-- `x ∨ y` in full. -/
example : (twoNames "x" "y").dot 2 = some
    "digraph { layout=dot; overlap=false; splines=true; node [fontsize=10];
\"obj5\" [shape=circle, label=\"y\"];
\"obj3\" [shape=circle, label=\"x\"];
\"obj0\" [shape=square, label=\"0\"];
\"obj3\" -> \"obj0\" [label=\"0\"];
\"obj1\" [shape=square, label=\"1\"];
\"obj3\" -> \"obj1\" [label=\"1\"];
\"obj5\" -> \"obj3\" [label=\"0\"];
\"obj5\" -> \"obj1\" [label=\"1\"];
}
" := by decide +kernel

/-- The hypotheses of `C60_bdd_partial` hold of plain names. -/
example : Plain "x" ∧ Plain "pump 1'" ∧ ¬ Plain label3 := by unfold Plain; decide +kernel

/-- The paths of the 2-out-of-3 system: no square `0`. -/
example : ((BssW.new.run bssDemo).bind fun p => (p.2.zdd.mgr.w.eng.arena.dotLines zddDot ((p.2.zdd.hs.held.get 0).getD 0))) =
    some
    [.node 6 true "z", .node 4 true "y", .node 3 true "x", .node 1 false "1", .edge 3 1 1, .edge 4 3 1, .edge 6 4 0,
     .node 5 true "y", .edge 5 3 0, .edge 5 1 1, .edge 6 5 1] := by decide +kernel

/-- `x + y` and its minimal path vectors. -/
example : ((after sumDemo).mdd.mgr.w.eng.dotLines (((after sumDemo).mdd.hs.held.get 2).getD (.bool 0))) = some
    [.node 8 true "y", .node 4 true "x", .node 1 false "0", .edge 4 1 0, .node 2 false "1", .edge 4 2 1,
     .node 3 false "2", .edge 4 3 2, .edge 8 4 0, .node 7 true "x", .edge 7 2 0, .edge 7 3 1, .node 6 false "3",
     .edge 7 6 2, .edge 8 7 1] := by
  decide +kernel
example : ((after sumDemo).z.mgr.eng.arena.dotLines valDot ((((after sumDemo).z.hs.held.get 0).map ZNd.node).getD 0)) =
    some
    [.node 7 true "y", .node 4 true "x", .node 1 false "0", .edge 4 1 0, .node 2 false "1", .edge 4 2 1,
     .node 3 false "2", .edge 4 3 2, .edge 7 4 0, .node 6 true "x", .edge 6 2 0, .edge 6 3 1, .node 5 false "3",
     .edge 6 5 2, .edge 7 6 1] := by decide +kernel

end DD.Props
