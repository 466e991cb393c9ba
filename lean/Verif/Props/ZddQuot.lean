import Verif.Props.Zdd

/-!
# What ZDD `divide` returns (C22)

The value of `divide` is described by a recursion over the variables, from the highest number down.  It is not the
quotient (`C22_violated`), so the recursion is what can be said for all operands.
-/

set_option autoImplicit false
set_option linter.unusedSectionVars false
set_option linter.unusedVariables false

namespace DD.Props
open Arena Zdd

variable {w : ZWorld}

/-- The members of `𝓕` without `x`. -/
def lacking (x : String) (𝓕 : Set (Set String)) : Set (Set String) := {S | x ∉ S ∧ S ∈ 𝓕}

/-- The members of `𝓕` with `x`, which is taken out. -/
def having (x : String) (𝓕 : Set (Set String)) : Set (Set String) := {S | x ∉ S ∧ insert x S ∈ 𝓕}

/-- `interOf` where an undetermined operand gives the other one. -/
def interOr (num : String → Option Nat) : Option (Set (Set String)) → Option (Set (Set String)) →
    Option (Set (Set String))
  | none, r => r
  | some 𝓕, none => some 𝓕
  | some 𝓕, some 𝓖 => some (interOf num 𝓕 𝓖)

open Classical in
/-- What `divide` returns for `𝓕` and `𝓖` over the listed variables, highest first; `none` is the
undetermined constant. -/
noncomputable def divOf (num : String → Option Nat) : List String → Set (Set String) → Set (Set String) →
    Option (Set (Set String))
  | [], 𝓕, 𝓖 => if 𝓖 = ∅ then none else some 𝓕
  | x :: xs, 𝓕, 𝓖 =>
    if 𝓖 = ∅ then none
    else if 𝓖 = {∅} then some 𝓕
    else if 𝓕 = ∅ then some 𝓕
    else if 𝓕 = {∅} then some 𝓖
    else if ∃ S ∈ 𝓕, x ∈ S then
      if ∃ S ∈ 𝓖, x ∈ S then
        interOr num (divOf num xs (lacking x 𝓕) (lacking x 𝓖)) (divOf num xs (having x 𝓕) (having x 𝓖))
      else divOf num xs (lacking x 𝓕) 𝓖
    else if ∃ S ∈ 𝓖, x ∈ S then none
    else divOf num xs 𝓕 𝓖

section lev
variable {names : List String} {F G : (Nat → Nat) → Prop} {𝓕 𝓖 : Set (Set String)}

theorem notin_iff (nd : names.Nodup) {l : Nat} {x : String} (hl : names[l]? = some x) {a : Nat → Nat}
    (ha : BitA names a) : a l = 0 ↔ x ∉ labS names a := by
  constructor
  · rintro h0 ⟨k, hk, hv⟩
    have : k = l := (List.getElem?_inj (List.getElem?_eq_some_iff.1 hk).1 nd).1 (hk.trans hl.symm)
    subst this; omega
  · intro hn
    rcases ha l with h | ⟨h, _⟩
    · exact h
    · exact absurd ⟨l, hl, h⟩ hn

theorem bitA_upd1 {l : Nat} {x : String} (hl : names[l]? = some x) {a : Nat → Nat} (ha : BitA names a) :
    BitA names (upd a l 1) := by
  intro k
  by_cases e : k = l
  · subst e; exact .inr ⟨upd_self _ _ _, x, hl⟩
  · rw [upd_ne _ _ e]; exact ha k

theorem bitA_upd0 {l : Nat} {a : Nat → Nat} (ha : BitA names a) : BitA names (upd a l 0) := by
  intro k
  by_cases e : k = l
  · subst e; exact .inl (upd_self _ _ _)
  · rw [upd_ne _ _ e]; exact ha k

theorem LevFam.empty_iff (hF : LevFam names F 𝓕) : (∀ a, ¬ F a) ↔ 𝓕 = ∅ := by
  constructor
  · intro h
    refine Set.eq_empty_iff_forall_notMem.2 fun S hS => ?_
    obtain ⟨a, ha, _⟩ := hF.eq S hS
    exact h a ha
  · rintro rfl a ha
    exact (hF.mem a (hF.bits a ha)).1 ha

theorem bitA_zero : BitA names (fun _ => 0) := fun _ => .inl rfl

theorem LevFam.base_iff (nd : names.Nodup) (hF : LevFam names F 𝓕) :
    (∀ a, F a ↔ a = fun _ => 0) ↔ 𝓕 = {∅} := by
  constructor
  · intro h
    ext S
    constructor
    · intro hS
      obtain ⟨a, ha, rfl⟩ := hF.eq S hS
      rw [(h a).1 ha, labS_zero]; rfl
    · rintro rfl
      rw [← labS_zero (names := names)]
      exact (hF.mem _ bitA_zero).1 ((h _).2 rfl)
  · rintro rfl a
    constructor
    · intro ha
      have hb := hF.bits a ha
      refine labS_inj nd hb bitA_zero ?_
      rw [labS_zero]; exact (hF.mem a hb).1 ha
    · rintro rfl
      rw [hF.mem _ bitA_zero, labS_zero]; rfl

theorem LevFam.uses_iff (nd : names.Nodup) (hF : LevFam names F 𝓕) {l : Nat} {x : String}
    (hl : names[l]? = some x) : Uses l F ↔ ∃ S ∈ 𝓕, x ∈ S := by
  constructor
  · rintro ⟨a, ha, h⟩
    have hb := hF.bits a ha
    refine ⟨_, (hF.mem a hb).1 ha, ?_⟩
    by_contra hc
    exact h ((notin_iff nd hl hb).2 hc)
  · rintro ⟨S, hS, hx⟩
    obtain ⟨a, ha, rfl⟩ := hF.eq S hS
    exact ⟨a, ha, fun h => (notin_iff nd hl (hF.bits a ha)).1 h hx⟩

theorem LevFam.lo (nd : names.Nodup) (hF : LevFam names F 𝓕) {l : Nat} {x : String}
    (hl : names[l]? = some x) : LevFam names (loF l F) (lacking x 𝓕) where
  bits := fun a ha => hF.bits a ha.2
  mem := fun a ha => and_congr (notin_iff nd hl ha) (hF.mem a ha)
  eq := by
    rintro S ⟨h1, h2⟩
    obtain ⟨a, ha, rfl⟩ := hF.eq S h2
    exact ⟨a, ⟨(notin_iff nd hl (hF.bits a ha)).2 h1, ha⟩, rfl⟩

theorem labS_upd1 {l : Nat} {x : String} (hl : names[l]? = some x) {a : Nat → Nat} (h0 : a l = 0) :
    labS names (upd a l 1) = insert x (labS names a) := by
  rcases labS_upd (a := a) hl with h | h
  · exact h
  · omega

theorem LevFam.hi (nd : names.Nodup) (hF : LevFam names F 𝓕) {l : Nat} {x : String}
    (hl : names[l]? = some x) : LevFam names (hiF l F) (having x 𝓕) where
  bits := by
    rintro a ⟨h0, ha⟩
    have := bitA_upd0 (l := l) (hF.bits _ ha)
    rwa [upd_upd, upd_id h0] at this
  mem := by
    intro a ha
    have h1 := notin_iff nd hl ha
    constructor
    · rintro ⟨h0, h⟩
      refine ⟨h1.1 h0, ?_⟩
      rw [← labS_upd1 hl h0]
      exact (hF.mem _ (bitA_upd1 hl ha)).1 h
    · rintro ⟨h0, h⟩
      refine ⟨h1.2 h0, ?_⟩
      rw [hF.mem _ (bitA_upd1 hl ha), labS_upd1 hl (h1.2 h0)]
      exact h
  eq := by
    rintro S ⟨h1, h2⟩
    obtain ⟨b, hb, e⟩ := hF.eq _ h2
    have bb := hF.bits b hb
    have hbl : b l = 1 := by
      rcases bb l with h | ⟨h, _⟩
      · exact absurd (e ▸ Set.mem_insert x S) ((notin_iff nd hl bb).1 h)
      · exact h
    have eb : upd (upd b l 0) l 1 = b := by rw [upd_upd]; exact upd_id hbl
    refine ⟨upd b l 0, ⟨upd_self _ _ _, by rw [eb]; exact hb⟩, ?_⟩
    have h3 := labS_upd1 hl (a := upd b l 0) (upd_self _ _ _)
    rw [eb] at h3
    exact insert_cancel h1 ((notin_iff nd hl (bitA_upd0 bb)).1 (upd_self _ _ _)) (e.trans h3)

/-- The two descriptions of a value of `divide` agree. -/
def SameQuo (names : List String) : Option ((Nat → Nat) → Prop) → Option (Set (Set String)) → Prop
  | none, none => True
  | some Q, some 𝓠 => LevFam names Q 𝓠
  | _, _ => False

theorem SameQuo.inter {num : String → Option Nat} (nd : names.Nodup)
    (hn : ∀ x n, num x = some n ↔ names[n]? = some x) {q r : Option ((Nat → Nat) → Prop)}
    {𝓺 𝓻 : Option (Set (Set String))} (h1 : SameQuo names q 𝓺) (h2 : SameQuo names r 𝓻) :
    SameQuo names (interO q r) (interOr num 𝓺 𝓻) := by
  match q, 𝓺, h1 with
  | none, none, _ => exact h2
  | some Q, some 𝓠, h1 =>
    match r, 𝓻, h2 with
    | none, none, _ => exact h1
    | some R, some 𝓡, h2 => exact LevFam.inter nd hn h1 h2

theorem take_succ_reverse {l : Nat} {x : String} (hl : names[l]? = some x) :
    (names.take (l + 1)).reverse = x :: (names.take l).reverse := by
  rw [List.take_add_one, hl]; simp

theorem quo_divOf {num : String → Option Nat} (nd : names.Nodup)
    (hn : ∀ x n, num x = some n ↔ names[n]? = some x) : ∀ (n : Nat), n ≤ names.length →
    ∀ {F G : (Nat → Nat) → Prop} {𝓕 𝓖 : Set (Set String)}, LevFam names F 𝓕 → LevFam names G 𝓖 →
      SameQuo names (quo n F G) (divOf num (names.take n).reverse 𝓕 𝓖) := by
  intro n
  induction n with
  | zero =>
    intro _ F G 𝓕 𝓖 hF hG
    simp only [quo, List.take_zero, List.reverse_nil, divOf, hG.empty_iff]
    split
    · trivial
    · exact hF
  | succ l ih =>
    intro hl' F G 𝓕 𝓖 hF hG
    have ih := @ih (by omega)
    have hl : names[l]? = some names[l] := List.getElem?_eq_getElem (by omega)
    rw [take_succ_reverse hl]
    simp only [quo, divOf, hG.empty_iff, hG.base_iff nd, hF.empty_iff, hF.base_iff nd]
    have uF := hF.uses_iff nd hl
    have uG := hG.uses_iff nd hl
    split
    · trivial
    split
    · exact hF
    split
    · exact hF
    split
    · exact hG
    by_cases hu : ∃ S ∈ 𝓕, names[l] ∈ S
    · rw [if_pos hu, if_pos (uF.2 hu)]
      by_cases hv : ∃ S ∈ 𝓖, names[l] ∈ S
      · rw [if_pos hv, if_pos (uG.2 hv)]
        exact (ih (hF.lo nd hl) (hG.lo nd hl)).inter nd hn (ih (hF.hi nd hl) (hG.hi nd hl))
      · rw [if_neg hv, if_neg (fun h => hv (uG.1 h))]
        exact ih (hF.lo nd hl) hG
    · rw [if_neg hu, if_neg (fun h => hu (uF.1 h))]
      by_cases hv : ∃ S ∈ 𝓖, names[l] ∈ S
      · rw [if_pos hv, if_pos (uG.2 hv)]; trivial
      · rw [if_neg hv, if_neg (fun h => hv (uG.1 h))]
        exact ih hF hG

end lev

/-- The call `c` returns the undetermined constant as a new handle and keeps all other handles. -/
def ZGivesUndet (w : ZWorld) (c : ZCmd) : Prop :=
  ∃ w', w.step c = some (.handle w.hs.next, w') ∧ w'.Reachable ∧
    (∀ S, w'.Reads w.hs.next .undet S ↔ S = ∅) ∧ (∀ S, ¬ w'.Reads w.hs.next .one S) ∧
    w.hs.held.get w.hs.next = none ∧ ∀ h 𝓖, w.Denotes h 𝓖 → w'.Denotes h 𝓖

theorem num_nodup {num : String → Option Nat} {names : List String}
    (hn : ∀ x n, num x = some n ↔ names[n]? = some x) : names.Nodup := by
  rw [List.nodup_iff_getElem?_ne_getElem?]
  intro i j hij hj he
  have hi : names[i]? = some names[j] := by rw [he]; exact List.getElem?_eq_getElem hj
  have h1 := (hn _ i).2 hi
  have h2 := (hn _ j).2 (List.getElem?_eq_getElem hj)
  rw [h1] at h2
  have := Option.some.inj h2
  omega

/-- **C22 (what is returned).** `divide` returns the family given by the recursion `divOf` over the session's
variables, or the undetermined constant where the recursion says so. -/
theorem C22_divide_exact (hw : w.Reachable) {f g : Nat} {𝓕 𝓖 : Set (Set String)} (hf : w.Denotes f 𝓕)
    (hg : w.Denotes g 𝓖) {names : List String}
    (hnames : ∀ x n, w.mgr.vars.get x = some n ↔ names[n]? = some x) :
    (∀ 𝓡, divOf w.mgr.vars.get names.reverse 𝓕 𝓖 = some 𝓡 → ZGives w (.divide f g) 𝓡) ∧
      (divOf w.mgr.vars.get names.reverse 𝓕 𝓖 = none → ZGivesUndet w (.divide f g)) := by
  obtain ⟨names', R⟩ := hw.rel
  have hnn : names' = names := by
    apply List.ext_getElem?
    intro n
    cases h : names'[n]? with
    | some x => exact ((hnames x n).1 ((R.mok.vars x n).2 h)).symm
    | none =>
      cases h' : names[n]? with
      | none => rfl
      | some x => rw [(R.mok.vars x n).1 ((hnames x n).2 h')] at h; cases h
  subst hnn
  obtain ⟨F, hF, fc, fe, fb, fi⟩ := R.of_denotes hf
  obtain ⟨G, hG, gc, ge, gb, gi⟩ := R.of_denotes hg
  obtain ⟨o, w', n, h1, ⟨rfl, F', G', V, hF', hG', rfl, hV, -, -, -, -, s5⟩, R', hp, hk⟩ :=
    R.step (c := .divide f g) (operands_held (l := [f, g]) rfl (by
      intro x hx; simp at hx; rcases hx with rfl | rfl
      · exact ⟨_, hf⟩
      · exact ⟨_, hg⟩))
  cases ZRel.has_unique hF' hF
  cases ZRel.has_unique hG' hG
  obtain ⟨k, hkq⟩ := s5 fc gc
  have LF : LevFam n (F · .one) 𝓕 := ⟨fun a => fb a _, fi, fun S hS => by rw [fe] at hS; exact hS⟩
  have LG : LevFam n (G · .one) 𝓖 := ⟨fun a => gb a _, gi, fun S hS => by rw [ge] at hS; exact hS⟩
  have supp : ∀ {H : (Nat → Nat) → Prop}, (∀ a, H a → BitA n a) → ∀ a, H a → ∀ x, n.length ≤ x → a x = 0 := by
    intro H hb a ha x hx
    rcases hb a ha x with h | ⟨_, y, hy⟩
    · exact h
    · rw [List.getElem?_eq_none hx] at hy; cases hy
  have hq := hkq (max k n.length) (by omega)
  rw [quo_up (supp LF.bits) (supp LG.bits) _ (by omega)] at hq
  have hsame := quo_divOf R.mok.nodup R.mok.vars n.length (Nat.le_refl _) LF LG
  rw [List.take_length] at hsame
  have keep : ∀ h 𝓖, w.Denotes h 𝓖 → w'.Denotes h 𝓖 := fun h 𝓗 hD =>
    denotes_keep R R' hp (fun F hF => hk h F hF (by simp)) hD
  constructor
  · intro 𝓡 h𝓡
    rw [h𝓡] at hsame
    revert hsame hq
    generalize quo n.length (fun x => F x .one) (fun x => G x .one) = q
    intro hq hsame
    match q, hq, hsame with
    | some Q, ⟨vc, hVQ⟩, L =>
      refine ⟨w', h1, .step _ hw h1, ?_, next_free R, keep⟩
      have : ZRel.famOf n V = 𝓡 := by
        ext S
        constructor
        · rintro ⟨a, ha, rfl⟩
          have hQ : Q a := by rw [← hVQ]; exact ha
          exact (L.mem a (L.bits a hQ)).1 hQ
        · intro hS
          obtain ⟨a, ha, rfl⟩ := L.eq S hS
          rw [← hVQ] at ha
          exact ⟨a, ha, rfl⟩
      rw [← this]
      exact R'.denotes_of hV vc
  · intro hnone
    rw [hnone] at hsame
    revert hsame hq
    generalize quo n.length (fun x => F x .one) (fun x => G x .one) = q
    intro hq hsame
    match q, hq, hsame with
    | none, hVu, _ =>
      have hVu : V = zUndet := hVu
      subst hVu
      refine ⟨w', h1, .step _ hw h1, fun S => ?_, fun S hS => ?_, next_free R, keep⟩
      · rw [R'.reads_iff hV (by decide)]
        constructor
        · rintro ⟨a, ⟨rfl, _⟩, rfl⟩; exact labS_zero _
        · rintro rfl; exact ⟨_, ⟨rfl, rfl⟩, (labS_zero _).symm⟩
      · obtain ⟨a, ⟨_, h⟩, _⟩ := (R'.reads_iff hV (by decide)).1 hS
        cases h

/-! ## Concrete cases -/

/-- With `y` above `x`, `{{y}} ∩ {{x, y}, {x}}` is returned as `{{x, y}}`; `{{x}} / {{y}}` is undetermined like
`{{y}} / ∅`, and `{{x, y}} / {{x}}` comes out as `∅`. -/
example : (ZWorld.new.run [.fromSets [["x", "y"], ["x"]], .singleton "y", .intersect 0 1, .intersect 1 0,
    .fromSets [["x", "y"]], .eq 2 4, .eq 3 4, .singleton "x", .divide 5 1, .empty, .divide 1 7, .eq 6 8,
    .divide 4 5, .eq 9 7]).map (fun p => p.1.filter (fun o => o matches .bool _)) =
      some [.bool true, .bool true, .bool true, .bool true] := by
  decide +kernel

/-- Variable numbers for the cases below. -/
def numXY (s : String) : Option Nat := if s = "x" then some 0 else if s = "y" then some 1 else none

/-- What `interOf` says of the first case. -/
example : ({"x", "y"} : Set String) ∈ interOf numXY {{"y"}} {{"x", "y"}, {"x"}} ∧
    ({"x"} : Set String) ∉ interOf numXY {{"y"}} {{"x", "y"}, {"x"}} := by
  have hxy : ("x" : String) ≠ "y" := by decide
  have ny : numXY "y" = some 1 := by decide
  have nx : numXY "x" = some 0 := by decide
  constructor
  · refine .inl ⟨.inl rfl, 1, ?_, ?_⟩
    · show upFrom numXY 1 {"x", "y"} = {"y"}
      ext s
      constructor
      · rintro ⟨rfl | h, n, hn, hl⟩
        · rw [nx] at hn; cases hn; omega
        · exact h
      · rintro rfl
        exact ⟨.inr rfl, 1, ny, Nat.le_refl _⟩
    · rintro A rfl h
      rw [← h]
      ext s
      constructor
      · rintro rfl; exact ⟨rfl, 1, ny, Nat.le_refl _⟩
      · exact fun h => h.1
  · rintro (⟨_, l, h, _⟩ | ⟨h, _⟩)
    · have h : upFrom numXY l {"x"} = {"y"} := h
      have : ("y" : String) ∈ upFrom numXY l {"x"} := by rw [h]; rfl
      exact hxy this.1.symm
    · have h : ({"x"} : Set String) = {"y"} := h
      exact hxy (Set.singleton_injective h)

/-- What `divOf` says of the second case. -/
example : divOf numXY ["y", "x"] {{"x"}} {{"y"}} = none := by
  have h1 : ¬ ∃ S ∈ ({{"x"}} : Set (Set String)), "y" ∈ S := by
    rintro ⟨S, rfl, h⟩
    have h : ("y" : String) = "x" := h
    revert h; decide
  have h2 : ∃ S ∈ ({{"y"}} : Set (Set String)), "y" ∈ S := ⟨_, rfl, rfl⟩
  have ne : ∀ s : String, ({{s}} : Set (Set String)) ≠ ∅ := fun s => Set.singleton_ne_empty _
  have nb : ∀ s : String, ({{s}} : Set (Set String)) ≠ {∅} := fun s h =>
    Set.singleton_ne_empty s (Set.singleton_injective h)
  rw [divOf, if_neg (ne _), if_neg (nb _), if_neg (ne _), if_neg (nb _), if_neg h1, if_pos h2]

end DD.Props
