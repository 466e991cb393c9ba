import Verif.Bss.ZStep
import Verif.Zdd.AnalysisOk

/-!
# ZDD sessions read by labels
-/

set_option autoImplicit false
set_option linter.unusedSectionVars false
set_option linter.unusedVariables false

namespace DD
open Arena Zdd

namespace ZWorld

/-- `w.Reads h t S`: the set of labels `S` leads from handle `h` to the terminal `t`. -/
def Reads (w : ZWorld) (h : Nat) (t : T3) (S : Set String) : Prop :=
  ∃ i, w.hs.held.get h = some i ∧ Mem w.mgr.w.eng.arena t i S

/-- The handle is held, has no undetermined part and denotes the family `𝓕`. -/
structure Denotes (w : ZWorld) (h : Nat) (𝓕 : Set (Set String)) : Prop where
  held : ∃ i, w.hs.held.get h = some i
  fam : ∀ S, S ∈ 𝓕 ↔ w.Reads h .one S
  det : ∀ S, ¬ w.Reads h .undet S

/-- `ZddNode::count`, /repo/bss/src/zdd.rs:287-292. -/
def count (w : ZWorld) (ss : List Bool) (h : Nat) : Option Nat :=
  match w.hs.held.get h with
  | none => none
  | some i => zcount w.mgr.w.eng.arena ss i

/-- `ZddNode::extract`, /repo/bss/src/zdd.rs:295-297: the iterator's first state.  The clone of the handle
that the iterator keeps is not counted here (it only pins a node that is pinned already). -/
def extract (w : ZWorld) (ss : List Bool) (h : Nat) : Option ZPath :=
  match w.hs.held.get h with
  | none => none
  | some i => some (zpathNew i ss)

/-- `ZddPath::next`, /repo/bss/src/zdd_path.rs:44-79. -/
def next (w : ZWorld) (st : ZPath) : Option (Option (List String) × ZPath) := zpathNext w.mgr.w.eng.arena st

/-- `ZddPath::len`, /repo/bss/src/zdd_path.rs:36-38. -/
def pathLen (w : ZWorld) (h : Nat) (st : ZPath) : Option Nat := w.count st.ss h

/-- `ZddNode::size`, /repo/bss/src/zdd.rs:299-305. -/
def size (w : ZWorld) (h : Nat) : Option (Nat × Nat × Nat) :=
  match w.hs.held.get h with
  | none => none
  | some i => zsize w.mgr.w.eng.arena i

end ZWorld

/-- States are 0 or 1, and 1 only at named levels. -/
def BitA (names : List String) (a : Nat → Nat) : Prop :=
  ∀ l, a l = 0 ∨ (a l = 1 ∧ ∃ x, names[l]? = some x)

theorem BitA.prefix {names names' : List String} (h : names <+: names') {a : Nat → Nat} (ha : BitA names a) :
    BitA names' a := by
  intro l
  rcases ha l with h1 | ⟨h1, x, hx⟩
  · exact .inl h1
  · exact .inr ⟨h1, x, getElem?_prefix h hx⟩

theorem labS_prefix {names names' : List String} (h : names <+: names') {a : Nat → Nat} (ha : BitA names a) :
    labS names' a = labS names a := by
  ext s
  constructor
  · rintro ⟨l, hl, hv⟩
    rcases ha l with h1 | ⟨h1, x, hx⟩
    · omega
    · have := getElem?_prefix h hx
      rw [hl] at this; cases this
      exact ⟨l, hx, hv⟩
  · rintro ⟨l, hl, hv⟩
    exact ⟨l, getElem?_prefix h hl, hv⟩

theorem labS_ind {names xs : List String} (h : ∀ x ∈ xs, x ∈ names) : labS names (ind names xs) = lset xs := by
  ext s
  constructor
  · rintro ⟨l, hl, hv⟩
    simp only [ind] at hv
    split at hv
    · rename_i h
      obtain ⟨x, hx, hx'⟩ := h
      rw [hl] at hx'; cases hx'; exact hx
    · cases hv
  · intro hs
    obtain ⟨l, hl⟩ := List.mem_iff_getElem?.1 (h s hs)
    refine ⟨l, hl, ?_⟩
    simp only [ind]
    rw [if_pos ⟨s, hs, hl⟩]

theorem labS_le {names : List String} {a b : Nat → Nat} (ha : BitA names a) (hb : BitA names b)
    (hn : names.Nodup) : (∀ l, a l ≤ b l) ↔ labS names a ⊆ labS names b := by
  constructor
  · rintro h s ⟨l, hl, hv⟩
    refine ⟨l, hl, ?_⟩
    have := h l
    rcases hb l with h | h <;> omega
  · intro h l
    rcases ha l with h1 | ⟨h1, x, hx⟩
    · omega
    · obtain ⟨k, hk, hv⟩ := h ⟨l, hx, h1⟩
      have : k = l := (List.getElem?_inj (List.getElem?_eq_some_iff.1 hk).1 hn).1 (hk.trans hx.symm)
      subst this; omega

theorem labS_single {names : List String} {l : Nat} {x : String} (hx : names[l]? = some x) :
    labS names (upd (fun _ => 0) l 1) = {x} := by
  rcases labS_upd (a := fun _ => 0) hx with h | h
  · rw [h, labS_zero]; simp
  · cases h

theorem bitA_single {names : List String} {l : Nat} {x : String} (hx : names[l]? = some x) :
    BitA names (upd (fun _ => 0) l 1) := by
  intro k
  by_cases e : k = l
  · subst e; exact .inr ⟨by simp [upd], x, hx⟩
  · exact .inl (by simp [upd, e])

theorem bitA_ind (names xs : List String) : BitA names (ind names xs) := by
  intro l
  simp only [ind]
  split
  · rename_i h; obtain ⟨x, _, hx⟩ := h; exact .inr ⟨rfl, x, hx⟩
  · exact .inl rfl

section
variable {s : Zdd} {names : List String} {i : Nat} {V : ZVal}

theorem ZDen.mem_iff (hd : ZDen s.arena i V) (hs : Inv s) (hn : Lbl s.arena names) {t : T3} (ht : t ≠ .zero)
    {S : Set String} : Mem s.arena t i S ↔ ∃ a, V a t ∧ S = labS names a := by
  rw [Zdd.mem_iff hs hn hd.live]
  constructor
  · rintro ⟨a, h, e⟩; exact ⟨a, (hd.val _ _).2 ⟨ht, h⟩, e⟩
  · rintro ⟨a, h, e⟩; exact ⟨a, ((hd.val _ _).1 h).2, e⟩

theorem ZDen.bits (hd : ZDen s.arena i V) (hs : Inv s) (hn : Lbl s.arena names) {a : Nat → Nat} {t : T3}
    (h : V a t) : BitA names a := lab_bit hs hn ((hd.val _ _).1 h).2 hd.live

end

namespace ZRel
variable {w : ZWorld} {names : List String}

theorem lbl (R : ZRel w names) : Lbl w.mgr.w.eng.arena names := by
  refine ⟨R.mok.nodup, fun hd hh => ?_⟩
  obtain ⟨h, hh⟩ := List.mem_iff_getElem?.1 hh
  rw [R.mok.hdrs, mkHeaders_get] at hh
  obtain ⟨x, h1, rfl⟩ := hh
  exact h1

theorem bits (R : ZRel w names) {h : Nat} {V : ZVal} (hV : w.Has h V) {a : Nat → Nat} {t : T3} (ha : V a t) :
    BitA names a := by
  obtain ⟨i, h1, h2⟩ := hV
  exact h2.bits R.mok.ok.inv R.lbl ha

theorem reads_iff (R : ZRel w names) {h : Nat} {V : ZVal} (hV : w.Has h V) {t : T3} (ht : t ≠ .zero)
    {S : Set String} : w.Reads h t S ↔ ∃ a, V a t ∧ S = labS names a := by
  obtain ⟨i, h1, h2⟩ := hV
  rw [← h2.mem_iff R.mok.ok.inv R.lbl ht]
  constructor
  · rintro ⟨j, hj, hm⟩; rw [h1] at hj; cases hj; exact hm
  · intro hm; exact ⟨i, h1, hm⟩

/-- The family of labels of a meaning. -/
def famOf (names : List String) (V : ZVal) : Set (Set String) := {S | ∃ a, V a .one ∧ S = labS names a}

theorem denotes_of (R : ZRel w names) {h : Nat} {V : ZVal} (hV : w.Has h V) (hc : V.Cl) :
    w.Denotes h (famOf names V) where
  held := by obtain ⟨i, h1, _⟩ := hV; exact ⟨i, h1⟩
  fam := fun S => (R.reads_iff hV (by decide)).symm
  det := fun S hS => by
    obtain ⟨a, ha, _⟩ := (R.reads_iff hV (by decide)).1 hS
    exact hc a ha

theorem of_denotes (R : ZRel w names) {h : Nat} {𝓕 : Set (Set String)} (hD : w.Denotes h 𝓕) :
    ∃ V, w.Has h V ∧ V.Cl ∧ 𝓕 = famOf names V ∧ (∀ a t, V a t → BitA names a) ∧
      ∀ a, BitA names a → (V a .one ↔ labS names a ∈ 𝓕) := by
  obtain ⟨i, hi⟩ := hD.held
  obtain ⟨V, _, hV⟩ := R.has hi
  have hf : 𝓕 = famOf names V := by
    ext S; rw [hD.fam, R.reads_iff hV (by decide)]; rfl
  have hb : ∀ a t, V a t → BitA names a := fun a t => R.bits hV
  refine ⟨V, hV, ?_, hf, hb, ?_⟩
  · intro a ha
    exact hD.det _ ((R.reads_iff hV (by decide)).2 ⟨a, ha, rfl⟩)
  · intro a ha
    rw [hf]
    constructor
    · intro h; exact ⟨a, h, rfl⟩
    · rintro ⟨b, hb', e⟩
      rw [labS_inj R.mok.nodup ha (hb _ _ hb') e]; exact hb'

/-- Equal by labels is equal by levels. -/
theorem val_eq_iff (R : ZRel w names) {f g : Nat} {F G : ZVal} (hF : w.Has f F) (hG : w.Has g G) :
    F = G ↔ ∀ S, (w.Reads f .one S ↔ w.Reads g .one S) ∧ (w.Reads f .undet S ↔ w.Reads g .undet S) := by
  constructor
  · rintro rfl S
    simp only [R.reads_iff hF (show T3.one ≠ .zero by decide), R.reads_iff hG (show T3.one ≠ .zero by decide),
      R.reads_iff hF (show T3.undet ≠ .zero by decide), R.reads_iff hG (show T3.undet ≠ .zero by decide),
      and_self]
  · intro h
    have key : ∀ {f g : Nat} {F G : ZVal}, w.Has f F → w.Has g G → ∀ t, t ≠ T3.zero →
        (∀ S, w.Reads f t S → w.Reads g t S) → ∀ a, F a t → G a t := by
      intro f g F G hF hG t ht h a ha
      obtain ⟨b, hb, e⟩ := (R.reads_iff hG ht).1 (h _ ((R.reads_iff hF ht).2 ⟨a, ha, rfl⟩))
      rw [labS_inj R.mok.nodup (R.bits hF ha) (R.bits hG hb) e]; exact hb
    funext a t
    apply propext
    match t with
    | .zero =>
      obtain ⟨i, _, hi⟩ := hF
      obtain ⟨j, _, hj⟩ := hG
      rw [hi.val, hj.val]; simp
    | .one => exact ⟨key hF hG _ (by decide) (fun S => (h S).1.1) a, key hG hF _ (by decide) (fun S => (h S).1.2) a⟩
    | .undet => exact ⟨key hF hG _ (by decide) (fun S => (h S).2.1) a, key hG hF _ (by decide) (fun S => (h S).2.2) a⟩

/-- Reads are kept when meanings are. -/
theorem reads_keep {w' : ZWorld} {names' : List String} (R : ZRel w names) (R' : ZRel w' names')
    (hp : names <+: names') {h : Nat} {V : ZVal} (hV : w.Has h V) (hV' : w'.Has h V) {t : T3}
    (ht : t ≠ .zero) (S : Set String) : w'.Reads h t S ↔ w.Reads h t S := by
  rw [R.reads_iff hV ht, R'.reads_iff hV' ht]
  constructor
  · rintro ⟨a, ha, rfl⟩; exact ⟨a, ha, labS_prefix hp (R.bits hV ha)⟩
  · rintro ⟨a, ha, rfl⟩; exact ⟨a, ha, (labS_prefix hp (R.bits hV ha)).symm⟩

end ZRel

/-- `size`: distinct reachable non-terminals, distinct reachable terminals, edges. -/
theorem Zdd.zsize_ok {s : Zdd} (hs : Inv s) {i : Nat} (hi : s.arena.Live i) :
    ∃ L : List Nat, L.Nodup ∧ (∀ j, j ∈ L ↔ Reach s.arena i j) ∧
      zsize s.arena i = some (L.countP (s.arena.isNt ·), L.countP (!s.arena.isNt ·),
        2 * L.countP (s.arena.isNt ·)) := by
  obtain ⟨n, v, e, L, h1, h2, h3, h4⟩ := nodeCount_ok hs.wf (s.arena.rank i + 1) i [] hi (by omega)
    ⟨by simp, by simp⟩ (by simp)
  refine ⟨L, h2.ok.nodup, fun j => by rw [h3]; simp, ?_⟩
  have hdeg : ∀ l : List Nat, (∀ j ∈ l, s.arena.Live j) →
      (l.map s.arena.outDeg).sum = 2 * l.countP (s.arena.isNt ·) := by
    intro l hl
    induction l with
    | nil => rfl
    | cons j l ih =>
      have ih := ih (fun k hk => hl k (List.mem_cons_of_mem _ hk))
      obtain ⟨nd, hn⟩ := (hl j List.mem_cons_self).node
      rw [List.map_cons, List.sum_cons, ih, List.countP_cons]
      cases nd with
      | term t => simp [outDeg, isNt, hn]
      | nt h ch =>
        obtain ⟨hd, e1, e2, _⟩ := hs.wf.nt (hl j List.mem_cons_self) hn
        rw [hs.two hd (List.mem_of_getElem? e1)] at e2
        simp [outDeg, isNt, hn, e2]; omega
  have hn := h2.nts
  have hv := h2.terms
  have he := h2.edges
  simp only [List.countP_nil, Nat.zero_add, List.map_nil, List.sum_nil] at hn hv he
  rw [hdeg L h4] at he
  simp only [zsize, h1]
  rw [hn, hv, ← he, hn]
  simp

end DD
