import Verif.Props.KofN
import Verif.Props.Rebuild

/-!
# C89: minimal path and cut sets of series and parallel systems

`BssMgr::minpath` and `mincut` (/repo/bss/src/bss.rs:109-136) of the conjunction and disjunction of two monotone
functions without common variables, against the ZDD operations `product` and `union` on the parts' families.
-/

set_option autoImplicit false
set_option linter.unusedSectionVars false
set_option linter.unusedVariables false

namespace DD.Props
open Arena Zdd

variable {Φ Ψ : (String → Bool) → Bool} {X Y : Set String}

/-- `Φ` looks only at the names in `X`. -/
def LooksAt (X : Set String) (Φ : (String → Bool) → Bool) : Prop :=
  ∀ ν μ : String → Bool, (∀ x ∈ X, ν x = μ x) → Φ ν = Φ μ

theorem Named.looksAt {names : List String} {F : BFun} (h : Named names F Φ) : LooksAt {x | Matters Φ x} Φ := by
  intro ν μ hm
  have key : ∀ L : List String, Φ (fun x => if x ∈ L then μ x else ν x) = Φ ν := by
    intro L
    induction L with
    | nil => simp
    | cons y L ih =>
      rw [← ih]
      have e : (fun x => if x ∈ y :: L then μ x else ν x) =
          Function.update (fun x => if x ∈ L then μ x else ν x) y (μ y) := by
        funext x
        by_cases hx : x = y
        · subst hx; simp
        · rw [Function.update_of_ne hx]; simp [hx]
      rw [e]
      by_cases hy : Matters Φ y
      · congr 1
        funext x
        by_cases hx : x = y
        · subst hx; rw [Function.update_self]; split
          · rfl
          · exact (hm x hy).symm
        · rw [Function.update_of_ne hx]
      · have hb : ∀ b c, Φ (Function.update (fun x => if x ∈ L then μ x else ν x) y b) =
            Φ (Function.update (fun x => if x ∈ L then μ x else ν x) y c) := by
          have := Classical.byContradiction fun hc => hy ⟨fun x => if x ∈ L then μ x else ν x, hc⟩
          intro b c
          cases b <;> cases c <;> first | rfl | exact this | exact this.symm
        rw [hb _ ((fun x => if x ∈ L then μ x else ν x) y), Function.update_eq_self]
  rw [← key names, ← h.eq μ, ← h.eq]
  refine congrArg F (funext fun l => ?_)
  unfold atNames
  cases hl : names[l]? with
  | none => rfl
  | some x => simp [List.mem_of_getElem? hl]

theorem LooksAt.chi (h : LooksAt X Φ) {S T : Set String} (he : ∀ x ∈ X, x ∈ S ↔ x ∈ T) : Φ (chi S) = Φ (chi T) :=
  h _ _ fun x hx => by unfold Props.chi; exact decide_eq_decide.2 (he x hx)

theorem LooksAt.sub (h : LooksAt X Φ) {S : Set String} (hS : S ∈ MinPathsN Φ) : S ⊆ X := by
  by_contra hn
  have hss : S ∩ X ⊂ S := ⟨Set.inter_subset_left, fun hc => hn fun x hx => (hc hx).2⟩
  have := hS.2 _ hss
  rw [h.chi (S := S ∩ X) (T := S) (fun x hx => by simp [hx]), hS.1] at this
  cases this

theorem minPaths_and (hΦ : LooksAt X Φ) (hΨ : LooksAt Y Ψ) (hd : Disjoint X Y) :
    MinPathsN (fun ν => Φ ν && Ψ ν) = join (MinPathsN Φ) (MinPathsN Ψ) := by
  have no : ∀ x, x ∈ X → x ∉ Y := fun x h1 h2 => Set.disjoint_left.1 hd h1 h2
  ext S
  constructor
  · rintro ⟨h1, h2⟩
    simp only [Bool.and_eq_true] at h1
    have eS : S = S ∩ X ∪ S ∩ Y := by
      by_contra hne
      have hss : S ∩ X ∪ S ∩ Y ⊂ S := by
        refine ⟨by rintro x (h | h) <;> exact h.1, fun hc => hne (Set.Subset.antisymm hc (by rintro x (h | h) <;> exact h.1))⟩
      have := h2 _ hss
      rw [Bool.and_eq_false_iff] at this
      rcases this with h | h
      · rw [hΦ.chi (T := S) (fun x hx => by simp only [Set.mem_union, Set.mem_inter_iff]; tauto)] at h
        rw [h1.1] at h; cases h
      · rw [hΨ.chi (T := S) (fun x hx => by simp only [Set.mem_union, Set.mem_inter_iff]; tauto)] at h
        rw [h1.2] at h; cases h
    refine ⟨S ∩ X, ⟨?_, fun T hT => ?_⟩, S ∩ Y, ⟨?_, fun T hT => ?_⟩, eS⟩
    · rw [hΦ.chi (T := S) (fun x hx => by simp [hx])]; exact h1.1
    · have hss : T ∪ S ∩ Y ⊂ S := by
        refine ⟨by rintro x (h | h); exacts [(hT.1 h).1, h.1], fun hc => hT.2 fun x hx => ?_⟩
        rcases hc hx.1 with h | h
        · exact h
        · exact absurd h.2 (no x hx.2)
      have := h2 _ hss
      rw [Bool.and_eq_false_iff] at this
      rcases this with h | h
      · rw [← h]; exact hΦ.chi fun x hx => by simp [no x hx]
      · rw [hΨ.chi (T := S) (fun x hx => by
          constructor
          · rintro (h | h); exacts [(hT.1 h).1, h.1]
          · exact fun h => .inr ⟨h, hx⟩), h1.2] at h
        cases h
    · rw [hΨ.chi (T := S) (fun x hx => by simp [hx])]; exact h1.2
    · have hss : S ∩ X ∪ T ⊂ S := by
        refine ⟨by rintro x (h | h); exacts [h.1, (hT.1 h).1], fun hc => hT.2 fun x hx => ?_⟩
        rcases hc hx.1 with h | h
        · exact absurd hx.2 (no x h.2)
        · exact h
      have := h2 _ hss
      rw [Bool.and_eq_false_iff] at this
      rcases this with h | h
      · rw [hΦ.chi (T := S) (fun x hx => by
          constructor
          · rintro (h | h); exacts [h.1, (hT.1 h).1]
          · exact fun h => .inl ⟨h, hx⟩), h1.1] at h
        cases h
      · rw [← h]
        refine hΨ.chi fun x hx => ?_
        have : x ∉ X := fun h => no x h hx
        simp [this]
  · rintro ⟨A, hA, B, hB, rfl⟩
    have sA := hΦ.sub hA
    have sB := hΨ.sub hB
    have pA : ∀ x ∈ X, x ∉ B := fun x hx h => no x hx (sB h)
    have pB : ∀ x ∈ Y, x ∉ A := fun x hx h => no x (sA h) hx
    refine ⟨?_, fun T hT => ?_⟩
    · show (Φ (chi (A ∪ B)) && Ψ (chi (A ∪ B))) = true
      rw [hΦ.chi (T := A) (fun x hx => by simp [pA x hx]), hΨ.chi (T := B) (fun x hx => by simp [pB x hx]), hA.1, hB.1]
      rfl
    · by_contra hne
      rw [Bool.not_eq_false, Bool.and_eq_true] at hne
      have part : ∀ {Z : Set String} {Θ : (String → Bool) → Bool} {C : Set String}, LooksAt Z Θ → C ∈ MinPathsN Θ →
          Θ (chi T) = true → T ∩ Z ⊆ C → C ⊆ T := by
        intro Z Θ C hΘ hC ht hs
        by_contra hn
        have hss : T ∩ Z ⊂ C := ⟨hs, fun hc => hn fun x hx => (hc hx).1⟩
        have := hC.2 _ hss
        rw [hΘ.chi (T := T) (fun x hx => by simp [hx]), ht] at this
        cases this
      refine hT.2 (Set.union_subset (part hΦ hA hne.1 ?_) (part hΨ hB hne.2 ?_))
      · rintro x ⟨h1, h2⟩; exact (hT.1 h1).resolve_right (pA x h2)
      · rintro x ⟨h1, h2⟩; exact (hT.1 h1).resolve_left (pB x h2)

theorem minPaths_or (hΦ : LooksAt X Φ) (hΨ : LooksAt Y Ψ) (hd : Disjoint X Y) (h0 : Φ (chi ∅) = false)
    (h0' : Ψ (chi ∅) = false) :
    MinPathsN (fun ν => Φ ν || Ψ ν) = MinPathsN Φ ∪ MinPathsN Ψ := by
  have no : ∀ x, x ∈ X → x ∉ Y := fun x h1 h2 => Set.disjoint_left.1 hd h1 h2
  ext S
  constructor
  · rintro ⟨h1, h2⟩
    simp only [Bool.or_eq_true] at h1
    have h3 : ∀ T, T ⊂ S → Φ (chi T) = false ∧ Ψ (chi T) = false := fun T hT => by simpa using h2 T hT
    rcases h1 with h | h
    · exact .inl ⟨h, fun T hT => (h3 T hT).1⟩
    · exact .inr ⟨h, fun T hT => (h3 T hT).2⟩
  · rintro (h | h)
    · have sA := hΦ.sub h
      refine ⟨by simp [h.1], fun T hT => ?_⟩
      show (Φ (chi T) || Ψ (chi T)) = false
      rw [h.2 T hT, hΨ.chi (T := ∅) (fun x hx => by
        have : x ∉ T := fun ht => no x (sA (hT.1 ht)) hx
        simp [this]), h0']
      rfl
    · have sA := hΨ.sub h
      refine ⟨by simp [h.1], fun T hT => ?_⟩
      show (Φ (chi T) || Ψ (chi T)) = false
      rw [h.2 T hT, hΦ.chi (T := ∅) (fun x hx => by
        have : x ∉ T := fun ht => no x hx (sA (hT.1 ht))
        simp [this]), h0]
      rfl

/-- The function that is false where `Φ` is true at the negated names. -/
def dualN (Φ : (String → Bool) → Bool) : (String → Bool) → Bool := fun ν => !Φ (fun x => !ν x)

theorem minCuts_dualN (Φ : (String → Bool) → Bool) : MinCutsN Φ = MinPathsN (dualN Φ) := by
  ext S; simp [MinCutsN, MinPathsN, dualN]

theorem LooksAt.dualN (h : LooksAt X Φ) : LooksAt X (dualN Φ) := by
  intro ν μ hx
  unfold Props.dualN
  rw [h (fun x => !ν x) (fun x => !μ x) (fun x hm => by rw [hx x hm])]

theorem ncard_join_apart {𝓕 𝓖 : Set (Set String)} (hd : Disjoint X Y) (h1 : ∀ A ∈ 𝓕, A ⊆ X) (h2 : ∀ B ∈ 𝓖, B ⊆ Y) :
    (join 𝓕 𝓖).ncard = 𝓕.ncard * 𝓖.ncard := by
  have no : ∀ x, x ∈ X → x ∉ Y := fun x h1 h2 => Set.disjoint_left.1 hd h1 h2
  have he : join 𝓕 𝓖 = (fun p : Set String × Set String => p.1 ∪ p.2) '' (𝓕 ×ˢ 𝓖) := by
    ext S
    constructor
    · rintro ⟨A, hA, B, hB, rfl⟩; exact ⟨(A, B), ⟨hA, hB⟩, rfl⟩
    · rintro ⟨⟨A, B⟩, ⟨hA, hB⟩, rfl⟩; exact ⟨A, hA, B, hB, rfl⟩
  rw [he, ← Set.ncard_prod]
  refine Set.InjOn.ncard_image ?_
  rintro ⟨A, B⟩ ⟨hA, hB⟩ ⟨A', B'⟩ ⟨hA', hB'⟩ e
  simp only at e hA hB hA' hB'
  have cut : ∀ {A B : Set String}, A ⊆ X → B ⊆ Y → (A ∪ B) ∩ X = A ∧ (A ∪ B) ∩ Y = B := by
    intro A B ha hb
    constructor
    · ext x; constructor
      · rintro ⟨h | h, hx⟩; exacts [h, absurd (hb h) (no x hx)]
      · exact fun h => ⟨.inl h, ha h⟩
    · ext x; constructor
      · rintro ⟨h | h, hx⟩; exacts [absurd hx (no x (ha h)), h]
      · exact fun h => ⟨.inr h, hb h⟩
  have c1 := cut (h1 A hA) (h2 B hB)
  have c2 := cut (h1 A' hA') (h2 B' hB')
  rw [e] at c1
  rw [← c1.1, ← c1.2, c2.1, c2.2]

theorem ncard_union_apart {𝓕 𝓖 : Set (Set String)} (hd : Disjoint X Y) (h1 : ∀ A ∈ 𝓕, A ⊆ X) (h2 : ∀ B ∈ 𝓖, B ⊆ Y)
    (h0 : ∅ ∉ 𝓕) (ff : 𝓕.Finite) (fg : 𝓖.Finite) : (𝓕 ∪ 𝓖).ncard = 𝓕.ncard + 𝓖.ncard := by
  refine Set.ncard_union_eq (Set.disjoint_left.2 fun S hf hg => h0 ?_) ff fg
  have : S = ∅ := Set.eq_empty_of_forall_notMem fun x hx => Set.disjoint_left.1 hd (h1 S hf hx) (h2 S hg hx)
  rwa [← this]

/-! ## The calls -/

variable {v : BssW} {names : List String} {F G : BFun}

/-- The call `glue f g` on the BDD handles returns a handle whose minimal sets (call `mk`) are those that the ZDD
call `op` makes of the minimal sets of `f` and of `g`, and the client's counts of the three families are related by
`cnt`. -/
def Combined (v : BssW) (mk : Nat → BssCmd) (glue : Nat → Nat → Cmd) (op : Nat → Nat → ZCmd) (cnt : Nat → Nat → Nat)
    (f g : Nat) : Prop :=
  ∃ s v0 h1 v1 h2 v2 h3 v3 h4 v4 𝓕 m n,
    v.step (.bdd (glue f g)) = some (.bdd (.handle s), v0) ∧
    v0.step (mk f) = some (.fam (some h1), v1) ∧ v1.step (mk g) = some (.fam (some h2), v2) ∧
    v2.step (mk s) = some (.fam (some h3), v3) ∧ v3.step (.zdd (op h1 h2)) = some (.zdd (.handle h4), v4) ∧
    v4.zdd.Denotes h3 𝓕 ∧ v4.zdd.Denotes h4 𝓕 ∧ v4.zdd.count [true] h1 = some m ∧ v4.zdd.count [true] h2 = some n ∧
    v4.zdd.count [true] h3 = some (cnt m n)

/-- No name matters to both. -/
def Apart (Φ Ψ : (String → Bool) → Bool) : Prop := ∀ x, ¬ (Matters Φ x ∧ Matters Ψ x)

theorem Apart.disjoint (h : Apart Φ Ψ) : Disjoint {x | Matters Φ x} {x | Matters Ψ x} :=
  Set.disjoint_left.2 fun x h1 h2 => h x ⟨h1, h2⟩

/-- The four calls in a row, given what each one returns. -/
theorem combined {mk : Nat → BssCmd} {glue : Nat → Nat → Cmd} {op : Nat → Nat → ZCmd} {cnt : Nat → Nat → Nat}
    {H : BFun} {Θ : (String → Bool) → Bool} {M : ((String → Bool) → Bool) → Set (Set String)} (hv : v.Reachable)
    {f g : Nat} (hf : v.bdd.Denotes f F) (hg : v.bdd.Denotes g G) (hn : Names v.bdd names)
    (hΦ : Named names F Φ) (hΨ : Named names G Ψ) (hΘ : Named names H Θ) (mΦ : MonoN Φ) (mΨ : MonoN Ψ) (mΘ : MonoN Θ)
    (hglue : Gives v.bdd (glue f g) H) (hne : (∀ x, glue f g ≠ .defvar x) ∧ ∀ ts, glue f g ≠ .rpn ts)
    (hord : v.bdd.Ordered (glue f g))
    (hmk : ∀ {v : BssW} {f : Nat} {F : BFun} {Φ : (String → Bool) → Bool}, v.Reachable → v.bdd.Denotes f F →
      Names v.bdd names → Named names F Φ → MinGives v (mk f) (MonoN Φ) (M Φ) ∧
      ∀ o v', v.step (mk f) = some (o, v') → Names v'.bdd names)
    (hop : ∀ {v : BssW} {h1 h2 : Nat}, v.Reachable → v.zdd.Denotes h1 (M Φ) → v.zdd.Denotes h2 (M Ψ) →
      BssGives v (op h1 h2) (M Θ))
    (hcnt : (M Φ).Finite → (M Ψ).Finite → (M Θ).ncard = cnt (M Φ).ncard (M Ψ).ncard) :
    Combined v mk glue op cnt f g := by
  have some_of : ∀ {v : BssW} {c : BssCmd} {P : Prop} {𝓕 : Set (Set String)}, MinGives v c P 𝓕 → P →
      ∃ h v', v.step c = some (.fam (some h), v') ∧ v'.Reachable ∧ v'.zdd.Denotes h 𝓕 ∧
        (∀ h G, v.bdd.Denotes h G → v'.bdd.Denotes h G) ∧ ∀ h 𝓖, v.zdd.Denotes h 𝓖 → v'.zdd.Denotes h 𝓖 := by
    rintro v c P 𝓕 ⟨o, v', h1, h2, h3, -, h5, h6⟩ hP
    rcases h3 with ⟨h, -⟩ | ⟨-, rfl, h⟩
    · exact absurd hP h
    · exact ⟨_, v', h1, h2, h, h5, h6⟩
  obtain ⟨b, g1, g2, g3, _, g5⟩ := hglue
  have s0 : v.step (.bdd (glue f g)) = some (.bdd (.handle v.bdd.next), { v with bdd := b }) := by
    simp only [BssW.step, g1]; rfl
  have r0 : BssW.Reachable { v with bdd := b } := .step (.bdd (glue f g)) hv hord s0
  have n0 : Names b names := C08_others (bss_bdd_reachable hv) hn hne.1 hne.2 hord g1
  obtain ⟨k1, k1'⟩ := hmk (f := f) r0 (g5 _ _ hf) n0 hΦ
  obtain ⟨h1, v1, s1, r1, d1, b1, z1⟩ := some_of k1 mΦ
  have n1 := k1' _ _ s1
  obtain ⟨k2, k2'⟩ := hmk (f := g) r1 (b1 _ _ (g5 _ _ hg)) n1 hΨ
  obtain ⟨h2, v2, s2, r2, d2, b2, z2⟩ := some_of k2 mΨ
  have n2 := k2' _ _ s2
  obtain ⟨k3, -⟩ := hmk r2 (b2 _ _ (b1 _ _ g3)) n2 hΘ
  obtain ⟨h3, v3, s3, r3, d3, b3, z3⟩ := some_of k3 mΘ
  obtain ⟨v4, s4, r4, d4, _, z4⟩ := hop r3 (z3 _ _ (z2 _ _ d1)) (z3 _ _ d2)
  obtain ⟨f1, c1⟩ := C23_bss_count r4 (z4 _ _ (z3 _ _ (z2 _ _ d1)))
  obtain ⟨f2, c2⟩ := C23_bss_count r4 (z4 _ _ (z3 _ _ d2))
  obtain ⟨_, c3⟩ := C23_bss_count r4 (z4 _ _ d3)
  exact ⟨_, _, h1, v1, h2, v2, h3, v3, _, v4, _, _, _, s0, s1, s2, s3, s4, z4 _ _ d3, d4, c1, c2,
    by rw [c3, hcnt f1 f2]⟩

theorem mk_minpath {v : BssW} {f : Nat} {F : BFun} {Φ : (String → Bool) → Bool} (hv : v.Reachable)
    (hf : v.bdd.Denotes f F) (hn : Names v.bdd names) (hΦ : Named names F Φ) :
    MinGives v (.minpath f) (MonoN Φ) (MinPathsN Φ) ∧
      ∀ o v', v.step (.minpath f) = some (o, v') → Names v'.bdd names :=
  ⟨(C82_min hv hv hf hf hn hn hΦ hΦ).1.1, fun o v' hs => names_minpath hv hf hn hs⟩

theorem mk_mincut {v : BssW} {f : Nat} {F : BFun} {Φ : (String → Bool) → Bool} (hv : v.Reachable)
    (hf : v.bdd.Denotes f F) (hn : Names v.bdd names) (hΦ : Named names F Φ) :
    MinGives v (.mincut f) (MonoN Φ) (MinCutsN Φ) ∧
      ∀ o v', v.step (.mincut f) = some (o, v') → Names v'.bdd names :=
  ⟨(C82_min hv hv hf hf hn hn hΦ hΦ).2.1, fun o v' hs => names_mincut hv hf hn hs⟩

theorem mono_and (h : MonoN Φ) (h' : MonoN Ψ) : MonoN (fun ν => Φ ν && Ψ ν) := by
  intro ν μ hle hν
  simp only [Bool.and_eq_true] at hν ⊢
  exact ⟨h ν μ hle hν.1, h' ν μ hle hν.2⟩

theorem mono_or (h : MonoN Φ) (h' : MonoN Ψ) : MonoN (fun ν => Φ ν || Ψ ν) := by
  intro ν μ hle hν
  simp only [Bool.or_eq_true] at hν ⊢
  exact hν.imp (h ν μ hle) (h' ν μ hle)

theorem none_false (h : MonoN Φ) (h0 : ∃ ν, Φ ν = false) : Φ (chi ∅) = false := by
  obtain ⟨ν, h0⟩ := h0
  by_contra hc
  rw [h (chi ∅) ν (fun x hx => by simp [chi] at hx) (by simpa using hc)] at h0
  cases h0

theorem all_true (h : MonoN Φ) (h1 : ∃ ν, Φ ν = true) : dualN Φ (chi ∅) = false := by
  obtain ⟨ν, h1⟩ := h1
  have := h ν (fun x => !chi ∅ x) (fun x _ => by simp [chi]) h1
  unfold dualN
  rw [this]; rfl

theorem empty_notin (h : Φ (chi ∅) = false) : ∅ ∉ MinPathsN Φ := fun hc => by
  have := hc.1
  rw [h] at this; cases this

section
variable (hv : v.Reachable) {f g : Nat} (hf : v.bdd.Denotes f F) (hg : v.bdd.Denotes g G) (hn : Names v.bdd names)
  (hΦ : Named names F Φ) (hΨ : Named names G Ψ) (mΦ : MonoN Φ) (mΨ : MonoN Ψ) (ha : Apart Φ Ψ)
include hv hf hg hn hΦ hΨ mΦ mΨ ha

/-- **C89.** Series system: the minimal path sets of `and` are the unions of one of either part. -/
theorem C89_paths_and : Combined v .minpath .and .product (· * ·) f g := by
  have L := hΦ.looksAt
  have L' := hΨ.looksAt
  have e := minPaths_and L L' ha.disjoint
  refine combined (M := MinPathsN) (Θ := fun ν => Φ ν && Ψ ν) hv hf hg hn hΦ hΨ (fun a ν h => ?_) mΦ mΨ (mono_and mΦ mΨ)
    (C01_and (bss_bdd_reachable hv) hf hg) ⟨by simp, by simp⟩ trivial mk_minpath (fun hv d1 d2 => ?_) fun _ _ => ?_
  · rw [hΦ a ν h, hΨ a ν h]
  · rw [e]; exact C20_bss_product hv d1 d2
  · rw [e]; exact ncard_join_apart ha.disjoint (fun A h => L.sub h) (fun B h => L'.sub h)

/-- **C89.** Parallel system: the minimal path sets of `or` are those of either part, unless a part is always
true. -/
theorem C89_paths_or (h0 : ∃ ν, Φ ν = false) (h0' : ∃ ν, Ψ ν = false) :
    Combined v .minpath .or .union (· + ·) f g := by
  have L := hΦ.looksAt
  have L' := hΨ.looksAt
  have z := none_false mΦ h0
  have e := minPaths_or L L' ha.disjoint z (none_false mΨ h0')
  refine combined (M := MinPathsN) (Θ := fun ν => Φ ν || Ψ ν) hv hf hg hn hΦ hΨ (fun a ν h => ?_) mΦ mΨ (mono_or mΦ mΨ)
    (C01_or (bss_bdd_reachable hv) hf hg) ⟨by simp, by simp⟩ trivial mk_minpath (fun hv d1 d2 => ?_) fun f1 f2 => ?_
  · rw [hΦ a ν h, hΨ a ν h]
  · rw [e]; exact C20_bss_union hv d1 d2
  · rw [e]; exact ncard_union_apart ha.disjoint (fun A h => L.sub h) (fun B h => L'.sub h) (empty_notin z) f1 f2

/-- **C89.** Parallel system: the minimal cut sets of `or` are the unions of one of either part. -/
theorem C89_cuts_or : Combined v .mincut .or .product (· * ·) f g := by
  have L := hΦ.looksAt
  have L' := hΨ.looksAt
  have e : MinCutsN (fun ν => Φ ν || Ψ ν) = join (MinCutsN Φ) (MinCutsN Ψ) := by
    rw [minCuts_dualN, minCuts_dualN, minCuts_dualN, ← minPaths_and L.dualN L'.dualN ha.disjoint]
    congr 1; funext ν; simp [dualN]
  refine combined (M := MinCutsN) (Θ := fun ν => Φ ν || Ψ ν) hv hf hg hn hΦ hΨ (fun a ν h => ?_) mΦ mΨ (mono_or mΦ mΨ)
    (C01_or (bss_bdd_reachable hv) hf hg) ⟨by simp, by simp⟩ trivial mk_mincut (fun hv d1 d2 => ?_) fun _ _ => ?_
  · rw [hΦ a ν h, hΨ a ν h]
  · rw [e]; exact C20_bss_product hv d1 d2
  · rw [e]
    exact ncard_join_apart ha.disjoint (fun A h => L.dualN.sub (minCuts_dualN Φ ▸ h))
      (fun B h => L'.dualN.sub (minCuts_dualN Ψ ▸ h))

/-- **C89.** Series system: the minimal cut sets of `and` are those of either part, unless a part is always
false. -/
theorem C89_cuts_and (h1 : ∃ ν, Φ ν = true) (h1' : ∃ ν, Ψ ν = true) :
    Combined v .mincut .and .union (· + ·) f g := by
  have L := hΦ.looksAt
  have L' := hΨ.looksAt
  have z := all_true mΦ h1
  have e : MinCutsN (fun ν => Φ ν && Ψ ν) = MinCutsN Φ ∪ MinCutsN Ψ := by
    rw [minCuts_dualN, minCuts_dualN, minCuts_dualN, ← minPaths_or L.dualN L'.dualN ha.disjoint z (all_true mΨ h1')]
    congr 1; funext ν; simp [dualN]
  refine combined (M := MinCutsN) (Θ := fun ν => Φ ν && Ψ ν) hv hf hg hn hΦ hΨ (fun a ν h => ?_) mΦ mΨ (mono_and mΦ mΨ)
    (C01_and (bss_bdd_reachable hv) hf hg) ⟨by simp, by simp⟩ trivial mk_mincut (fun hv d1 d2 => ?_) fun f1 f2 => ?_
  · rw [hΦ a ν h, hΨ a ν h]
  · rw [e]; exact C20_bss_union hv d1 d2
  · rw [e]
    exact ncard_union_apart ha.disjoint (fun A h => L.dualN.sub (minCuts_dualN Φ ▸ h))
      (fun B h => L'.dualN.sub (minCuts_dualN Ψ ▸ h)) (by rw [minCuts_dualN]; exact empty_notin z) f1 f2

end

/-! ## A concrete case

Handles 4 = `a ∧ b`, 5 = `c ∨ d`, 6 = 4 ∧ 5 and 7 = 4 ∨ 5, then their minimal path and cut sets and the products and
unions of the parts'. -/

def modSys : List BssCmd :=
  [.bdd (.defvar "a"), .bdd (.defvar "b"), .bdd (.defvar "c"), .bdd (.defvar "d"), .bdd (.and 0 1), .bdd (.or 2 3),
   .bdd (.and 4 5), .bdd (.or 4 5), .minpath 4, .minpath 5, .minpath 6, .zdd (.product 0 1), .minpath 7, .zdd (.union 0 1),
   .mincut 4, .mincut 5, .mincut 6, .zdd (.union 6 7), .mincut 7, .zdd (.product 6 7)]

/-- Minimal path sets of 6 and the product of the parts', of 7 and the union. -/
example : (BssW.new.run modSys).map (fun p => [2, 3, 4, 5].map (fun h => (listSets p.2.zdd h 9, p.2.zdd.count [true] h))) =
    some [([["a", "b", "c"], ["a", "b", "d"]], some (1 * 2)), ([["a", "b", "c"], ["a", "b", "d"]], some 2),
      ([["a", "b"], ["c"], ["d"]], some (1 + 2)), ([["a", "b"], ["c"], ["d"]], some 3)] := by
  decide +kernel

/-- Minimal cut sets of 6 and the union, of 7 and the product. -/
example : (BssW.new.run modSys).map (fun p => [8, 9, 10, 11].map (fun h => (listSets p.2.zdd h 9, p.2.zdd.count [true] h))) =
    some [([["a"], ["b"], ["c", "d"]], some (2 + 1)), ([["a"], ["b"], ["c", "d"]], some 3),
      ([["a", "c", "d"], ["b", "c", "d"]], some (2 * 1)), ([["a", "c", "d"], ["b", "c", "d"]], some 2)] := by
  decide +kernel

/-- The hypotheses hold of it. -/
example : Named ["a", "b", "c", "d"] (fun a => a 0 && a 1) (fun ν => ν "a" && ν "b") ∧
    Named ["a", "b", "c", "d"] (fun a => a 2 || a 3) (fun ν => ν "c" || ν "d") ∧
    MonoN (fun ν => ν "a" && ν "b") ∧ MonoN (fun ν => ν "c" || ν "d") :=
  ⟨fun a ν h => by simp [h 0 "a" rfl, h 1 "b" rfl], fun a ν h => by simp [h 2 "c" rfl, h 3 "d" rfl],
    mono_and (Φ := fun ν => ν "a") (Ψ := fun ν => ν "b") (fun ν μ h => h _) (fun ν μ h => h _),
    mono_or (Φ := fun ν => ν "c") (Ψ := fun ν => ν "d") (fun ν μ h => h _) (fun ν μ h => h _)⟩

example : Apart (fun ν => ν "a" && ν "b") (fun ν => ν "c" || ν "d") := by
  rintro x ⟨⟨ν, h1⟩, ⟨μ, h2⟩⟩
  have : x = "a" ∨ x = "b" := by
    by_contra hc
    simp only [not_or] at hc
    exact h1 (by simp [Function.update_of_ne (Ne.symm hc.1), Function.update_of_ne (Ne.symm hc.2)])
  rcases this with rfl | rfl <;> exact h2 (by simp [Function.update])

end DD.Props
