import Verif.Props.Zdd

/-!
# C86: laws of set families on ZDD handles
-/

set_option autoImplicit false
set_option linter.unusedSectionVars false
set_option linter.unusedVariables false

namespace DD.Props

variable {w : ZWorld}

/-! ## Identities -/

/-- Expressions over handles. -/
inductive ZExp where
  | h (f : Nat)
  | empty
  | base
  | singleton (x : String)
  | union (e e' : ZExp)
  | setdiff (e e' : ZExp)
  | product (e e' : ZExp)

/-- The handle returned by a call. -/
def handleOf : Option (ZOut × ZWorld) → Option (Nat × ZWorld)
  | some (.handle r, w) => some (r, w)
  | _ => none

/-- Evaluate by public calls, left operand first. -/
def ZExp.run : ZExp → ZWorld → Option (Nat × ZWorld)
  | .h f, w => some (f, w)
  | .empty, w => handleOf (w.step .empty)
  | .base, w => handleOf (w.step .base)
  | .singleton x, w => handleOf (w.step (.singleton x))
  | .union e e', w => (e.run w).bind fun p => (e'.run p.2).bind fun q => handleOf (q.2.step (.union p.1 q.1))
  | .setdiff e e', w => (e.run w).bind fun p => (e'.run p.2).bind fun q => handleOf (q.2.step (.setdiff p.1 q.1))
  | .product e e', w => (e.run w).bind fun p => (e'.run p.2).bind fun q => handleOf (q.2.step (.product p.1 q.1))

/-- The family meant, from those of the handles. -/
def ZExp.fam (D : Nat → Set (Set String)) : ZExp → Set (Set String)
  | .h f => D f
  | .empty => ∅
  | .base => {∅}
  | .singleton x => {{x}}
  | .union e e' => e.fam D ∪ e'.fam D
  | .setdiff e e' => e.fam D \ e'.fam D
  | .product e e' => join (e.fam D) (e'.fam D)

/-- Handles mentioned. -/
def ZExp.vars : ZExp → List Nat
  | .h f => [f]
  | .empty | .base | .singleton _ => []
  | .union e e' | .setdiff e e' | .product e e' => e.vars ++ e'.vars

theorem zexp_run (D : Nat → Set (Set String)) : ∀ (e : ZExp) (w : ZWorld), w.Reachable →
    (∀ f ∈ e.vars, w.Denotes f (D f)) → ∃ r w', e.run w = some (r, w') ∧ w'.Reachable ∧
      w'.Denotes r (e.fam D) ∧ ∀ h 𝓖, w.Denotes h 𝓖 → w'.Denotes h 𝓖 := by
  have nul : ∀ {w : ZWorld} {c : ZCmd} {𝓕 : Set (Set String)}, ZGives w c 𝓕 → ∃ r w', handleOf (w.step c) = some (r, w') ∧
      w'.Reachable ∧ w'.Denotes r 𝓕 ∧ ∀ h 𝓖, w.Denotes h 𝓖 → w'.Denotes h 𝓖 := by
    rintro w c 𝓕 ⟨w', h1, h2, h3, _, h4⟩
    exact ⟨_, w', by rw [h1]; rfl, h2, h3, h4⟩
  have two : ∀ {e e' : ZExp} {w : ZWorld} {c : Nat → Nat → ZCmd} {o : Set (Set String) → Set (Set String) → Set (Set String)},
      (∀ w : ZWorld, w.Reachable → (∀ f ∈ e.vars, w.Denotes f (D f)) → ∃ r w', e.run w = some (r, w') ∧ w'.Reachable ∧
        w'.Denotes r (e.fam D) ∧ ∀ h 𝓖, w.Denotes h 𝓖 → w'.Denotes h 𝓖) →
      (∀ w : ZWorld, w.Reachable → (∀ f ∈ e'.vars, w.Denotes f (D f)) → ∃ r w', e'.run w = some (r, w') ∧ w'.Reachable ∧
        w'.Denotes r (e'.fam D) ∧ ∀ h 𝓖, w.Denotes h 𝓖 → w'.Denotes h 𝓖) →
      w.Reachable → (∀ f ∈ e.vars ++ e'.vars, w.Denotes f (D f)) →
      (∀ (w : ZWorld) f g 𝓕 𝓖, w.Reachable → w.Denotes f 𝓕 → w.Denotes g 𝓖 → ZGives w (c f g) (o 𝓕 𝓖)) →
      ∃ r w', ((e.run w).bind fun p => (e'.run p.2).bind fun q => handleOf (q.2.step (c p.1 q.1))) = some (r, w') ∧
        w'.Reachable ∧ w'.Denotes r (o (e.fam D) (e'.fam D)) ∧ ∀ h 𝓖, w.Denotes h 𝓖 → w'.Denotes h 𝓖 := by
    intro e e' w c o ih ih' hw hd op
    obtain ⟨r, w1, h1, h2, h3, h4⟩ := ih w hw (fun f hf => hd f (List.mem_append_left _ hf))
    obtain ⟨r', w2, g1, g2, g3, g4⟩ := ih' w1 h2 (fun f hf => h4 _ _ (hd f (List.mem_append_right _ hf)))
    obtain ⟨w3, k1, k2, k3, _, k4⟩ := op w2 r r' _ _ g2 (g4 _ _ h3) g3
    exact ⟨_, w3, by simp only [h1, Option.bind_some, g1, k1, handleOf], k2, k3, fun h 𝓖 hG => k4 _ _ (g4 _ _ (h4 _ _ hG))⟩
  intro e
  induction e with
  | h f => intro w hw hd; exact ⟨f, w, rfl, hw, hd f (by simp [ZExp.vars]), fun _ _ h => h⟩
  | empty => intro w hw hd; exact nul (C23_empty hw)
  | base => intro w hw hd; exact nul (C23_base hw)
  | singleton x => intro w hw hd; exact nul (C23_singleton hw x)
  | union e e' ih ih' => intro w hw hd; exact two (c := .union) (o := (· ∪ ·)) ih ih' hw hd fun _ _ _ _ _ h h1 h2 => C20_union h h1 h2
  | setdiff e e' ih ih' => intro w hw hd; exact two (c := .setdiff) (o := (· \ ·)) ih ih' hw hd fun _ _ _ _ _ h h1 h2 => C20_setdiff h h1 h2
  | product e e' ih ih' => intro w hw hd; exact two (c := .product) (o := join) ih ih' hw hd fun _ _ _ _ _ h h1 h2 => C20_product h h1 h2

/-- **C86.** Two expressions over handles, evaluated one after the other, give handles whose `eq` says whether
the two families are equal. So every law of set families holds up to `eq`. -/
theorem C86_identities (hw : w.Reachable) (e e' : ZExp) (D : Nat → Set (Set String))
    (hD : ∀ f ∈ e.vars ++ e'.vars, w.Denotes f (D f)) :
    ∃ r w1 r' w2 b, e.run w = some (r, w1) ∧ e'.run w1 = some (r', w2) ∧
      w2.step (.eq r r') = some (.bool b, w2) ∧ (b = true ↔ e.fam D = e'.fam D) := by
  obtain ⟨r, w1, h1, h2, h3, h4⟩ := zexp_run D e w hw (fun f hf => hD f (List.mem_append_left _ hf))
  obtain ⟨r', w2, g1, g2, g3, g4⟩ := zexp_run D e' w1 h2 (fun f hf => h4 _ _ (hD f (List.mem_append_right _ hf)))
  obtain ⟨b, e1, e2⟩ := C24_eq g2 (g4 _ _ h3) g3
  exact ⟨r, w1, r', w2, b, h1, g1, e1, e2⟩

theorem join_assoc (𝓕 𝓖 𝓗 : Set (Set String)) : join (join 𝓕 𝓖) 𝓗 = join 𝓕 (join 𝓖 𝓗) := by
  ext S
  constructor
  · rintro ⟨_, ⟨A, hA, B, hB, rfl⟩, C, hC, rfl⟩; exact ⟨A, hA, _, ⟨B, hB, C, hC, rfl⟩, Set.union_assoc _ _ _⟩
  · rintro ⟨A, hA, _, ⟨B, hB, C, hC, rfl⟩, rfl⟩; exact ⟨_, ⟨A, hA, B, hB, rfl⟩, C, hC, (Set.union_assoc _ _ _).symm⟩

theorem join_union (𝓕 𝓖 𝓗 : Set (Set String)) : join 𝓕 (𝓖 ∪ 𝓗) = join 𝓕 𝓖 ∪ join 𝓕 𝓗 := by
  ext S
  constructor
  · rintro ⟨A, hA, B, hB | hB, rfl⟩
    · exact .inl ⟨A, hA, B, hB, rfl⟩
    · exact .inr ⟨A, hA, B, hB, rfl⟩
  · rintro (⟨A, hA, B, hB, rfl⟩ | ⟨A, hA, B, hB, rfl⟩)
    · exact ⟨A, hA, B, .inl hB, rfl⟩
    · exact ⟨A, hA, B, .inr hB, rfl⟩

theorem join_base (𝓕 : Set (Set String)) : join 𝓕 {∅} = 𝓕 := by
  ext S
  constructor
  · rintro ⟨A, hA, B, rfl, rfl⟩; simpa using hA
  · intro h; exact ⟨S, h, ∅, rfl, by simp⟩

theorem join_empty (𝓕 : Set (Set String)) : join 𝓕 ∅ = ∅ := by
  ext S
  constructor
  · rintro ⟨A, hA, B, hB, rfl⟩; exact hB.elim
  · intro h; exact h.elim

/-- **C86.** With `union` and `product` the handles of a manager form a commutative semiring with zero `empty`
and one `base`, up to `eq`. -/
theorem C86_semiring (hw : w.Reachable) {f g h : Nat} {𝓕 𝓖 𝓗 : Set (Set String)} (hf : w.Denotes f 𝓕)
    (hg : w.Denotes g 𝓖) (hh : w.Denotes h 𝓗) {e e' : ZExp}
    (law : (e, e') ∈ [
      (.union (.union (.h f) (.h g)) (.h h), .union (.h f) (.union (.h g) (.h h))),
      (.union (.h f) (.h g), .union (.h g) (.h f)),
      (.union (.h f) .empty, .h f),
      (.union (.h f) (.h f), .h f),
      (.product (.product (.h f) (.h g)) (.h h), .product (.h f) (.product (.h g) (.h h))),
      (.product (.h f) (.h g), .product (.h g) (.h f)),
      (.product (.h f) .base, .h f),
      (.product (.h f) .empty, .empty),
      (.product (.h f) (.union (.h g) (.h h)), .union (.product (.h f) (.h g)) (.product (.h f) (.h h)))]) :
    ∃ r w1 r' w2, e.run w = some (r, w1) ∧ e'.run w1 = some (r', w2) ∧
      w2.step (.eq r r') = some (.bool true, w2) := by
  classical
  have hex : ∀ k ∈ [f, g, h], ∃ 𝓚, w.Denotes k 𝓚 := by
    intro k hk
    simp only [List.mem_cons, List.not_mem_nil, or_false] at hk
    rcases hk with rfl | rfl | rfl
    exacts [⟨_, hf⟩, ⟨_, hg⟩, ⟨_, hh⟩]
  have key : ∀ k ∈ [f, g, h], w.Denotes k ((fun k => if h : ∃ 𝓚, w.Denotes k 𝓚 then h.choose else ∅) k) := by
    intro k hk; simp only [dif_pos (hex k hk)]; exact (hex k hk).choose_spec
  generalize (fun k => if h : ∃ 𝓚, w.Denotes k 𝓚 then h.choose else ∅) = D at key
  have sub : ∀ k ∈ e.vars ++ e'.vars, k ∈ [f, g, h] := by
    simp only [List.mem_cons, List.not_mem_nil, or_false, Prod.mk.injEq] at law
    rcases law with ⟨rfl, rfl⟩ | ⟨rfl, rfl⟩ | ⟨rfl, rfl⟩ | ⟨rfl, rfl⟩ | ⟨rfl, rfl⟩ | ⟨rfl, rfl⟩ | ⟨rfl, rfl⟩ | ⟨rfl, rfl⟩ |
      ⟨rfl, rfl⟩ <;> intro k hk <;> simp [ZExp.vars] at hk ⊢ <;> tauto
  obtain ⟨r, w1, r', w2, b, h1, h2, h3, h4⟩ := C86_identities hw e e' D fun k hk => key k (sub k hk)
  have : b = true := h4.2 (by
    simp only [List.mem_cons, List.not_mem_nil, or_false, Prod.mk.injEq] at law
    rcases law with ⟨rfl, rfl⟩ | ⟨rfl, rfl⟩ | ⟨rfl, rfl⟩ | ⟨rfl, rfl⟩ | ⟨rfl, rfl⟩ | ⟨rfl, rfl⟩ | ⟨rfl, rfl⟩ | ⟨rfl, rfl⟩ |
      ⟨rfl, rfl⟩ <;> simp only [ZExp.fam]
    exacts [Set.union_assoc _ _ _, Set.union_comm _ _, Set.union_empty _, Set.union_self _, join_assoc _ _ _, join_comm _ _,
      join_base _, join_empty _, join_union _ _ _])
  subst this
  exact ⟨r, w1, r', w2, h1, h2, h3⟩

/-- **C86.** `f.setdiff(f.setdiff(g))` is the intersection of the families, for all handles (`intersect` is
not: C21). -/
theorem C86_intersection (hw : w.Reachable) {f g : Nat} {𝓕 𝓖 : Set (Set String)} (hf : w.Denotes f 𝓕)
    (hg : w.Denotes g 𝓖) :
    ∃ d w1 i w2, w.step (.setdiff f g) = some (.handle d, w1) ∧ w1.step (.setdiff f d) = some (.handle i, w2) ∧
      w2.Reachable ∧ w2.Denotes i (𝓕 ∩ 𝓖) := by
  obtain ⟨w1, h1, h2, h3, _, h4⟩ := C20_setdiff hw hf hg
  obtain ⟨w2, k1, k2, k3, _, _⟩ := C20_setdiff h2 (h4 _ _ hf) h3
  exact ⟨_, w1, _, w2, h1, k1, k2, by rw [← Set.sdiff_sdiff_right_self]; exact k3⟩

/-! ## Counts -/

/-- **C86.** The counts of a union and of the two differences: `|f ∪ g| = |f \ g| + |g|`, so
`|f ∪ g| ≤ |f| + |g|`, with equality iff the families are disjoint. -/
theorem C86_count_union (hw : w.Reachable) {f g : Nat} {𝓕 𝓖 : Set (Set String)} (hf : w.Denotes f 𝓕)
    (hg : w.Denotes g 𝓖) :
    ∃ u w1 d w2 nu nd nf ng, w.step (.union f g) = some (.handle u, w1) ∧ w1.step (.setdiff f g) = some (.handle d, w2) ∧
      w2.count [true] u = some nu ∧ w2.count [true] d = some nd ∧ w2.count [true] f = some nf ∧
      w2.count [true] g = some ng ∧ nu = nd + ng ∧ nu ≤ nf + ng ∧ (nu = nf + ng ↔ Disjoint 𝓕 𝓖) := by
  obtain ⟨w1, h1, h2, h3, _, h4⟩ := C20_union hw hf hg
  obtain ⟨w2, k1, k2, k3, _, k4⟩ := C20_setdiff h2 (h4 _ _ hf) (h4 _ _ hg)
  obtain ⟨fu, cu⟩ := C23_count k2 (k4 _ _ h3)
  obtain ⟨fd, cd⟩ := C23_count k2 k3
  obtain ⟨ff, cf⟩ := C23_count k2 (k4 _ _ (h4 _ _ hf))
  obtain ⟨fg, cg⟩ := C23_count k2 (k4 _ _ (h4 _ _ hg))
  have e1 : (𝓕 ∪ 𝓖).ncard = (𝓕 \ 𝓖).ncard + 𝓖.ncard := by
    rw [Set.ncard_sdiff_add_ncard _ _ ff fg]
  refine ⟨_, w1, _, w2, _, _, _, _, h1, k1, cu, cd, cf, cg, e1, Set.ncard_union_le _ _, ?_⟩
  rw [e1, Nat.add_right_cancel_iff]
  constructor
  · intro h
    have : 𝓕 \ 𝓖 = 𝓕 := Set.eq_of_subset_of_ncard_le Set.sdiff_subset h.ge ff
    exact Set.disjoint_left.2 fun S hS hS' => (this.symm.subset hS).2 hS'
  · intro h; rw [h.sdiff_eq_left]

/-- **C86.** A product has at most the product of the counts, and exactly that if different pairs have
different unions. -/
theorem C86_count_product (hw : w.Reachable) {f g : Nat} {𝓕 𝓖 : Set (Set String)} (hf : w.Denotes f 𝓕)
    (hg : w.Denotes g 𝓖) :
    ∃ p w1 np nf ng, w.step (.product f g) = some (.handle p, w1) ∧ w1.count [true] p = some np ∧
      w1.count [true] f = some nf ∧ w1.count [true] g = some ng ∧ np ≤ nf * ng ∧
      ((∀ A ∈ 𝓕, ∀ B ∈ 𝓖, ∀ A' ∈ 𝓕, ∀ B' ∈ 𝓖, A ∪ B = A' ∪ B' → A = A' ∧ B = B') → np = nf * ng) := by
  obtain ⟨w1, h1, h2, h3, _, h4⟩ := C20_product hw hf hg
  obtain ⟨fp, cp⟩ := C23_count h2 h3
  obtain ⟨ff, cf⟩ := C23_count h2 (h4 _ _ hf)
  obtain ⟨fg, cg⟩ := C23_count h2 (h4 _ _ hg)
  have he : join 𝓕 𝓖 = (fun p : Set String × Set String => p.1 ∪ p.2) '' (𝓕 ×ˢ 𝓖) := by
    ext S
    constructor
    · rintro ⟨A, hA, B, hB, rfl⟩; exact ⟨(A, B), ⟨hA, hB⟩, rfl⟩
    · rintro ⟨⟨A, B⟩, ⟨hA, hB⟩, rfl⟩; exact ⟨A, hA, B, hB, rfl⟩
  refine ⟨_, w1, _, _, _, h1, cp, cf, cg, ?_, fun hi => ?_⟩
  · rw [he, ← Set.ncard_prod]; exact Set.ncard_image_le (ff.prod fg)
  · rw [he, ← Set.ncard_prod]
    refine Set.InjOn.ncard_image ?_
    rintro ⟨A, B⟩ ⟨hA, hB⟩ ⟨A', B'⟩ ⟨hA', hB'⟩ e
    obtain ⟨rfl, rfl⟩ := hi A hA B hB A' hA' B' hB' e
    rfl

/-! ## Round trip -/

/-- **C86.** The lists that `extract` yields carry the family: `from_sets` of them gives an `eq` handle in the
same manager, and in any other manager, whatever its variables and their order, a handle for the same family. -/
theorem C86_roundtrip (hw : w.Reachable) {h : Nat} {𝓕 : Set (Set String)} (hD : w.Denotes h 𝓕) :
    ∃ st os, w.extract [true] h = some st ∧ Enum.Yields w.next st os ∧
      (∃ g w1, w.step (.fromSets os) = some (.handle g, w1) ∧ w1.step (.eq h g) = some (.bool true, w1)) ∧
      ∀ v : ZWorld, v.Reachable → ZGives v (.fromSets os) 𝓕 := by
  obtain ⟨st, os, h1, h2, _, h4, _⟩ := C23_extract hw hD
  have he : {S | ∃ l ∈ os, S = {x | x ∈ l}} = 𝓕 := Set.ext fun S => (h4 S).symm
  have all : ∀ v : ZWorld, v.Reachable → ZGives v (.fromSets os) 𝓕 := fun v hv => he ▸ C23_fromSets hv os
  refine ⟨st, os, h1, h2, ?_, all⟩
  obtain ⟨w1, k1, k2, k3, _, k4⟩ := all w hw
  obtain ⟨b, e1, e2⟩ := C24_eq k2 (k4 _ _ hD) k3
  obtain rfl : b = true := e2.2 rfl
  exact ⟨_, w1, k1, e1⟩

/-! ## Examples -/

/-- `{a}`, `{b, c}`, `{a, b}` in different orders; distribution and the intersection by differences. -/
example : (ZWorld.new.run [.fromSets [["a"], ["b", "c"]], .fromSets [["b", "c"], ["a", "b"]], .setdiff 0 1, .setdiff 0 2,
    .fromSets [["c", "b"]], .eq 3 4, .union 0 1, .product 4 5, .product 4 0, .product 4 1, .union 7 8, .eq 6 9, .eq 6 5]).map
      (fun p => (p.1.filter (fun o => match o with | .bool _ => true | _ => false), [0, 1, 2, 3, 5, 6].map (p.2.count [true]))) =
    some ([.bool true, .bool true, .bool false], [some 2, some 2, some 1, some 1, some 3, some 2]) := by decide +kernel

/-- Disjoint labels: the counts multiply. -/
example : (ZWorld.new.run [.fromSets [["a"], ["b"]], .fromSets [["c"], ["d"], []], .product 0 1]).map
    (fun p => [0, 1, 2].map (p.2.count [true])) = some [some 2, some 3, some 6] := by decide +kernel

example : let 𝓕 : Set (Set String) := {{"a"}, {"b"}}
    let 𝓖 : Set (Set String) := {{"c"}, {"d"}}
    ∀ A ∈ 𝓕, ∀ B ∈ 𝓖, ∀ A' ∈ 𝓕, ∀ B' ∈ 𝓖, A ∪ B = A' ∪ B' → A = A' ∧ B = B' := by
  rintro 𝓕 𝓖 A (rfl | rfl) B (rfl | rfl) A' (rfl | rfl) B' (rfl | rfl) h <;> first
    | exact ⟨rfl, rfl⟩
    | (exfalso
       have ha := Set.ext_iff.1 h "a"
       have hb := Set.ext_iff.1 h "b"
       have hc := Set.ext_iff.1 h "c"
       have hd := Set.ext_iff.1 h "d"
       simp at ha hb hc hd)

end DD.Props
