import Verif.Ev.Apply

/-!
# Canonicity of the edge-valued engine on finite functions
-/

set_option autoImplicit false
set_option linter.unusedVariables false
set_option linter.unusedSectionVars false

namespace DD
namespace Ev
open Arena
variable {s : Ev}

/-- The value of a node does not depend on its own level or higher ones. -/
theorem Eval.agree (I : Inv s) {a b : Nat → Nat} {i : Nat} {v : Option Int} (h : Eval s a i v)
    (hab : ∀ l, l < s.rank i → a l = b l) : Eval s b i v := by
  induction h with
  | omega h => exact .omega h
  | infinity h => exact .infinity h
  | @nt i h es hd e v h1 h2 h3 _ ih =>
    obtain ⟨hd', g⟩ := I.nt _ _ _ h1
    rw [g.hdr] at h2; cases h2
    have r := rank_nt h1 g.hdr
    refine .nt h1 g.hdr (by rw [← hab hd.level (by omega)]; exact h3) (ih ?_)
    intro l hl
    have := (g.kids e (mem_of_get h3)).2
    exact hab l (by omega)

theorem ValidA.upd (I : Inv s) {a : Nat → Nat} (ha : s.ValidA a) {h k : Nat} {hd : Header} (hh : s.headers[h]? = some hd)
    (hk : k < hd.edgeNum) : s.ValidA (upd a hd.level k) := by
  intro hd' hm
  obtain ⟨h', hh'⟩ := List.getElem?_of_mem hm
  by_cases hc : hd'.level = hd.level
  · have := I.lev _ _ _ _ hh hh' hc.symm
    subst this
    rw [hh] at hh'; cases hh'
    rw [upd_self]; exact hk
  · have : Arena.upd a hd.level k hd'.level = a hd'.level := by simp [Arena.upd, hc]
    rw [this]
    exact ha hd' hm

theorem Inv.someValid (I : Inv s) : s.ValidA (fun _ => 0) := fun hd hm => I.pos hd hm

/-- Finite at every valid assignment. -/
def FinN (s : Ev) (i : Nat) : Prop := ∀ a, s.ValidA a → ∃ v, Eval s a i (some v)

theorem Eval.nonneg (I : Inv s) {a : Nat → Nat} {i : Nat} {v : Option Int} (h : Eval s a i v) :
    ∀ x, v = some x → 0 ≤ x := by
  induction h with
  | omega h => rintro x ⟨⟩; exact Int.le_refl _
  | infinity h => intro x hx; cases hx
  | @nt i h es hd e v h1 h2 h3 _ ih =>
    intro x hx
    obtain ⟨hd', g⟩ := I.nt _ _ _ h1
    have := g.nonneg e (mem_of_get h3)
    cases v with
    | none => cases hx
    | some y =>
      have := ih y rfl
      simp only [Option.map_some, Option.some.injEq] at hx
      omega

/-- Following one edge. -/
theorem Inv.cofactor (I : Inv s) {i h k : Nat} {es : List EvEdge} {hd : Header} {e : EvEdge}
    (h1 : s.nodes[i]? = some (EvNode.nt h es)) (g : NtGood s h es hd) (hk : es[k]? = some e) {a : Nat → Nat}
    {w : Option Int} (hw : Eval s (Arena.upd a hd.level k) i w) : EVal s a e w := by
  obtain ⟨e', v, k1, k2, rfl⟩ := eval_nt h1 g.hdr hw
  rw [upd_self, hk] at k1
  cases k1
  refine ⟨v, k2.agree I ?_, rfl⟩
  intro l hl
  have := (g.kids e (mem_of_get hk)).2
  have hne : l ≠ hd.level := by omega
  simp [Arena.upd, hne]

theorem kid_lt {h k : Nat} {es : List EvEdge} {hd : Header} {e : EvEdge} (g : NtGood s h es hd) (hk : es[k]? = some e) :
    k < hd.edgeNum := by
  rw [← g.len]; exact lt_of_get hk

theorem Inv.kid_fin (I : Inv s) {i h k : Nat} {es : List EvEdge} {hd : Header} {e : EvEdge}
    (h1 : s.nodes[i]? = some (EvNode.nt h es)) (g : NtGood s h es hd) (hk : es[k]? = some e) (hf : FinN s i) :
    FinN s e.node := by
  intro a ha
  obtain ⟨v, hv⟩ := hf _ (ha.upd I g.hdr (kid_lt g hk))
  obtain ⟨u, h2, h3⟩ := I.cofactor h1 g hk hv
  cases u with
  | none => cases h3
  | some u => exact ⟨u, h2⟩

/-- A finite node has value 0 somewhere. -/
theorem Inv.attain (I : Inv s) : ∀ (n i : Nat), i < s.nodes.length → s.rank i ≤ n → FinN s i →
    ∃ a, s.ValidA a ∧ Eval s a i (some 0) := by
  intro n
  induction n with
  | zero =>
    intro i hi hr hf
    obtain ⟨x, hx⟩ := get_of_lt hi
    cases x with
    | omega => exact ⟨_, I.someValid, .omega hx⟩
    | infinity =>
      obtain ⟨v, hv⟩ := hf _ I.someValid
      cases hv.det (.infinity hx)
    | nt h es =>
      obtain ⟨hd, g⟩ := I.nt i h es hx
      rw [rank_nt hx g.hdr] at hr; omega
  | succ n ih =>
    intro i hi hr hf
    obtain ⟨x, hx⟩ := get_of_lt hi
    cases x with
    | omega => exact ⟨_, I.someValid, .omega hx⟩
    | infinity =>
      obtain ⟨v, hv⟩ := hf _ I.someValid
      cases hv.det (.infinity hx)
    | nt h es =>
      obtain ⟨hd, g⟩ := I.nt i h es hx
      rw [rank_nt hx g.hdr] at hr
      obtain ⟨e, he, hz⟩ := g.zero
      obtain ⟨k, hk⟩ := List.getElem?_of_mem he
      obtain ⟨k1, k2⟩ := g.kids e he
      obtain ⟨a, ha, hv⟩ := ih e.node k1 (by omega) (I.kid_fin hx g hk hf)
      refine ⟨Arena.upd a hd.level k, ha.upd I g.hdr (kid_lt g hk), ?_⟩
      have hv' : Eval s (Arena.upd a hd.level k) e.node (some 0) := by
        refine hv.agree I ?_
        intro l hl
        have hne : l ≠ hd.level := by omega
        simp [Arena.upd, hne]
      have := Eval.nt (a := Arena.upd a hd.level k) hx g.hdr (by rw [upd_self]; exact hk) hv'
      simpa [hz] using this

/-- The same function, finite everywhere. -/
def SameFin (s : Ev) (e e' : EvEdge) : Prop :=
  ∀ a, s.ValidA a → ∃ v, EVal s a e (some v) ∧ EVal s a e' (some v)

theorem SameFin.symm {e e' : EvEdge} (h : SameFin s e e') : SameFin s e' e := fun a ha => by
  obtain ⟨v, h1, h2⟩ := h a ha
  exact ⟨v, h2, h1⟩

theorem SameFin.fin {e e' : EvEdge} (h : SameFin s e e') : FinN s e.node := by
  intro a ha
  obtain ⟨v, ⟨u, h1, h2⟩, _⟩ := h a ha
  cases u with
  | none => cases h2
  | some u => exact ⟨u, h1⟩

theorem Inv.value_le (I : Inv s) {e e' : EvEdge} (l : e.node < s.nodes.length) (h : SameFin s e e') :
    e'.value ≤ e.value := by
  obtain ⟨a, ha, hv⟩ := I.attain _ e.node l (Nat.le_refl _) h.fin
  obtain ⟨v, ⟨u, h1, h2⟩, u', h3, h4⟩ := h a ha
  rw [h1.det hv] at h2
  cases u' with
  | none => cases h4
  | some x =>
    have := h3.nonneg I x rfl
    simp only [Option.map_some, Option.some.injEq] at h2 h4
    omega

/-- The nodes of two edges with the same finite function have the same function. -/
theorem Inv.same_nodes (I : Inv s) {e e' : EvEdge} (l : e.node < s.nodes.length) (l' : e'.node < s.nodes.length)
    (h : SameFin s e e') : e.value = e'.value ∧ SameFin s ⟨0, e.node⟩ ⟨0, e'.node⟩ := by
  have hv : e.value = e'.value := by
    have h1 := I.value_le l h
    have h2 := I.value_le l' h.symm
    omega
  refine ⟨hv, ?_⟩
  intro a ha
  obtain ⟨v, ⟨u, h1, h2⟩, u', h3, h4⟩ := h a ha
  cases u with
  | none => cases h2
  | some u =>
    cases u' with
    | none => cases h4
    | some u' =>
      simp only [Option.map_some, Option.some.injEq] at h2 h4
      have : u = u' := by omega
      subst this
      exact ⟨u, ⟨_, h1, by simp⟩, ⟨_, h3, by simp⟩⟩

/-- Edges of a finite node and of another node with the same function that is not below it. -/
theorem Inv.kids_same (I : Inv s) {i i' h k k' : Nat} {es : List EvEdge} {hd : Header} {e e' : EvEdge}
    (h1 : s.nodes[i]? = some (EvNode.nt h es)) (g : NtGood s h es hd) (hk : es[k]? = some e) (hk' : es[k']? = some e')
    (hr : s.rank i' ≤ hd.level) (hs : SameFin s ⟨0, i⟩ ⟨0, i'⟩) : SameFin s e e' := by
  intro a ha
  obtain ⟨v, ⟨u, p1, p2⟩, u', p3, p4⟩ := hs _ (ha.upd I g.hdr (kid_lt g hk))
  obtain ⟨w, ⟨t, q1, q2⟩, t', q3, q4⟩ := hs _ (ha.upd I g.hdr (kid_lt g hk'))
  have ind : ∀ j x, Eval s (Arena.upd a hd.level j) i' x → Eval s a i' x := by
    intro j x hx
    refine hx.agree I ?_
    intro l hl
    have hl' : l < s.rank i' := hl
    have hne : l ≠ hd.level := by omega
    simp [Arena.upd, hne]
  have e1 := (ind _ _ p3).det (ind _ _ q3)
  have c1 := I.cofactor h1 g hk p1
  have c2 := I.cofactor h1 g hk' q1
  have id : ∀ (x : Option Int), x.map ((0 : Int) + ·) = x := fun x => by cases x <;> simp
  simp only [id] at p2 p4 q2 q4
  subst p2 q2
  rw [← p4, ← q4] at e1
  rw [← e1] at c2
  exact ⟨v, c1, c2⟩

theorem Inv.canon (I : Inv s) : ∀ (n : Nat) (e e' : EvEdge), e.node < s.nodes.length → e'.node < s.nodes.length →
    s.rank e.node ≤ n → s.rank e'.node ≤ n → SameFin s e e' → e = e' := by
  intro n
  induction n with
  | zero =>
    intro e e' l l' r r' h
    obtain ⟨hv, hs⟩ := I.same_nodes l l' h
    have om : ∀ {i : Nat}, i < s.nodes.length → s.rank i ≤ 0 → FinN s i → i = 0 := by
      intro i li ri hf
      obtain ⟨x, hx⟩ := get_of_lt li
      cases x with
      | omega => exact I.om i hx
      | infinity =>
        obtain ⟨v, hv⟩ := hf _ I.someValid
        cases hv.det (.infinity hx)
      | nt h es =>
        obtain ⟨hd, g⟩ := I.nt i h es hx
        rw [rank_nt hx g.hdr] at ri; omega
    have a1 := om l r h.fin
    have a2 := om l' r' h.symm.fin
    cases e; cases e'
    simp only at *
    simp [hv, a1, a2]
  | succ n ih =>
    intro e e' l l' r r' h
    obtain ⟨hv, hs⟩ := I.same_nodes l l' h
    -- a node of rank `n + 1` has no equal below
    have low : ∀ {i i' : Nat}, i < s.nodes.length → s.rank i = n + 1 → s.rank i' ≤ n →
        SameFin s ⟨0, i⟩ ⟨0, i'⟩ → False := by
      intro i i' li ri ri' hs
      obtain ⟨x, hx⟩ := get_of_lt li
      cases x with
      | omega => rw [rank_omega hx] at ri; omega
      | infinity => rw [rank_infinity hx] at ri; omega
      | nt h es =>
        obtain ⟨hd, g⟩ := I.nt i h es hx
        have rr := rank_nt hx g.hdr
        apply g.diff
        intro x hx' y hy'
        obtain ⟨k, hk⟩ := List.getElem?_of_mem hx'
        obtain ⟨k', hk'⟩ := List.getElem?_of_mem hy'
        obtain ⟨m1, m2⟩ := g.kids x hx'
        obtain ⟨m3, m4⟩ := g.kids y hy'
        exact ih x y m1 m3 (by omega) (by omega) (I.kids_same hx g hk hk' (by omega) hs)
    suffices hn : e.node = e'.node by
      cases e; cases e'
      simp only at *
      simp [hv, hn]
    by_cases c : s.rank e.node ≤ n
    · by_cases c' : s.rank e'.node ≤ n
      · have := ih e e' l l' c c' h
        rw [this]
      · exact (low l' (by omega) c hs.symm).elim
    · by_cases c' : s.rank e'.node ≤ n
      · exact (low l (by omega) c' hs).elim
      · obtain ⟨x, hx⟩ := get_of_lt l
        obtain ⟨x', hx'⟩ := get_of_lt l'
        cases x with
        | omega => rw [rank_omega hx] at c; omega
        | infinity => rw [rank_infinity hx] at c; omega
        | nt h es =>
          cases x' with
          | omega => rw [rank_omega hx'] at c'; omega
          | infinity => rw [rank_infinity hx'] at c'; omega
          | nt h' es' =>
            obtain ⟨hd, g⟩ := I.nt _ h es hx
            obtain ⟨hd', g'⟩ := I.nt _ h' es' hx'
            have r1 := rank_nt hx g.hdr
            have r2 := rank_nt hx' g'.hdr
            have hh := I.lev _ _ _ _ g.hdr g'.hdr (by omega)
            subst hh
            have heq := g.hdr
            rw [g'.hdr] at heq
            cases heq
            have hes : es = es' := by
              apply List.ext_getElem?
              intro k
              by_cases hk : k < hd.edgeNum
              · obtain ⟨y, hy⟩ := get_of_lt (l := es) (i := k) (by rw [g.len]; exact hk)
                obtain ⟨y', hy'⟩ := get_of_lt (l := es') (i := k) (by rw [g'.len]; exact hk)
                obtain ⟨m1, m2⟩ := g.kids y (mem_of_get hy)
                obtain ⟨m3, m4⟩ := g'.kids y' (mem_of_get hy')
                rw [hy, hy', ih y y' m1 m3 (by omega) (by omega) ?_]
                intro a ha
                obtain ⟨v, ⟨u, p1, p2⟩, u', p3, p4⟩ := hs _ (ha.upd I g.hdr hk)
                have c1 := I.cofactor hx g hy p1
                have c2 := I.cofactor hx' g' hy' p3
                have id : ∀ (x : Option Int), x.map ((0 : Int) + ·) = x := fun x => by cases x <;> simp
                simp only [id] at p2 p4
                rw [← p2] at c1
                rw [← p4] at c2
                exact ⟨v, c1, c2⟩
              · rw [List.getElem?_eq_none (by rw [g.len]; omega), List.getElem?_eq_none (by rw [g'.len]; omega)]
            subst hes
            have u1 := (I.ut _ _ _).2 hx
            have u2 := (I.ut _ _ _).2 hx'
            rw [u1] at u2
            exact Option.some.inj u2

end Ev
end DD
