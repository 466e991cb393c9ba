import Verif.Core.Fold
import Mathlib.Data.List.Forall2

/-!
# The same pass over two types of numbers

A memoised pass that only uses the operations of its type of numbers gives related results for related
inputs.  Used for the generic parameter `T` of `prob` and `bmeas`.
-/

set_option autoImplicit false
set_option linter.unusedSectionVars false

namespace DD

/-- The maps have the same keys, with related values. -/
def MapRel {K V V' : Type} [DecidableEq K] (γ : V → V' → Prop) (c : AMap K V) (c' : AMap K V') : Prop :=
  ∀ k, Option.Rel γ (c.get k) (c'.get k)

section
variable {K V V' : Type} [DecidableEq K] {γ : V → V' → Prop}

theorem MapRel.empty : MapRel γ (AMap.empty : AMap K V) (AMap.empty : AMap K V') := fun _ => Option.Rel.none

theorem MapRel.insert {c : AMap K V} {c' : AMap K V'} (h : MapRel γ c c') (k : K) {v : V} {v' : V'}
    (hv : γ v v') : MapRel γ (c.insert k v) (c'.insert k v') := by
  intro j
  rw [AMap.get_insert, AMap.get_insert]
  split
  · exact Option.Rel.some hv
  · exact h j

theorem rel_getD {a : Option V} {b : Option V'} (h : Option.Rel γ a b) {d : V} {d' : V'} (hd : γ d d') :
    γ (a.getD d) (b.getD d') := by
  cases h with
  | some h => exact h
  | none => exact hd

/-- Related options after a step on each that keeps them related. -/
theorem rel_map {W W' : Type} {δ : W → W' → Prop} {a : Option V} {b : Option V'} (h : Option.Rel γ a b)
    {f : V → W} {g : V' → W'} (hf : ∀ x y, γ x y → δ (f x) (g y)) : Option.Rel δ (a.map f) (b.map g) := by
  cases h with
  | some h => exact Option.Rel.some (hf _ _ h)
  | none => exact Option.Rel.none

theorem rel_imp {δ : V → V' → Prop} {a : Option V} {b : Option V'} (h : Option.Rel γ a b)
    (hd : ∀ x y, γ x y → δ x y) : Option.Rel δ a b := by
  cases h with
  | some h => exact Option.Rel.some (hd _ _ h)
  | none => exact Option.Rel.none

theorem rel_getElem? {l : List V} {l' : List V'} (h : List.Forall₂ γ l l') (i : Nat) :
    Option.Rel γ l[i]? l'[i]? := by
  induction h generalizing i with
  | nil => exact Option.Rel.none
  | cons h _ ih =>
    cases i with
    | zero => exact Option.Rel.some h
    | succ i => exact ih i

end

section
variable {V V' : Type} {γ : V → V' → Prop}

/-- A result with its memo. -/
def OutRel (γ : V → V' → Prop) (p : V × AMap Nat V) (q : V' × AMap Nat V') : Prop :=
  γ p.1 q.1 ∧ MapRel γ p.2 q.2

theorem foldKids_rel {f : Nat → AMap Nat V → Option (V × AMap Nat V)}
    {g : Nat → AMap Nat V' → Option (V' × AMap Nat V')}
    (hfg : ∀ i c c', MapRel γ c c' → Option.Rel (OutRel γ) (f i c) (g i c')) (as : List Nat) :
    ∀ c c', MapRel γ c c' → Option.Rel (fun p q => List.Forall₂ γ p.1 q.1 ∧ MapRel γ p.2 q.2)
      (foldKids f as c) (foldKids g as c') := by
  induction as with
  | nil => exact fun c c' h => Option.Rel.some ⟨List.Forall₂.nil, h⟩
  | cons a as ih =>
    intro c c' h
    have h1 := hfg a c c' h
    simp only [foldKids]
    revert h1
    cases f a c <;> cases g a c' <;> intro h1 <;> cases h1
    · exact Option.Rel.none
    · rename_i p q hr
      have h2 := ih p.2 q.2 hr.2
      simp only
      revert h2
      cases foldKids f as p.2 <;> cases foldKids g as q.2 <;> intro h2 <;> cases h2
      · exact Option.Rel.none
      · rename_i h2
        exact Option.Rel.some ⟨List.Forall₂.cons hr.1 h2.1, h2.2⟩

theorem zip_rel {rs : List V} {rs' : List V'} (h : List.Forall₂ γ rs rs') (ch : List Nat) :
    List.Forall₂ (fun (p : Nat × V) (q : Nat × V') => p.1 = q.1 ∧ γ p.2 q.2) (ch.zip rs) (ch.zip rs') := by
  induction h generalizing ch with
  | nil => simp
  | cons h _ ih =>
    cases ch with
    | nil => simp
    | cons c ch => exact List.Forall₂.cons ⟨rfl, h⟩ (ih ch)

theorem Arena.memoFold_rel {T : Type} [DecidableEq T] [Fixed T] (m : Arena T) {leaf : T → Option V}
    {leaf' : T → Option V'} {comb : Nat → Nat → List (Nat × V) → Option V}
    {comb' : Nat → Nat → List (Nat × V') → Option V'}
    (hl : ∀ t, Option.Rel γ (leaf t) (leaf' t))
    (hc : ∀ i h l l', List.Forall₂ (fun (p : Nat × V) (q : Nat × V') => p.1 = q.1 ∧ γ p.2 q.2) l l' →
      Option.Rel γ (comb i h l) (comb' i h l')) (n : Nat) :
    ∀ i c c', MapRel γ c c' →
      Option.Rel (OutRel γ) (m.memoFold leaf comb n i c) (m.memoFold leaf' comb' n i c') := by
  induction n with
  | zero => exact fun _ _ _ _ => Option.Rel.none
  | succ n ih =>
    intro i c c' h
    have h0 := h i
    simp only [Arena.memoFold]
    revert h0
    cases c.get i <;> cases c'.get i <;> intro h0 <;> cases h0
    · simp only
      cases m.nodes[i]? with
      | none => exact Option.Rel.none
      | some nd =>
        cases nd with
        | term t =>
          have h1 := hl t
          simp only
          revert h1
          cases leaf t <;> cases leaf' t <;> intro h1 <;> cases h1
          · exact Option.Rel.none
          · rename_i h1
            exact Option.Rel.some ⟨h1, h.insert i h1⟩
        | nt hd ch =>
          have h1 := foldKids_rel ih ch c c' h
          simp only
          revert h1
          cases foldKids (m.memoFold leaf comb n) ch c <;> cases foldKids (m.memoFold leaf' comb' n) ch c' <;>
            intro h1 <;> cases h1
          · exact Option.Rel.none
          · rename_i p q h1
            have h2 := hc i hd _ _ (zip_rel h1.1 ch)
            simp only
            revert h2
            cases comb i hd (ch.zip p.1) <;> cases comb' i hd (ch.zip q.1) <;> intro h2 <;> cases h2
            · exact Option.Rel.none
            · rename_i h2
              exact Option.Rel.some ⟨h2, h1.2.insert i h2⟩
    · rename_i h0
      exact Option.Rel.some ⟨h0, h⟩

end

/-! ## A relation that depends on the node -/

section
variable {V V' : Type} {γ : Nat → V → V' → Prop}

/-- The memos have the same keys, with values related at their node. -/
def MemoRel (γ : Nat → V → V' → Prop) (c : AMap Nat V) (c' : AMap Nat V') : Prop :=
  ∀ k, Option.Rel (γ k) (c.get k) (c'.get k)

theorem MemoRel.empty : MemoRel γ AMap.empty AMap.empty := fun _ => Option.Rel.none

theorem MemoRel.insert {c : AMap Nat V} {c' : AMap Nat V'} (h : MemoRel γ c c') (k : Nat) {v : V} {v' : V'}
    (hv : γ k v v') : MemoRel γ (c.insert k v) (c'.insert k v') := by
  intro j
  rw [AMap.get_insert, AMap.get_insert]
  split
  · subst_vars; exact Option.Rel.some hv
  · exact h j

theorem foldKids_memoRel {f : Nat → AMap Nat V → Option (V × AMap Nat V)}
    {g : Nat → AMap Nat V' → Option (V' × AMap Nat V')} (as : List Nat)
    (hfg : ∀ i ∈ as, ∀ c c', MemoRel γ c c' →
      Option.Rel (fun p q => γ i p.1 q.1 ∧ MemoRel γ p.2 q.2) (f i c) (g i c')) :
    ∀ c c', MemoRel γ c c' → Option.Rel (fun p q =>
      List.Forall₂ (fun (p : Nat × V) (q : Nat × V') => p.1 = q.1 ∧ γ p.1 p.2 q.2) (as.zip p.1) (as.zip q.1) ∧
        p.1.length = as.length ∧ q.1.length = as.length ∧ MemoRel γ p.2 q.2)
      (foldKids f as c) (foldKids g as c') := by
  induction as with
  | nil => exact fun c c' h => Option.Rel.some ⟨List.Forall₂.nil, rfl, rfl, h⟩
  | cons a as ih =>
    intro c c' h
    have h1 := hfg a List.mem_cons_self c c' h
    simp only [foldKids]
    revert h1
    cases f a c <;> cases g a c' <;> intro h1 <;> cases h1
    · exact Option.Rel.none
    · rename_i p q hr
      have h2 := ih (fun i hi => hfg i (List.mem_cons_of_mem _ hi)) p.2 q.2 hr.2
      simp only
      revert h2
      cases foldKids f as p.2 <;> cases foldKids g as q.2 <;> intro h2 <;> cases h2
      · exact Option.Rel.none
      · rename_i h2
        exact Option.Rel.some ⟨List.Forall₂.cons ⟨rfl, hr.1⟩ h2.1, by simp [h2.2.1], by simp [h2.2.2.1], h2.2.2.2⟩

/-- The same pass over two types of numbers, with a relation that depends on the node, for the nodes in
a kid-closed set `Q`. -/
theorem Arena.memoFold_memoRel {T : Type} [DecidableEq T] [Fixed T] {m : Arena T} {Q : Nat → Prop}
    (kids : ∀ i h ch, Q i → m.nodes[i]? = some (.nt h ch) → ∀ c ∈ ch, Q c) {leaf : T → Option V}
    {leaf' : T → Option V'} {comb : Nat → Nat → List (Nat × V) → Option V}
    {comb' : Nat → Nat → List (Nat × V') → Option V'}
    (hl : ∀ i t, m.nodes[i]? = some (.term t) → Option.Rel (γ i) (leaf t) (leaf' t))
    (hc : ∀ i h ch l l', Q i → m.nodes[i]? = some (.nt h ch) → l.map (·.1) = ch →
      List.Forall₂ (fun (p : Nat × V) (q : Nat × V') => p.1 = q.1 ∧ γ p.1 p.2 q.2) l l' →
      Option.Rel (γ i) (comb i h l) (comb' i h l')) (n : Nat) :
    ∀ i c c', Q i → MemoRel γ c c' →
      Option.Rel (fun p q => γ i p.1 q.1 ∧ MemoRel γ p.2 q.2)
        (m.memoFold leaf comb n i c) (m.memoFold leaf' comb' n i c') := by
  induction n with
  | zero => exact fun _ _ _ _ _ => Option.Rel.none
  | succ n ih =>
    intro i c c' hi h
    have h0 := h i
    simp only [Arena.memoFold]
    revert h0
    cases c.get i <;> cases c'.get i <;> intro h0 <;> cases h0
    · simp only
      cases hn : m.nodes[i]? with
      | none => exact Option.Rel.none
      | some nd =>
        cases nd with
        | term t =>
          have h1 := hl i t hn
          simp only
          revert h1
          cases leaf t <;> cases leaf' t <;> intro h1 <;> cases h1
          · exact Option.Rel.none
          · rename_i h1
            exact Option.Rel.some ⟨h1, h.insert i h1⟩
        | nt hd ch =>
          have h1 := foldKids_memoRel (γ := γ) ch (fun j hj c c' hcc => ih j c c' (kids i hd ch hi hn j hj) hcc) c c' h
          simp only
          revert h1
          cases foldKids (m.memoFold leaf comb n) ch c <;> cases foldKids (m.memoFold leaf' comb' n) ch c' <;>
            intro h1 <;> cases h1
          · exact Option.Rel.none
          · rename_i p q h1
            have h2 := hc i hd ch _ _ hi hn (by rw [List.map_fst_zip (by omega)]) h1.1
            simp only
            revert h2
            cases comb i hd (ch.zip p.1) <;> cases comb' i hd (ch.zip q.1) <;> intro h2 <;> cases h2
            · exact Option.Rel.none
            · rename_i h2
              exact Option.Rel.some ⟨h2, h1.2.2.2.insert i h2⟩
    · rename_i h0
      exact Option.Rel.some ⟨h0, h⟩

end

end DD
