import Verif.Core.Memo

/-!
# Two facts about the recursion shapes that need no invariant

`*_sub`: a run that returns is the same for a recursive call that returns more often.  `*_pres`: a property of the
state that the parts keep is kept.
-/

set_option autoImplicit false
set_option linter.unusedSectionVars false
set_option linter.unusedVariables false

namespace DD

theorem mapS_sub {S α β : Type} {f g : S → α → Option (β × S)} (h : ∀ s x r, f s x = some r → g s x = some r) :
    ∀ (l : List α) (s : S) (r : List β × S), mapS f s l = some r → mapS g s l = some r := by
  intro l
  induction l with
  | nil => intro s r h; exact h
  | cons x xs ih =>
    intro s r hr
    unfold mapS at hr ⊢
    split at hr
    · cases hr
    · rename_i y s1 h1
      rw [h _ _ _ h1]
      simp only
      split at hr
      · cases hr
      · rename_i ys s2 h2
        rw [ih _ _ h2]
        exact hr

theorem branchS_sub {S α : Type} {mk : S → Nat → List Nat → Option (Nat × S)} {f g : S → α → Option (Nat × S)}
    (h : ∀ s x r, f s x = some r → g s x = some r) {s : S} {hd : Nat} {l : List α} {r : Nat × S}
    (hr : branchS mk f s hd l = some r) : branchS mk g s hd l = some r := by
  unfold branchS at hr ⊢
  split at hr
  · cases hr
  · rename_i rs s1 h1
    rw [mapS_sub h _ _ _ h1]
    exact hr

theorem arms2_sub {S : Type} {mk : S → Nat → List Nat → Option (Nat × S)} {p q : S → Nat × Nat → Option (Nat × S)}
    (h : ∀ s x r, p s x = some r → q s x = some r) {s : S} {lf lg : Option Nat} {he f hf : Nat} {cf : List Nat}
    {g hg : Nat} {cg : List Nat} {r : Nat × S} (hr : arms2 mk p s lf lg he f hf cf g hg cg = some r) :
    arms2 mk q s lf lg he f hf cf g hg cg = some r := by
  unfold arms2 at hr ⊢
  split at hr
  · split at hr
    · rename_i h1; simp only [h1, if_true]; exact branchS_sub h hr
    · rename_i h1
      split at hr
      · rename_i h2; simp only [h1, h2, if_true, if_false]; exact branchS_sub h hr
      · rename_i h2; simp only [h1, h2, if_false]; exact branchS_sub h hr
  · cases hr

theorem memo_sub {S : Type} {get : S → Option Nat} {put : S → Nat → S} {body body' : S → Option (Nat × S)} {s : S}
    (h : ∀ q, body s = some q → body' s = some q) {r : Nat × S} (hr : memo get put body s = some r) :
    memo get put body' s = some r := by
  unfold memo at hr ⊢
  split
  · rename_i x hx; rw [hx] at hr; exact hr
  · rename_i hx
    rw [hx] at hr
    simp only at hr
    split at hr
    · cases hr
    · rename_i x s1 hb; rw [h _ hb]; exact hr

/-- The computation keeps the property `P` of the state. -/
def Pres {S α β : Type} (P : S → Prop) (f : S → α → Option (β × S)) : Prop :=
  ∀ s x r s', P s → f s x = some (r, s') → P s'

/-- The same for node creation. -/
def PresMk {S : Type} (P : S → Prop) (mk : S → Nat → List Nat → Option (Nat × S)) : Prop :=
  ∀ s h ch r s', P s → mk s h ch = some (r, s') → P s'

theorem mapS_pres {S α β : Type} {P : S → Prop} {f : S → α → Option (β × S)} (h : Pres P f) :
    ∀ (l : List α) (s : S) (r : List β) (s' : S), P s → mapS f s l = some (r, s') → P s' := by
  intro l
  induction l with
  | nil => intro s r s' hp hr; cases hr; exact hp
  | cons x xs ih =>
    intro s r s' hp hr
    unfold mapS at hr
    split at hr
    · cases hr
    · rename_i y s1 h1
      split at hr
      · cases hr
      · rename_i ys s2 h2
        cases hr
        exact ih _ _ _ (h _ _ _ _ hp h1) h2

theorem branchS_pres {S α : Type} {P : S → Prop} {mk : S → Nat → List Nat → Option (Nat × S)} (hm : PresMk P mk)
    {f : S → α → Option (Nat × S)} (h : Pres P f) {s s' : S} {hd r : Nat} {l : List α} (hp : P s)
    (hr : branchS mk f s hd l = some (r, s')) : P s' := by
  unfold branchS at hr
  split at hr
  · cases hr
  · rename_i rs s1 h1
    exact hm _ _ _ _ _ (mapS_pres h _ _ _ _ hp h1) hr

theorem arms2_pres {S : Type} {P : S → Prop} {mk : S → Nat → List Nat → Option (Nat × S)} (hm : PresMk P mk)
    {p : S → Nat × Nat → Option (Nat × S)} (h : Pres P p) {s s' : S} {lf lg : Option Nat} {he f hf : Nat}
    {cf : List Nat} {g hg : Nat} {cg : List Nat} {r : Nat} (hp : P s)
    (hr : arms2 mk p s lf lg he f hf cf g hg cg = some (r, s')) : P s' := by
  unfold arms2 at hr
  split at hr
  · split at hr
    · exact branchS_pres hm h hp hr
    · split at hr
      · exact branchS_pres hm h hp hr
      · exact branchS_pres hm h hp hr
  · cases hr

theorem memo_pres {S : Type} {P : S → Prop} {get : S → Option Nat} {put : S → Nat → S}
    (hput : ∀ s r, P s → P (put s r)) {body : S → Option (Nat × S)} {s s' : S} {r : Nat} (hp : P s)
    (hb : ∀ r s', body s = some (r, s') → P s') (hr : memo get put body s = some (r, s')) : P s' := by
  unfold memo at hr
  split at hr
  · cases hr; exact hp
  · split at hr
    · cases hr
    · rename_i x s1 h1
      cases hr
      exact hput _ _ (hb _ _ h1)

end DD
