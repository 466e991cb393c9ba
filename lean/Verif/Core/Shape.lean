import Verif.Core.Gc

/-!
# The part of an arena under one node
-/

set_option autoImplicit false
set_option linter.unusedSectionVars false
set_option linter.unusedVariables false

namespace DD
namespace Arena

variable {T : Type} [DecidableEq T] [Fixed T]

/-- What a reader sees of a slot: its content, level and label. -/
structure Look (T : Type) where
  node : Option (Node T)
  level : Option Nat
  label : Option String

/-- What a reader sees of slot `j`. -/
def view (m : Arena T) (j : Nat) : Look T := ⟨m.nodes[j]?, m.level? j, m.label? j⟩

/-- Node `i` is live, and everything under it looks like `X`. -/
def Shape (m : Arena T) (i : Nat) (X : Nat → Look T) : Prop :=
  m.Live i ∧ ∀ j, Reach m i j → m.view j = X j

theorem shape_of_live {m : Arena T} {i : Nat} (h : m.Live i) : m.Shape i m.view := ⟨h, fun _ _ => rfl⟩

theorem Shape.node {m : Arena T} {i : Nat} {X : Nat → Look T} (h : m.Shape i X) {j : Nat} (hj : Reach m i j) :
    m.nodes[j]? = (X j).node := by rw [← h.2 j hj]; rfl

theorem Shape.reach {m m' : Arena T} {i : Nat} {X : Nat → Look T} (h : m.Shape i X) (h' : m'.Shape i X) {j : Nat}
    (hj : Reach m i j) : Reach m' i j := by
  induction hj with
  | refl => exact .refl _
  | step hr hn hc ih =>
    exact .step ih (by rw [h'.node ih, ← h.node hr]; exact hn) hc

/-- Two arenas with the same shape under `i` look the same there. -/
theorem Shape.view_eq {m m' : Arena T} {i : Nat} {X : Nat → Look T} (h : m.Shape i X) (h' : m'.Shape i X) {j : Nat}
    (hj : Reach m i j) : m'.view j = m.view j := by
  rw [h.2 j hj, h'.2 j (h.reach h' hj)]

theorem Shape.same {m m' : Arena T} {i : Nat} {X : Nat → Look T} (h : m.Shape i X) (h' : m'.Shape i X) {j : Nat}
    (hj : Reach m i j) : m'.nodes[j]? = m.nodes[j]? ∧ m'.level? j = m.level? j ∧ m'.label? j = m.label? j := by
  have := h.view_eq h' hj
  simp only [view, Look.mk.injEq] at this
  exact this

theorem WF.ext_view {R : List Nat → Prop} {m m' : Arena T} (wf : WF R m) (e : Ext m m') {j : Nat} (hj : m.Live j) :
    m'.view j = m.view j := by
  have h1 := (e.keep j hj).2
  obtain ⟨n, hn⟩ := hj.node
  have hn' : m'.nodes[j]? = some n := h1.trans hn
  cases n with
  | term t => simp only [view, level?, label?, hn, hn']
  | nt h ch =>
    obtain ⟨hd, h2, _⟩ := wf.nt hj hn
    have h3 := e.hdr _ _ h2
    simp only [view, level?, label?, hn, hn', h2, h3]

/-- Creating nodes and headers keeps what is there. -/
theorem Shape.ext {R : List Nat → Prop} {m m' : Arena T} (wf : WF R m) (e : Ext m m') {i : Nat} {X : Nat → Look T}
    (h : m.Shape i X) : m'.Shape i X := by
  have hr : ∀ j, Reach m' i j → Reach m i j := by
    intro j hj
    induction hj with
    | refl => exact .refl _
    | step _ hn hc ih =>
      exact .step ih (by rw [← (e.keep _ (wf.reach_live ih h.1)).2]; exact hn) hc
  refine ⟨(e.keep i h.1).1, fun j hj => ?_⟩
  rw [wf.ext_view e (wf.reach_live (hr j hj) h.1)]
  exact h.2 j (hr j hj)

/-- A collection keeps what is under a survivor. -/
theorem Shape.purge {m m' : Arena T} {i : Nat} {X : Nat → Look T} (h : m.Shape i X) (hl : m'.Live i)
    (hn : m'.nodes = m.nodes) (hh : m'.headers = m.headers) : m'.Shape i X := by
  have hr : ∀ j, Reach m' i j → Reach m i j := by
    intro j hj
    induction hj with
    | refl => exact .refl _
    | step _ hn' hc ih => exact .step ih (by rw [← hn]; exact hn') hc
  refine ⟨hl, fun j hj => ?_⟩
  rw [← h.2 j (hr j hj)]
  simp only [view, level?, label?, hn, hh]

end Arena
end DD
