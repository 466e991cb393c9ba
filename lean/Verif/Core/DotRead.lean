import Mathlib.Logic.Function.Basic
import Verif.Core.Dot
import Verif.Core.SemZ

/-!
# Reading a picture

What a reader of the graph sees, without the forest; and that it is what the forest means.
-/

set_option autoImplicit false
set_option linter.unusedSectionVars false
set_option linter.unusedVariables false

namespace DD

/-- From node `i`, at every round node follow the arrow labelled with the state of the variable on the node; this leads
to a square labelled `l`. -/
inductive Follow (P : List DotLine) (ν : String → Nat) : Nat → String → Prop
  | leaf {i : Nat} {l : String} : DotLine.node i false l ∈ P → Follow P ν i l
  | arrow {i j : Nat} {x l : String} : DotLine.node i true x ∈ P → DotLine.edge i j (ν x) ∈ P → Follow P ν j l →
      Follow P ν i l

/-- Some path of arrows from node `i` leads to a square labelled `l`; `d` gives the labels of the arrows taken at the
variables met, and 0 for the others. -/
inductive PicPath (P : List DotLine) : Nat → (String → Nat) → String → Prop
  | leaf {i : Nat} {l : String} : DotLine.node i false l ∈ P → PicPath P i (fun _ => 0) l
  | arrow {i j k : Nat} {x l : String} {d : String → Nat} : DotLine.node i true x ∈ P → DotLine.edge i j k ∈ P →
      PicPath P j d l → PicPath P i (Function.update d x k) l

/-- The picture starts with the statement of node `i`. -/
def PicRoot (P : List DotLine) (i : Nat) : Prop := ∃ r l, P.head? = some (.node i r l)

theorem PicRoot.unique {P : List DotLine} {i j : Nat} (h : PicRoot P i) (h' : PicRoot P j) : i = j := by
  obtain ⟨_, _, h⟩ := h
  obtain ⟨_, _, h'⟩ := h'
  rw [h] at h'
  cases h'
  rfl

namespace Arena
variable {T : Type} [DecidableEq T] [Fixed T] {R' : List Nat → Prop} {m : Arena T} {st : DotStyle T}

theorem dotLines_root (wf : WF R' m) {i : Nat} (hi : m.Live i) {P : List DotLine} (h : m.dotLines st i = some P) :
    PicRoot P i := by
  obtain ⟨nd, hn⟩ := hi.node
  unfold dotLines at h
  rw [Option.map_eq_some_iff] at h
  obtain ⟨⟨ls, seen⟩, h, rfl⟩ := h
  cases nd with
  | term t =>
    simp only [dotImpl, hn, List.not_mem_nil, if_false, Option.some.injEq, Prod.mk.injEq] at h
    obtain ⟨rfl, _⟩ := h
    exact ⟨_, _, rfl⟩
  | nt hh ch =>
    obtain ⟨hd, hhd, _⟩ := wf.nt hi hn
    have hlab : m.label? i = some hd.label := by unfold label?; rw [hn]; simp [hhd]
    simp only [dotImpl, hn, List.not_mem_nil, if_false, hlab] at h
    split at h
    · cases h
    · cases h
      exact ⟨_, _, rfl⟩

section
variable {i : Nat} {P : List DotLine} (hP : ∀ x, x ∈ P ↔ ∃ j, Shown m st i j ∧ LineOf m st j x)
include hP

theorem line_leaf {j : Nat} {l : String} (h : DotLine.node j false l ∈ P) :
    ∃ t, m.nodes[j]? = some (.term t) ∧ l = st.label t := by
  obtain ⟨j', _, h2⟩ := (hP _).1 h
  cases h2 with
  | term g => exact ⟨_, g, rfl⟩

theorem line_round {j : Nat} {x : String} (h : DotLine.node j true x ∈ P) :
    ∃ hh ch hd, m.nodes[j]? = some (.nt hh ch) ∧ m.headers[hh]? = some hd ∧ x = hd.label := by
  obtain ⟨j', _, h2⟩ := (hP _).1 h
  cases h2 with
  | nt g g' => exact ⟨_, _, _, g, g', rfl⟩

theorem line_edge {j c k : Nat} (h : DotLine.edge j c k ∈ P) :
    ∃ hh ch, m.nodes[j]? = some (.nt hh ch) ∧ ch[k]? = some c ∧ m.Visible st c := by
  obtain ⟨j', _, h2⟩ := (hP _).1 h
  cases h2 with
  | edge h h' hv => exact ⟨_, _, h, h', hv⟩

/-- What a reader finds is the value of the node. -/
theorem follow_sound {ν : String → Nat} {a : Nat → Nat} (hν : ∀ hd ∈ m.headers, a hd.level = ν hd.label) {j : Nat}
    {l : String} (h : Follow P ν j l) :
    ∃ t, Eval m a j t ∧ l = st.label t ∧ (st.drawn t = true ∨ m.nodes[j]? = some (.term t)) := by
  induction h with
  | leaf h =>
    obtain ⟨t, h1, h2⟩ := line_leaf hP h
    exact ⟨t, .term h1, h2, .inr h1⟩
  | arrow h1 h2 _ ih =>
    obtain ⟨t, k1, k2, k3⟩ := ih
    obtain ⟨hh, ch, hd, g1, g2, rfl⟩ := line_round hP h1
    obtain ⟨_, _, g3, g4, g5⟩ := line_edge hP h2
    rw [g1] at g3; cases g3
    refine ⟨t, .nt g1 g2 (by rw [hν hd (List.mem_of_getElem? g2)]; exact g4) k1, k2, .inl ?_⟩
    rcases k3 with k3 | k3
    · exact k3
    · exact g5 t k3

/-- A reader finds every value that is drawn. -/
theorem follow_complete {ν : String → Nat} {a : Nat → Nat} (hν : ∀ hd ∈ m.headers, a hd.level = ν hd.label) {j : Nat}
    {t : T} (h : Eval m a j t) (hs : Shown m st i j) (hd : st.drawn t = true ∨ m.nodes[j]? = some (.term t)) :
    Follow P ν j (st.label t) := by
  induction h with
  | term hn => exact .leaf ((hP _).2 ⟨_, hs, .term hn⟩)
  | @nt j h ch hd' c t hn hh hc he ih =>
    have hdr : st.drawn t = true := by
      rcases hd with hd | hd
      · exact hd
      · rw [hn] at hd; cases hd
    have hv : m.Visible st c := by
      intro t' ht'
      cases he with
      | term h => rw [h] at ht'; cases ht'; exact hdr
      | nt h => rw [h] at ht'; cases ht'
    refine .arrow ((hP _).2 ⟨_, hs, .nt hn hh⟩) ((hP _).2 ⟨_, hs, .edge hn ?_ hv⟩)
      (ih (.step hs hn (List.mem_of_getElem? hc) hv) (.inl hdr))
    rw [← hν hd' (List.mem_of_getElem? hh)]
    exact hc

end

/-- The variables of levels, as `nm` names them, have in `d` the states that the levels have in `a`. -/
structure ByName (nm : Nat → Option String) (a : Nat → Nat) (d : String → Nat) : Prop where
  named : ∀ l x, nm l = some x → d x = a l
  other : ∀ x, (∀ l, nm l ≠ some x) → d x = 0
  unnamed : ∀ l, nm l = none → a l = 0

namespace ByName
variable {nm : Nat → Option String} {a a' : Nat → Nat} {d d' : String → Nat}

theorem zero : ByName nm (fun _ => 0) (fun _ => 0) := ⟨fun _ _ _ => rfl, fun _ _ => rfl, fun _ _ => rfl⟩

theorem update (hinj : ∀ l l' x, nm l = some x → nm l' = some x → l = l') (h : ByName nm a d) {l : Nat} {x : String}
    (hl : nm l = some x) (k : Nat) : ByName nm (upd a l k) (Function.update d x k) where
  named := by
    intro l' x' h'
    by_cases e : x' = x
    · subst e
      obtain rfl := hinj _ _ _ hl h'
      simp [upd]
    · have : l' ≠ l := by rintro rfl; rw [hl] at h'; cases h'; exact e rfl
      rw [Function.update_of_ne e]
      simp [upd, this, h.named l' x' h']
  other := by
    intro x' h'
    have : x' ≠ x := by rintro rfl; exact h' l hl
    rw [Function.update_of_ne this]
    exact h.other x' h'
  unnamed := by
    intro l' h'
    have : l' ≠ l := by rintro rfl; rw [hl] at h'; cases h'
    simp [upd, this, h.unnamed l' h']

theorem left (h : ByName nm a d) (h' : ByName nm a' d) : a = a' := by
  funext l
  cases hl : nm l with
  | none => rw [h.unnamed l hl, h'.unnamed l hl]
  | some x => rw [← h.named l x hl, ← h'.named l x hl]

theorem right (h : ByName nm a d) (h' : ByName nm a d') : d = d' := by
  funext x
  by_cases hx : ∃ l, nm l = some x
  · obtain ⟨l, hl⟩ := hx
    rw [h.named l x hl, h'.named l x hl]
  · have : ∀ l, nm l ≠ some x := fun l hl => hx ⟨l, hl⟩
    rw [h.other x this, h'.other x this]

end ByName

section
variable {i : Nat} {P : List DotLine} (hP : ∀ x, x ∈ P ↔ ∃ j, Shown m st i j ∧ LineOf m st j x)
  {nm : Nat → Option String} (hnm : ∀ hd ∈ m.headers, nm hd.level = some hd.label)
  (hinj : ∀ l l' x, nm l = some x → nm l' = some x → l = l')
include hP hnm hinj

theorem picPath_sound {j : Nat} {d : String → Nat} {l : String} (h : PicPath P j d l) :
    ∃ a t, ByName nm a d ∧ Lab m j a t ∧ l = st.label t ∧ (st.drawn t = true ∨ m.nodes[j]? = some (.term t)) := by
  induction h with
  | leaf h =>
    obtain ⟨t, h1, h2⟩ := line_leaf hP h
    exact ⟨_, t, .zero, .term h1, h2, .inr h1⟩
  | @arrow j c k x l d h1 h2 _ ih =>
    obtain ⟨a, t, k0, k1, k2, k3⟩ := ih
    obtain ⟨hh, ch, hd, g1, g2, rfl⟩ := line_round hP h1
    obtain ⟨_, _, g3, g4, g5⟩ := line_edge hP h2
    rw [g1] at g3; cases g3
    refine ⟨_, t, k0.update hinj (hnm hd (List.mem_of_getElem? g2)) k, .nt g1 g2 g4 k1, k2, .inl ?_⟩
    rcases k3 with k3 | k3
    · exact k3
    · exact g5 t k3

theorem picPath_complete {j : Nat} {a : Nat → Nat} {t : T} (h : Lab m j a t) (hs : Shown m st i j)
    (hd : st.drawn t = true ∨ m.nodes[j]? = some (.term t)) : ∃ d, ByName nm a d ∧ PicPath P j d (st.label t) := by
  induction h with
  | term hn => exact ⟨_, .zero, .leaf ((hP _).2 ⟨_, hs, .term hn⟩)⟩
  | @nt j h ch hd' k c a t hn hh hc he ih =>
    have hdr : st.drawn t = true := by
      rcases hd with hd | hd
      · exact hd
      · rw [hn] at hd; cases hd
    have hv : m.Visible st c := by
      intro t' ht'
      cases he with
      | term h => rw [h] at ht'; cases ht'; exact hdr
      | nt h => rw [h] at ht'; cases ht'
    obtain ⟨d, h1, h2⟩ := ih (.step hs hn (List.mem_of_getElem? hc) hv) (.inl hdr)
    exact ⟨_, h1.update hinj (hnm hd' (List.mem_of_getElem? hh)) k,
      .arrow ((hP _).2 ⟨_, hs, .nt hn hh⟩) ((hP _).2 ⟨_, hs, .edge hn hc hv⟩) h2⟩

end
end Arena
end DD

namespace DD

/-- Node `j` can be reached from `i` along arrows. -/
inductive PicReach (P : List DotLine) (i : Nat) : Nat → Prop
  | root : PicReach P i i
  | arrow {j c k : Nat} : PicReach P i j → DotLine.edge j c k ∈ P → PicReach P i c

/-- A well-made picture from `i`: it starts with the statement of `i`; every statement appears once; every node and
every arrow is reached from `i`; nodes have one statement, which arrows leading to them come with; arrows leave round
nodes only, and differ in their labels. -/
structure PicOK (P : List DotLine) (i : Nat) : Prop where
  root : PicRoot P i
  nodup : P.Nodup
  reachN : ∀ j r l, DotLine.node j r l ∈ P → PicReach P i j
  reachE : ∀ j c k, DotLine.edge j c k ∈ P → PicReach P i j
  one : ∀ j r l r' l', DotLine.node j r l ∈ P → DotLine.node j r' l' ∈ P → r = r' ∧ l = l'
  stated : ∀ j c k, DotLine.edge j c k ∈ P → ∃ r l, DotLine.node c r l ∈ P
  round : ∀ j c k, DotLine.edge j c k ∈ P → ∃ x, DotLine.node j true x ∈ P
  det : ∀ j c c' k, DotLine.edge j c k ∈ P → DotLine.edge j c' k ∈ P → c = c'

namespace Arena
variable {T : Type} [DecidableEq T] [Fixed T] {R' : List Nat → Prop} {m : Arena T} {st : DotStyle T}

theorem Shown.live (wf : WF R' m) {i j : Nat} (h : Shown m st i j) (hi : m.Live i) : m.Live j := by
  induction h with
  | root => exact hi
  | step _ hn hc _ ih =>
    obtain ⟨_, _, _, _, _, _, hk⟩ := wf.nt ih hn
    exact (hk _ hc).1

theorem node_stmt (wf : WF R' m) (st : DotStyle T) {j : Nat} (hj : m.Live j) : ∃ r l, LineOf m st j (.node j r l) := by
  obtain ⟨nd, hn⟩ := hj.node
  cases nd with
  | term t => exact ⟨_, _, .term hn⟩
  | nt h ch =>
    obtain ⟨hd, hh, _⟩ := wf.nt hj hn
    exact ⟨_, _, .nt hn hh⟩

theorem dotLines_pic (wf : WF R' m) (st : DotStyle T) {i : Nat} (hi : m.Live i) :
    ∃ P, m.dotLines st i = some P ∧ PicOK P i ∧ ∀ x, x ∈ P ↔ ∃ j, Shown m st i j ∧ LineOf m st j x := by
  obtain ⟨P, h1, h2, h3⟩ := dotLines_ok wf st hi
  have hreach : ∀ j, Shown m st i j → PicReach P i j := by
    intro j hj
    induction hj with
    | root => exact .root
    | step hs hn hc hv ih =>
      obtain ⟨k, hk⟩ := List.mem_iff_getElem?.1 hc
      exact .arrow ih ((h3 _).2 ⟨_, hs, .edge hn hk hv⟩)
  refine ⟨P, h1, ⟨dotLines_root wf hi h1, h2, ?_, ?_, ?_, ?_, ?_, ?_⟩, h3⟩
  · intro j r l h
    obtain ⟨j', g1, g2⟩ := (h3 _).1 h
    have : j = j' := g2.owner
    subst this
    exact hreach _ g1
  · intro j c k h
    obtain ⟨j', g1, g2⟩ := (h3 _).1 h
    have : j = j' := g2.owner
    subst this
    exact hreach _ g1
  · intro j r l r' l' h h'
    obtain ⟨j', _, g2⟩ := (h3 _).1 h
    obtain ⟨j'', _, g3⟩ := (h3 _).1 h'
    cases g2 with
    | term a =>
      cases g3 with
      | term b => rw [a] at b; cases b; exact ⟨rfl, rfl⟩
      | nt b => rw [a] at b; cases b
    | nt a a' =>
      cases g3 with
      | term b => rw [a] at b; cases b
      | nt b b' => rw [a] at b; cases b; rw [a'] at b'; cases b'; exact ⟨rfl, rfl⟩
  · intro j c k h
    obtain ⟨j', g1, g2⟩ := (h3 _).1 h
    cases g2 with
    | edge a b hv =>
      have hs := g1.step a (List.mem_of_getElem? b) hv
      obtain ⟨r, l, hl⟩ := node_stmt wf st (hs.live wf hi)
      exact ⟨r, l, (h3 _).2 ⟨_, hs, hl⟩⟩
  · intro j c k h
    obtain ⟨j', g1, g2⟩ := (h3 _).1 h
    cases g2 with
    | edge a b hv =>
      obtain ⟨hd, hh, _⟩ := wf.nt (g1.live wf hi) a
      exact ⟨_, (h3 _).2 ⟨_, g1, .nt a hh⟩⟩
  · intro j c c' k h h'
    obtain ⟨j', _, g2⟩ := (h3 _).1 h
    obtain ⟨j'', _, g3⟩ := (h3 _).1 h'
    cases g2 with
    | edge a b =>
      cases g3 with
      | edge a' b' => rw [a] at a'; cases a'; rw [b] at b'; cases b'; rfl

/-- Labels are names of variables or of terminals. -/
theorem lines_plain {i : Nat} {P : List DotLine} (hP : ∀ x, x ∈ P ↔ ∃ j, Shown m st i j ∧ LineOf m st j x)
    {Q : String → Prop} (ht : ∀ t, Q (st.label t)) (hh : ∀ hd ∈ m.headers, Q hd.label) :
    ∀ j r l, DotLine.node j r l ∈ P → Q l := by
  intro j r l h
  obtain ⟨_, _, g⟩ := (hP _).1 h
  cases g with
  | term _ => exact ht _
  | nt _ h' => exact hh _ (List.mem_of_getElem? h')

end Arena
end DD
