import Verif.Core.SemZ

/-!
# Diagrams read in distance-from-baseline coordinates

A coordinate vector `d` counts, per level, how far a state is from the baseline state: with `top = false` the
baseline is state 0 and `d` is the state vector itself; with `top = true` the baseline is the last state.
`LabC` reads a diagram as a labelled family (off-path levels at the baseline), `EvC` as a function.
-/

set_option autoImplicit false
set_option linter.unusedSectionVars false

namespace DD
namespace Arena

/-- Children by distance from the baseline. -/
def ord (top : Bool) {α : Type} (l : List α) : List α := if top then l.reverse else l

/-- Position of distance `k` in a list of `n` children. -/
def pos (top : Bool) (n k : Nat) : Nat := if top then n - 1 - k else k

/-- State vector of a coordinate vector, `β` = last state per level. -/
def crd (top : Bool) (β d : Nat → Nat) : Nat → Nat := if top then fun l => β l - d l else d

theorem ord_length (top : Bool) {α : Type} (l : List α) : (ord top l).length = l.length := by
  cases top <;> simp [ord]

theorem mem_ord {top : Bool} {α : Type} {l : List α} {x : α} : x ∈ ord top l ↔ x ∈ l := by
  cases top <;> simp [ord]

theorem ord_get {top : Bool} {α : Type} {l : List α} {k : Nat} (h : k < l.length) :
    (ord top l)[k]? = l[pos top l.length k]? := by
  cases top with
  | false => rfl
  | true => simp [ord, pos, List.getElem?_reverse h]

theorem pos_lt {top : Bool} {n k : Nat} (h : k < n) : pos top n k < n := by
  cases top <;> simp [pos] <;> omega

theorem ord_get_some {top : Bool} {α : Type} {l : List α} {k : Nat} {x : α}
    (h : (ord top l)[k]? = some x) : k < l.length ∧ l[pos top l.length k]? = some x := by
  have hk : k < l.length := by
    rw [← ord_length top]; exact (List.getElem?_eq_some_iff.1 h).1
  exact ⟨hk, by rw [← ord_get hk]; exact h⟩

variable {T : Type}

/-- Labelled-family reading in coordinates. -/
inductive LabC (top : Bool) (m : Arena T) : Nat → (Nat → Nat) → T → Prop
  | term {i : Nat} {t : T} : m.nodes[i]? = some (.term t) → LabC top m i (fun _ => 0) t
  | nt {i h : Nat} {ch : List Nat} {hd : Header} {k c : Nat} {a : Nat → Nat} {t : T} :
      m.nodes[i]? = some (.nt h ch) → m.headers[h]? = some hd →
      (ord top ch)[k]? = some c → LabC top m c a t → LabC top m i (upd a hd.level k) t

/-- Reading in coordinates. -/
def EvC (top : Bool) (β : Nat → Nat) (m : Arena T) (d : Nat → Nat) (i : Nat) (t : T) : Prop :=
  Eval m (crd top β d) i t

/-- `β` gives the last state of every variable. -/
def LastOf (β : Nat → Nat) (m : Arena T) : Prop := ∀ hd ∈ m.headers, β hd.level + 1 = hd.edgeNum

theorem LastOf.step {β : Nat → Nat} {m m' : Arena T} (h : LastOf β m) (st : Step m m') : LastOf β m' := by
  intro hd hm
  rw [st.heq] at hm
  exact h hd hm

variable {top : Bool} {β : Nat → Nat}

theorem labC_term_iff {m : Arena T} {a : Nat → Nat} {i : Nat} {t z : T}
    (hn : m.nodes[i]? = some (.term t)) : LabC top m i a z ↔ a = (fun _ => 0) ∧ z = t := by
  constructor
  · intro h
    cases h with
    | term hn' => rw [hn] at hn'; cases hn'; exact ⟨rfl, rfl⟩
    | nt hn' => rw [hn] at hn'; cases hn'
  · rintro ⟨rfl, rfl⟩; exact .term hn

theorem labC_false_iff {m : Arena T} {i : Nat} {a : Nat → Nat} {t : T} :
    LabC false m i a t ↔ Lab m i a t := by
  constructor
  · intro h
    induction h with
    | term hn => exact .term hn
    | nt hn hh hc _ ih => exact .nt hn hh hc ih
  · intro h
    induction h with
    | term hn => exact .term hn
    | nt hn hh hc _ ih => exact .nt hn hh hc ih

section
variable [DecidableEq T] [Fixed T] {R : List Nat → Prop} {m m' : Arena T}

theorem WF.ordKid (wf : WF R m) {i h k c : Nat} {ch : List Nat} {hd : Header} (hi : m.Live i)
    (hn : m.nodes[i]? = some (.nt h ch)) (hh : m.headers[h]? = some hd)
    (hc : (ord top ch)[k]? = some c) : m.Live c ∧ m.rank c ≤ hd.level ∧ k < hd.edgeNum := by
  obtain ⟨hd', hh', hl, hr, _, _, hk⟩ := wf.nt hi hn
  rw [hh] at hh'; cases hh'
  obtain ⟨h1, h2⟩ := hk c (mem_ord.1 (List.mem_of_getElem? hc))
  exact ⟨h1, h2, by rw [← hl]; exact (ord_get_some hc).1⟩

theorem WF.labC_supp (wf : WF R m) {i : Nat} {a : Nat → Nat} {t : T} (h : LabC top m i a t)
    (hi : m.Live i) : ∀ l, m.rank i ≤ l → a l = 0 := by
  induction h with
  | term => intro l _; rfl
  | @nt i h ch hd k c a t hn hh hc _ ih =>
    intro l hl
    obtain ⟨h1, h2, _⟩ := wf.ordKid hi hn hh hc
    have hr := rank_nt hn hh
    rw [upd_ne _ _ (by omega)]
    exact ih h1 l (by omega)

theorem WF.labC_nt_iff (wf : WF R m) {i h : Nat} {ch : List Nat} {hd : Header} {a : Nat → Nat} {z : T}
    (hi : m.Live i) (hn : m.nodes[i]? = some (.nt h ch)) (hh : m.headers[h]? = some hd) :
    LabC top m i a z ↔ ∃ c, (ord top ch)[a hd.level]? = some c ∧ LabC top m c (upd a hd.level 0) z := by
  constructor
  · intro he
    cases he with
    | term hn' => rw [hn] at hn'; cases hn'
    | @nt _ _ _ _ k c b _ hn' hh' hc he =>
      rw [hn] at hn'; cases hn'
      rw [hh] at hh'; cases hh'
      obtain ⟨h1, h2, _⟩ := wf.ordKid hi hn hh hc
      refine ⟨c, by rw [upd_self]; exact hc, ?_⟩
      rw [upd_upd, upd_id (wf.labC_supp he h1 _ h2)]
      exact he
  · rintro ⟨c, hc, he⟩
    have := LabC.nt hn hh hc he
    rwa [upd_upd, upd_id rfl] at this

theorem WF.labC_valid (wf : WF R m) {i : Nat} {a : Nat → Nat} {t : T} (h : LabC top m i a t)
    (hi : m.Live i) : m.ValidA a := by
  induction h with
  | term => intro hd hm; exact wf.pos hd hm
  | @nt i h ch hd k c a t hn hh hc _ ih =>
    obtain ⟨h1, h2, h3⟩ := wf.ordKid hi hn hh hc
    exact wf.valid_upd (ih h1) (List.mem_of_getElem? hh) h3

theorem WF.labC_det (wf : WF R m) : ∀ {i : Nat} {a : Nat → Nat} {t t' : T}, m.Live i →
    LabC top m i a t → LabC top m i a t' → t = t' := by
  intro i a t t' hi h h'
  induction h with
  | term hn => exact ((labC_term_iff hn).1 h').2.symm
  | @nt i h ch hd k c a t hn hh hc he ih =>
    obtain ⟨h1, h2, _⟩ := wf.ordKid hi hn hh hc
    obtain ⟨c', hc', he'⟩ := (wf.labC_nt_iff hi hn hh).1 h'
    rw [upd_self, hc] at hc'; cases hc'
    rw [upd_upd, upd_id (wf.labC_supp he h1 _ h2)] at he'
    exact ih h1 he'

theorem WF.labC_ext (wf : WF R m) (e : Ext m m') {a : Nat → Nat} {i : Nat} (hi : m.Live i) {t : T} :
    LabC top m' i a t ↔ LabC top m i a t := by
  constructor
  · intro h
    induction h with
    | @term i t hn =>
      rw [(e.keep i hi).2] at hn
      exact .term hn
    | @nt i h ch hd k c a t hn hh hc _ ih =>
      rw [(e.keep i hi).2] at hn
      obtain ⟨hd0, hh0, -, -, -, -, hk⟩ := wf.nt hi hn
      have := e.hdr _ _ hh0
      rw [hh] at this
      cases this
      exact .nt hn hh0 hc (ih (wf.ordKid hi hn hh0 hc).1)
  · intro h
    induction h with
    | @term i t hn =>
      exact .term (by rw [(e.keep i hi).2]; exact hn)
    | @nt i h ch hd k c a t hn hh hc _ ih =>
      exact .nt (by rw [(e.keep i hi).2]; exact hn) (e.hdr _ _ hh) hc
        (ih (wf.ordKid hi hn hh hc).1)

theorem WF.crd_valid (wf : WF R m) (hβ : LastOf β m) {d : Nat → Nat} (hd : m.ValidA d) :
    m.ValidA (crd top β d) := by
  cases top with
  | false => exact hd
  | true =>
    intro h hm
    have := hβ h hm
    show β h.level - d h.level < h.edgeNum
    omega

theorem WF.evC_ext (wf : WF R m) (e : Ext m m') {d : Nat → Nat} {i : Nat} (hi : m.Live i) {t : T} :
    EvC top β m' d i t ↔ EvC top β m d i t := wf.eval_ext e hi

theorem evC_det {d : Nat → Nat} {i : Nat} {t t' : T} (h : EvC top β m d i t)
    (h' : EvC top β m d i t') : t = t' := Eval.det h h'

theorem evC_term_iff {d : Nat → Nat} {i : Nat} {t z : T} (hn : m.nodes[i]? = some (.term t)) :
    EvC top β m d i z ↔ z = t := by
  unfold EvC
  exact eval_term_iff hn

theorem WF.evC_total (wf : WF R m) (hβ : LastOf β m) {d : Nat → Nat} (hd : m.ValidA d) {i : Nat}
    (hi : m.Live i) : ∃ t, EvC top β m d i t := wf.eval_total (wf.crd_valid hβ hd) hi

/-- Levels not below the node do not matter. -/
theorem WF.evC_upd (wf : WF R m) {d : Nat → Nat} {i l k : Nat} {t : T} (hi : m.Live i)
    (hl : m.rank i ≤ l) : EvC top β m (upd d l k) i t ↔ EvC top β m d i t := by
  unfold EvC
  refine wf.eval_congr_iff hi ?_
  intro x hx
  have : x ≠ l := by omega
  cases top <;> simp [crd, upd, this]

theorem WF.evC_nt_iff (wf : WF R m) (hβ : LastOf β m) {i h : Nat} {ch : List Nat} {hd : Header}
    {d : Nat → Nat} {z : T} (hv : m.ValidA d) (hi : m.Live i) (hn : m.nodes[i]? = some (.nt h ch))
    (hh : m.headers[h]? = some hd) :
    EvC top β m d i z ↔ ∃ c, (ord top ch)[d hd.level]? = some c ∧ EvC top β m (upd d hd.level 0) c z := by
  obtain ⟨hd', hh', hl, -⟩ := wf.nt hi hn
  rw [hh] at hh'; cases hh'
  have hmem := List.mem_of_getElem? hh
  have hlt := hv hd hmem
  have hb := hβ hd hmem
  have key : ch[crd top β d hd.level]? = (ord top ch)[d hd.level]? := by
    rw [ord_get (by omega)]
    cases top with
    | false => rfl
    | true =>
      show ch[β hd.level - d hd.level]? = ch[ch.length - 1 - d hd.level]?
      congr 1
      omega
  unfold EvC
  rw [eval_nt_iff hn hh, key]
  constructor
  · rintro ⟨c, hc, he⟩
    obtain ⟨h1, h2, _⟩ := wf.ordKid hi hn hh hc
    exact ⟨c, hc, (wf.evC_upd h1 h2).2 he⟩
  · rintro ⟨c, hc, he⟩
    obtain ⟨h1, h2, _⟩ := wf.ordKid hi hn hh hc
    exact ⟨c, hc, (wf.evC_upd h1 h2).1 he⟩

end
end Arena
end DD
