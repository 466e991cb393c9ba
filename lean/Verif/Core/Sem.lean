import Verif.Core.Arena

/-!
# Reading a diagram

`Eval m a i t`: following, from node `i`, the child selected by the assignment `a` (level ↦ state
number) at each non-terminal leads to a terminal carrying `t`.  This is the meaning of a diagram for
the fully reduced engines (BDD, MDD, MTMDD) and is independent of how the engine builds nodes.
-/

set_option autoImplicit false

namespace DD
namespace Arena

variable {T : Type}

/-- Reading of a node at an assignment (skipped levels are "don't care"). -/
inductive Eval (m : Arena T) (a : Nat → Nat) : Nat → T → Prop
  | term {i : Nat} {t : T} : m.nodes[i]? = some (.term t) → Eval m a i t
  | nt {i h : Nat} {ch : List Nat} {hd : Header} {c : Nat} {t : T} :
      m.nodes[i]? = some (.nt h ch) → m.headers[h]? = some hd →
      ch[a hd.level]? = some c → Eval m a c t → Eval m a i t

/-- The assignment respects the range of every variable of the forest. -/
def ValidA (m : Arena T) (a : Nat → Nat) : Prop := ∀ hd ∈ m.headers, a hd.level < hd.edgeNum

/-- Every value read at `r` satisfies `Φ`. -/
def Sound (m : Arena T) (Φ : (Nat → Nat) → T → Prop) (r : Nat) : Prop :=
  ∀ a, m.ValidA a → ∀ z, Eval m a r z → Φ a z

/-- Reduction rule of the fully reduced engines: no node whose children are all the same. -/
def RFull (ch : List Nat) : Prop := ¬ ∃ x, ∀ c ∈ ch, c = x

/-- Distinct headers have distinct levels (true of headers made by `defvar`). -/
def LevInj (m : Arena T) : Prop :=
  ∀ (h h' : Nat) (hd hd' : Header), m.headers[h]? = some hd → m.headers[h']? = some hd' →
    hd.level = hd'.level → h = h'

theorem Eval.det {m : Arena T} {a : Nat → Nat} {i : Nat} {t t' : T}
    (h : Eval m a i t) (h' : Eval m a i t') : t = t' := by
  induction h with
  | term hn =>
    cases h' with
    | term hn' => rw [hn] at hn'; cases hn'; rfl
    | nt hn' _ _ _ => rw [hn] at hn'; cases hn'
  | nt hn hh hc _ ih =>
    cases h' with
    | term hn' => rw [hn] at hn'; cases hn'
    | nt hn' hh' hc' he' =>
      rw [hn] at hn'; cases hn'
      rw [hh] at hh'; cases hh'
      rw [hc] at hc'; cases hc'
      exact ih he'

theorem eval_term_iff {m : Arena T} {a : Nat → Nat} {i : Nat} {t z : T}
    (hn : m.nodes[i]? = some (.term t)) : Eval m a i z ↔ z = t := by
  constructor
  · intro h; exact h.det (.term hn)
  · rintro rfl; exact .term hn

theorem eval_nt_iff {m : Arena T} {a : Nat → Nat} {i h : Nat} {ch : List Nat} {hd : Header} {z : T}
    (hn : m.nodes[i]? = some (.nt h ch)) (hh : m.headers[h]? = some hd) :
    Eval m a i z ↔ ∃ c, ch[a hd.level]? = some c ∧ Eval m a c z := by
  constructor
  · intro he
    cases he with
    | term hn' => rw [hn] at hn'; cases hn'
    | nt hn' hh' hc he =>
      rw [hn] at hn'; cases hn'
      rw [hh] at hh'; cases hh'
      exact ⟨_, hc, he⟩
  · rintro ⟨c, hc, he⟩
    exact .nt hn hh hc he

theorem ValidA.ext {m m' : Arena T} (e : Ext m m') {a : Nat → Nat} (h : m'.ValidA a) :
    m.ValidA a := by
  intro hd hm
  obtain ⟨k, hk⟩ := List.mem_iff_getElem?.1 hm
  exact h hd (List.mem_of_getElem? (e.hdr k hd hk))

theorem ValidA.step {m m' : Arena T} (e : Step m m') {a : Nat → Nat} : m'.ValidA a ↔ m.ValidA a := by
  unfold ValidA; rw [e.heq]

section
variable [DecidableEq T] [Fixed T] {R : List Nat → Prop} {m m' : Arena T}

theorem WF.eval_ext (wf : WF R m) (e : Ext m m') {a : Nat → Nat} {i : Nat} (hi : m.Live i) {t : T} :
    Eval m' a i t ↔ Eval m a i t := by
  constructor
  · intro h
    induction h with
    | @term i t hn =>
      rw [(e.keep i hi).2] at hn
      exact .term hn
    | @nt i h ch hd c t hn hh hc _ ih =>
      rw [(e.keep i hi).2] at hn
      obtain ⟨hd0, hh0, -, -, -, -, hk⟩ := wf.nt hi hn
      have := e.hdr _ _ hh0
      rw [hh] at this
      cases this
      exact .nt hn hh0 hc (ih (hk c (List.mem_of_getElem? hc)).1)
  · intro h
    induction h with
    | @term i t hn =>
      exact .term (by rw [(e.keep i hi).2]; exact hn)
    | @nt i h ch hd c t hn hh hc _ ih =>
      obtain ⟨hd0, hh0, -, -, -, -, hk⟩ := wf.nt hi hn
      exact .nt (by rw [(e.keep i hi).2]; exact hn) (e.hdr _ _ hh) hc
        (ih (hk c (List.mem_of_getElem? hc)).1)

/-- Every live node has a value at every valid assignment. -/
theorem WF.eval_total (wf : WF R m) {a : Nat → Nat} (ha : m.ValidA a) :
    ∀ {i : Nat}, m.Live i → ∃ t, Eval m a i t := by
  have key : ∀ n i, m.rank i ≤ n → m.Live i → ∃ t, Eval m a i t := by
    intro n
    induction n with
    | zero =>
      intro i hr hi
      obtain ⟨nd, hn⟩ := hi.node
      cases nd with
      | term t => exact ⟨t, .term hn⟩
      | nt h ch =>
        obtain ⟨hd, _, _, hr', _⟩ := wf.nt hi hn
        omega
    | succ n ih =>
      intro i hr hi
      obtain ⟨nd, hn⟩ := hi.node
      cases nd with
      | term t => exact ⟨t, .term hn⟩
      | nt h ch =>
        obtain ⟨hd, hh, hl, hr', _, _, hk⟩ := wf.nt hi hn
        have hlt : a hd.level < ch.length := by
          rw [hl]; exact ha hd (List.mem_of_getElem? hh)
        have hc := List.getElem?_eq_getElem hlt
        obtain ⟨h1, h2⟩ := hk _ (List.mem_of_getElem? hc)
        obtain ⟨t, ht⟩ := ih _ (by omega) h1
        exact ⟨t, .nt hn hh hc ht⟩
  intro i hi
  exact key _ i (Nat.le_refl _) hi

/-- The value depends on the assignment only at levels below the node's rank. -/
theorem WF.eval_congr (wf : WF R m) {a b : Nat → Nat} {i : Nat} (hi : m.Live i)
    (h : ∀ l, l < m.rank i → a l = b l) {t : T} (he : Eval m a i t) : Eval m b i t := by
  induction he with
  | term hn => exact .term hn
  | @nt i hh0 ch hd c t hn hh hc _ ih =>
    obtain ⟨hd', hh', _, hr, _, _, hk⟩ := wf.nt hi hn
    rw [hh] at hh'; cases hh'
    obtain ⟨h1, h2⟩ := hk c (List.mem_of_getElem? hc)
    refine .nt hn hh ?_ (ih h1 (fun l hl => h l (by omega)))
    rw [← h hd.level (by omega)]
    exact hc

theorem WF.eval_congr_iff (wf : WF R m) {a b : Nat → Nat} {i : Nat} (hi : m.Live i)
    (h : ∀ l, l < m.rank i → a l = b l) {t : T} : Eval m a i t ↔ Eval m b i t :=
  ⟨wf.eval_congr hi h, wf.eval_congr hi (fun l hl => (h l hl).symm)⟩

theorem WF.sound_ext (wf : WF R m) (e : Ext m m') {Φ : (Nat → Nat) → T → Prop} {r : Nat}
    (hr : m.Live r) (h : m.Sound Φ r) : m'.Sound Φ r :=
  fun a ha z hz => h a (ha.ext e) z ((wf.eval_ext e hr).1 hz)

/-- Change one coordinate. -/
def upd (a : Nat → Nat) (l k : Nat) : Nat → Nat := fun x => if x = l then k else a x

omit [DecidableEq T] [Fixed T] in
@[simp] theorem upd_self (a : Nat → Nat) (l k : Nat) : upd a l k l = k := by simp [upd]

omit [DecidableEq T] [Fixed T] in
theorem upd_ne (a : Nat → Nat) {l x : Nat} (k : Nat) (h : x ≠ l) : upd a l k x = a x := by
  simp [upd, h]

theorem WF.valid_upd (wf : WF R m) {a : Nat → Nat} (ha : m.ValidA a) {hd : Header}
    (hm : hd ∈ m.headers) {k : Nat} (hk : k < hd.edgeNum) : m.ValidA (upd a hd.level k) := by
  intro hd' hm'
  by_cases h : hd'.level = hd.level
  · rw [h, upd_self, wf.arity hd' hm' hd hm h]; exact hk
  · rw [upd_ne _ _ h]; exact ha hd' hm'

theorem WF.valid_zero (wf : WF R m) : m.ValidA (fun _ => 0) := fun hd hm => wf.pos hd hm

/-- Structural description of `createFull`. -/
theorem createFull_raw (wf : WF RFull m) {h : Nat} {ch : List Nat} (g : GoodKids m h ch) :
    ∃ r m', m.createFull h ch = some (r, m') ∧ WF RFull m' ∧ Step m m' ∧ m'.Live r ∧
      (((∀ x ∈ ch, x = r) ∧ r ∈ ch ∧ m' = m) ∨
        (RFull ch ∧ m'.nodes[r]? = some (.nt h ch))) ∧ (m.Live r → m' = m) := by
  obtain ⟨hd, hh, hl, hk⟩ := g
  have hpos := wf.pos hd (List.mem_of_getElem? hh)
  cases ch with
  | nil => simp at hl; omega
  | cons c cs =>
    unfold createFull
    by_cases hall : (c :: cs).all (fun x => decide (c = x)) = true
    · simp only [hall, if_true]
      have hc := hk c List.mem_cons_self
      refine ⟨c, m, rfl, wf, Step.refl m, hc.1, Or.inl ⟨?_, List.mem_cons_self, rfl⟩, fun _ => rfl⟩
      intro x hx
      rw [List.all_eq_true] at hall
      have := hall x hx
      simp at this
      exact this.symm
    · simp only [hall]
      have hR : RFull (c :: cs) := by
        rintro ⟨x, hx⟩
        apply hall
        rw [List.all_eq_true]
        intro y hy
        have h1 := hx c List.mem_cons_self
        have h2 := hx y hy
        simp [h1, h2]
      obtain ⟨i, m', h1, h2, h3, h4, h5, h6⟩ :=
        mkNode_spec wf (k := .nt h (c :: cs)) ⟨⟨hd, hh, hl, hk⟩, hR⟩
      exact ⟨i, m', by simpa using h1, h2, h3, h4, Or.inr ⟨hR, h5⟩, h6⟩

/-- Semantic description of `createFull`: the result reads like the selected child. -/
theorem createFull_spec (wf : WF RFull m) {h : Nat} {ch : List Nat} {hd : Header}
    (hh : m.headers[h]? = some hd) (hl : ch.length = hd.edgeNum)
    (hk : ∀ c ∈ ch, m.Live c ∧ m.rank c ≤ hd.level) :
    ∃ r m', m.createFull h ch = some (r, m') ∧ WF RFull m' ∧ Step m m' ∧ m'.Live r ∧
      m'.rank r ≤ hd.level + 1 ∧
      ∀ a z, m'.ValidA a → (Eval m' a r z ↔ ∃ c, ch[a hd.level]? = some c ∧ Eval m' a c z) := by
  obtain ⟨r, m', h1, h2, h3, h4, h5, -⟩ := createFull_raw wf ⟨hd, hh, hl, hk⟩
  refine ⟨r, m', h1, h2, h3, h4, ?_, ?_⟩
  · rcases h5 with ⟨_, hm, rfl⟩ | ⟨_, hn⟩
    · have := (hk r hm).2; omega
    · exact Nat.le_of_eq (rank_nt hn (h3.hdr _ _ hh))
  · intro a z ha
    rcases h5 with ⟨hall, hm, rfl⟩ | ⟨_, hn⟩
    · have hlt : a hd.level < ch.length := by
        rw [hl]; exact ha hd (List.mem_of_getElem? hh)
      have hc := List.getElem?_eq_getElem hlt
      rw [hall _ (List.getElem_mem hlt)] at hc
      constructor
      · intro he; exact ⟨r, hc, he⟩
      · rintro ⟨c, hc', he⟩
        rw [hc] at hc'; cases hc'; exact he
    · exact eval_nt_iff hn (h3.hdr _ _ hh)

/-- Canonicity: in a reduced forest with one header per level, live nodes that read the same
everywhere are the same node. -/
theorem WF.canon (wf : WF RFull m) (inj : m.LevInj) {i j : Nat} (hi : m.Live i) (hj : m.Live j)
    (h : ∀ a, m.ValidA a → ∀ t, Eval m a i t ↔ Eval m a j t) : i = j := by
  have key : ∀ n i j, m.rank i ≤ n → m.rank j ≤ m.rank i → m.Live i → m.Live j →
      (∀ a, m.ValidA a → ∀ t, Eval m a i t ↔ Eval m a j t) → i = j := by
    intro n
    induction n with
    | zero =>
      intro i j hri hrj hi hj h
      obtain ⟨ni, hni⟩ := hi.node
      obtain ⟨nj, hnj⟩ := hj.node
      cases ni with
      | nt hh ch => obtain ⟨hd, _, _, hr, _⟩ := wf.nt hi hni; omega
      | term t =>
        cases nj with
        | nt hh ch => obtain ⟨hd, _, _, hr, _⟩ := wf.nt hj hnj; omega
        | term t' =>
          have := (h _ wf.valid_zero t).1 (.term hni)
          rw [eval_term_iff hnj] at this
          subst this
          exact wf.uniq hi hj hni hnj
    | succ n ih =>
      intro i j hri hrj hi hj h
      obtain ⟨ni, hni⟩ := hi.node
      cases ni with
      | term t =>
        have hr0 := rank_term hni
        exact ih i j (by omega) hrj hi hj h
      | nt hh ch =>
        obtain ⟨hd, hhd, hl, hr, _, hpos, hk⟩ := wf.nt hi hni
        have hmem := List.mem_of_getElem? hhd
        by_cases hlt : m.rank j < m.rank i
        · -- all children of `i` equal `j`
          exfalso
          apply wf.red i hh ch hi hni
          refine ⟨j, fun c hc => ?_⟩
          obtain ⟨k, hkc⟩ := List.mem_iff_getElem?.1 hc
          have hklt : k < hd.edgeNum := by
            rw [← hl]; exact (List.getElem?_eq_some_iff.1 hkc).1
          obtain ⟨hcl, hcr⟩ := hk c hc
          have hread : ∀ a, m.ValidA a → ∀ t, Eval m a c t ↔ Eval m a j t := by
            intro a ha t
            have hv := wf.valid_upd ha hmem hklt
            have e1 : Eval m a c t ↔ Eval m (upd a hd.level k) c t :=
              wf.eval_congr_iff hcl (fun l hl' => (upd_ne a k (by omega)).symm)
            have e2 : Eval m a j t ↔ Eval m (upd a hd.level k) j t :=
              wf.eval_congr_iff hj (fun l hl' => (upd_ne a k (by omega)).symm)
            have e3 : Eval m (upd a hd.level k) i t ↔ Eval m (upd a hd.level k) c t := by
              rw [eval_nt_iff hni hhd, upd_self]
              constructor
              · rintro ⟨c', hc', he⟩; rw [hkc] at hc'; cases hc'; exact he
              · intro he; exact ⟨c, hkc, he⟩
            rw [e1, e2, ← e3]
            exact h _ hv t
          by_cases hcj : m.rank j ≤ m.rank c
          · exact ih c j (by omega) hcj hcl hj hread
          · exact (ih j c (by omega) (by omega) hj hcl (fun a ha t => (hread a ha t).symm)).symm
        · -- same level
          obtain ⟨nj, hnj⟩ := hj.node
          cases nj with
          | term t => rw [rank_term hnj] at hlt; omega
          | nt hh' ch' =>
            obtain ⟨hd', hhd', hl', hr', _, _, hk'⟩ := wf.nt hj hnj
            have hlev : hd.level = hd'.level := by omega
            have heq : hh = hh' := inj _ _ _ _ hhd hhd' hlev
            subst heq
            rw [hhd] at hhd'
            cases hhd'
            have hch : ch = ch' := by
              apply List.ext_getElem?
              intro k
              by_cases hklt : k < hd.edgeNum
              · have h1 : k < ch.length := by omega
                have h2 : k < ch'.length := by omega
                rw [List.getElem?_eq_getElem h1, List.getElem?_eq_getElem h2]
                congr 1
                have hc := List.getElem_mem h1
                have hc' := List.getElem_mem h2
                have hkc := List.getElem?_eq_getElem h1
                have hkc' := List.getElem?_eq_getElem h2
                generalize ch[k] = c at *
                generalize ch'[k] = c' at *
                obtain ⟨hcl, hcr⟩ := hk c hc
                obtain ⟨hcl', hcr'⟩ := hk' c' hc'
                have hread : ∀ a, m.ValidA a → ∀ t, Eval m a c t ↔ Eval m a c' t := by
                  intro a ha t
                  have hv := wf.valid_upd ha hmem hklt
                  have e1 : Eval m a c t ↔ Eval m (upd a hd.level k) c t :=
                    wf.eval_congr_iff hcl (fun l hl' => (upd_ne a k (by omega)).symm)
                  have e2 : Eval m a c' t ↔ Eval m (upd a hd.level k) c' t :=
                    wf.eval_congr_iff hcl' (fun l hl' => (upd_ne a k (by omega)).symm)
                  have e3 : Eval m (upd a hd.level k) i t ↔ Eval m (upd a hd.level k) c t := by
                    rw [eval_nt_iff hni hhd, upd_self]
                    constructor
                    · rintro ⟨c', hc', he⟩; rw [hkc] at hc'; cases hc'; exact he
                    · intro he; exact ⟨c, hkc, he⟩
                  have e4 : Eval m (upd a hd.level k) j t ↔ Eval m (upd a hd.level k) c' t := by
                    rw [eval_nt_iff hnj hhd, upd_self]
                    constructor
                    · rintro ⟨c', hc', he⟩; rw [hkc'] at hc'; cases hc'; exact he
                    · intro he; exact ⟨c', hkc', he⟩
                  rw [e1, e2, ← e3, ← e4]
                  exact h _ hv t
                by_cases hcj : m.rank c' ≤ m.rank c
                · exact ih c c' (by omega) hcj hcl hcl' hread
                · exact (ih c' c (by omega) (by omega) hcl' hcl
                    (fun a ha t => (hread a ha t).symm)).symm
              · rw [List.getElem?_eq_none (by omega), List.getElem?_eq_none (by omega)]
            subst hch
            exact wf.uniq hi hj hni hnj
  by_cases hij : m.rank j ≤ m.rank i
  · exact key _ i j (Nat.le_refl _) hij hi hj h
  · exact (key _ j i (Nat.le_refl _) (by omega) hj hi (fun a ha t => (h a ha t).symm)).symm

end

end Arena
end DD
