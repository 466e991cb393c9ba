import Verif.Core.Sem

/-!
# Reading a zero-suppressed diagram

`Lab m i a t`: from node `i` the assignment `a` (level ↦ state number) leads to a terminal carrying `t`,
where every level not on the path has state 0.  This is the meaning of a diagram of the zero-suppressed
engines (ZDD, ZMDD): a ZDD node denotes the family `{a | Lab m i a one}`, a ZMDD node the labelled family
`{(a, v) | Lab m i a (some v)}`.
-/

set_option autoImplicit false
set_option linter.unusedSectionVars false

namespace DD
namespace Arena

variable {T : Type}

/-- Zero-suppressed reading. -/
inductive Lab (m : Arena T) : Nat → (Nat → Nat) → T → Prop
  | term {i : Nat} {t : T} : m.nodes[i]? = some (.term t) → Lab m i (fun _ => 0) t
  | nt {i h : Nat} {ch : List Nat} {hd : Header} {k c : Nat} {a : Nat → Nat} {t : T} :
      m.nodes[i]? = some (.nt h ch) → m.headers[h]? = some hd →
      ch[k]? = some c → Lab m c a t → Lab m i (upd a hd.level k) t

/-- Reduction rule of the zero-suppressed engines: some child other than the first is not the default
terminal (slot 0 in both engines). -/
def RZ (ch : List Nat) : Prop := ∃ c ∈ ch.tail, c ≠ 0

theorem lab_term_iff {m : Arena T} {a : Nat → Nat} {i : Nat} {t z : T}
    (hn : m.nodes[i]? = some (.term t)) : Lab m i a z ↔ a = (fun _ => 0) ∧ z = t := by
  constructor
  · intro h
    cases h with
    | term hn' => rw [hn] at hn'; cases hn'; exact ⟨rfl, rfl⟩
    | nt hn' => rw [hn] at hn'; cases hn'
  · rintro ⟨rfl, rfl⟩; exact .term hn

theorem upd_upd (a : Nat → Nat) (l k k' : Nat) : upd (upd a l k) l k' = upd a l k' := by
  funext x; unfold upd; split <;> rfl

theorem upd_id {a : Nat → Nat} {l k : Nat} (h : a l = k) : upd a l k = a := by
  funext x; unfold upd; split
  · rename_i e; rw [e, h]
  · rfl

section
variable [DecidableEq T] [Fixed T] {R : List Nat → Prop} {m m' : Arena T}

/-- States at levels not below the node are 0. -/
theorem WF.lab_supp (wf : WF R m) {i : Nat} {a : Nat → Nat} {t : T} (h : Lab m i a t) (hi : m.Live i) :
    ∀ l, m.rank i ≤ l → a l = 0 := by
  induction h with
  | term => intro l _; rfl
  | @nt i h ch hd k c a t hn hh hc _ ih =>
    intro l hl
    obtain ⟨hd', hh', _, hr, _, _, hk⟩ := wf.nt hi hn
    rw [hh] at hh'; cases hh'
    obtain ⟨h1, h2⟩ := hk c (List.mem_of_getElem? hc)
    rw [upd_ne _ _ (by omega)]
    exact ih h1 l (by omega)

theorem WF.lab_nt_iff (wf : WF R m) {i h : Nat} {ch : List Nat} {hd : Header} {a : Nat → Nat} {z : T}
    (hi : m.Live i) (hn : m.nodes[i]? = some (.nt h ch)) (hh : m.headers[h]? = some hd) :
    Lab m i a z ↔ ∃ c, ch[a hd.level]? = some c ∧ Lab m c (upd a hd.level 0) z := by
  obtain ⟨hd', hh', _, hr, _, _, hk⟩ := wf.nt hi hn
  rw [hh] at hh'; cases hh'
  constructor
  · intro he
    cases he with
    | term hn' => rw [hn] at hn'; cases hn'
    | @nt _ _ _ _ k c b _ hn' hh' hc he =>
      rw [hn] at hn'; cases hn'
      rw [hh] at hh'; cases hh'
      obtain ⟨h1, h2⟩ := hk c (List.mem_of_getElem? hc)
      refine ⟨c, by rw [upd_self]; exact hc, ?_⟩
      rw [upd_upd, upd_id (wf.lab_supp he h1 _ h2)]
      exact he
  · rintro ⟨c, hc, he⟩
    have := Lab.nt hn hh hc he
    rwa [upd_upd, upd_id rfl] at this

/-- A labelled assignment respects the variables' ranges. -/
theorem WF.lab_valid (wf : WF R m) {i : Nat} {a : Nat → Nat} {t : T} (h : Lab m i a t) (hi : m.Live i) :
    m.ValidA a := by
  induction h with
  | term => intro hd hm; exact wf.pos hd hm
  | @nt i h ch hd k c a t hn hh hc _ ih =>
    obtain ⟨hd', hh', hl, hr, _, _, hk⟩ := wf.nt hi hn
    rw [hh] at hh'; cases hh'
    obtain ⟨h1, h2⟩ := hk c (List.mem_of_getElem? hc)
    refine wf.valid_upd (ih h1) (List.mem_of_getElem? hh) ?_
    rw [← hl]; exact (List.getElem?_eq_some_iff.1 hc).1

theorem WF.lab_det (wf : WF R m) : ∀ {i : Nat} {a : Nat → Nat} {t t' : T}, m.Live i → Lab m i a t →
    Lab m i a t' → t = t' := by
  intro i a t t' hi h h'
  induction h with
  | term hn => exact ((lab_term_iff hn).1 h').2.symm
  | @nt i h ch hd k c a t hn hh hc he ih =>
    obtain ⟨hd', hh', hl, hr, _, _, hk⟩ := wf.nt hi hn
    rw [hh] at hh'; cases hh'
    obtain ⟨h1, h2⟩ := hk c (List.mem_of_getElem? hc)
    obtain ⟨c', hc', he'⟩ := (wf.lab_nt_iff hi hn hh).1 h'
    rw [upd_self, hc] at hc'; cases hc'
    rw [upd_upd, upd_id (wf.lab_supp he h1 _ h2)] at he'
    exact ih h1 he'

theorem WF.lab_ext (wf : WF R m) (e : Ext m m') {a : Nat → Nat} {i : Nat} (hi : m.Live i) {t : T} :
    Lab m' i a t ↔ Lab m i a t := by
  constructor
  · intro h
    induction h with
    | @term i t hn =>
      rw [(e.keep i hi).2] at hn
      exact .term hn
    | @nt i h ch hd k c a t hn hh hc _ ih =>
      rw [(e.keep i hi).2] at hn
      obtain ⟨hd0, hh0, -, -, -, -, hk⟩ := wf.nt hi hn
      have := e.hdr _ _ hh0
      rw [hh] at this
      cases this
      exact .nt hn hh0 hc (ih (hk c (List.mem_of_getElem? hc)).1)
  · intro h
    induction h with
    | @term i t hn =>
      exact .term (by rw [(e.keep i hi).2]; exact hn)
    | @nt i h ch hd k c a t hn hh hc _ ih =>
      obtain ⟨hd0, hh0, -, -, -, -, hk⟩ := wf.nt hi hn
      exact .nt (by rw [(e.keep i hi).2]; exact hn) (e.hdr _ _ hh) hc
        (ih (hk c (List.mem_of_getElem? hc)).1)

/-- `create_node` with zero-suppression: all children but the first equal to the default terminal
(slot 0) ⇒ the first child, /repo/bddcore/src/zdd.rs:193-204, /repo/mddcore/src/zmdd.rs:163-174. -/
def createZ (m : Arena T) (h : Nat) (ch : List Nat) : Option (Nat × Arena T) :=
  match ch with
  | [] => m.mkNode (.nt h [])
  | c :: cs =>
    if cs.all (fun x => decide (x = 0)) then some (c, m) else m.mkNode (.nt h (c :: cs))

theorem createZ_raw (wf : WF RZ m) {h : Nat} {ch : List Nat} (g : GoodKids m h ch) :
    ∃ r m', m.createZ h ch = some (r, m') ∧ WF RZ m' ∧ Step m m' ∧ m'.Live r ∧
      (((∀ x ∈ ch.tail, x = 0) ∧ ch.head? = some r ∧ m' = m) ∨
        (RZ ch ∧ m'.nodes[r]? = some (.nt h ch))) ∧ (m.Live r → m' = m) := by
  obtain ⟨hd, hh, hl, hk⟩ := g
  have hpos := wf.pos hd (List.mem_of_getElem? hh)
  cases ch with
  | nil => simp at hl; omega
  | cons c cs =>
    unfold createZ
    by_cases hall : cs.all (fun x => decide (x = 0)) = true
    · simp only [hall, if_true]
      have hc := hk c List.mem_cons_self
      refine ⟨c, m, rfl, wf, Step.refl m, hc.1, Or.inl ⟨?_, rfl, rfl⟩, fun _ => rfl⟩
      intro x hx
      rw [List.all_eq_true] at hall
      simpa using hall x hx
    · simp only [hall]
      have hR : RZ (c :: cs) := by
        apply Classical.byContradiction
        intro hne
        apply hall
        rw [List.all_eq_true]
        intro y hy
        apply Classical.byContradiction
        intro hy0
        exact hne ⟨y, hy, by simpa using hy0⟩
      obtain ⟨i, m', h1, h2, h3, h4, h5, h6⟩ :=
        mkNode_spec wf (k := .nt h (c :: cs)) ⟨⟨hd, hh, hl, hk⟩, hR⟩
      exact ⟨i, m', by simpa using h1, h2, h3, h4, Or.inr ⟨hR, h5⟩, h6⟩

/-- Semantic description of `createZ`: apart from the default terminal `d`, the result reads like the
selected child. -/
theorem createZ_spec (wf : WF RZ m) {d : T} (hd0 : fix d = some 0) {h : Nat} {ch : List Nat} {hd : Header}
    (hh : m.headers[h]? = some hd) (hl : ch.length = hd.edgeNum)
    (hk : ∀ c ∈ ch, m.Live c ∧ m.rank c ≤ hd.level) :
    ∃ r m', m.createZ h ch = some (r, m') ∧ WF RZ m' ∧ Step m m' ∧ m'.Live r ∧
      m'.rank r ≤ hd.level + 1 ∧
      ∀ a z, z ≠ d →
        (Lab m' r a z ↔ ∃ c, ch[a hd.level]? = some c ∧ Lab m' c (upd a hd.level 0) z) := by
  obtain ⟨r, m', h1, h2, h3, h4, h5, -⟩ := createZ_raw wf ⟨hd, hh, hl, hk⟩
  refine ⟨r, m', h1, h2, h3, h4, ?_, ?_⟩
  · rcases h5 with ⟨_, hm, rfl⟩ | ⟨_, hn⟩
    · have := (hk r (List.mem_of_mem_head? hm)).2; omega
    · exact Nat.le_of_eq (rank_nt hn (h3.hdr _ _ hh))
  · intro a z hz
    rcases h5 with ⟨hall, hm, rfl⟩ | ⟨_, hn⟩
    · cases ch with
      | nil => cases hm
      | cons c cs =>
        simp only [List.head?_cons, Option.some.injEq] at hm
        subst hm
        have hc := hk c List.mem_cons_self
        constructor
        · intro he
          have := wf.lab_supp he hc.1 _ hc.2
          refine ⟨c, by rw [this]; rfl, ?_⟩
          rw [upd_id this]; exact he
        · rintro ⟨c', hc', he⟩
          cases hj : a hd.level with
          | zero =>
            rw [hj] at hc'
            simp at hc'
            subst hc'
            rwa [upd_id hj] at he
          | succ j =>
            rw [hj] at hc'
            simp at hc'
            have := hall c' (List.mem_of_getElem? hc')
            subst this
            obtain ⟨_, hn0⟩ := wf.fixed_live hd0
            exact absurd ((lab_term_iff hn0).1 he).2 hz
    · exact h2.lab_nt_iff h4 hn (h3.hdr _ _ hh)

/-- Canonicity: live nodes with the same non-default labels are the same node. -/
theorem WF.canonZ (wf : WF RZ m) {d : T} (hd0 : fix d = some 0) (inj : m.LevInj) {i j : Nat}
    (hi : m.Live i) (hj : m.Live j)
    (h : ∀ a t, t ≠ d → (Lab m i a t ↔ Lab m j a t)) : i = j := by
  obtain ⟨hz, hzn⟩ := wf.fixed_live hd0
  have key : ∀ n i j, m.rank i ≤ n → m.rank j ≤ m.rank i → m.Live i → m.Live j →
      (∀ a t, t ≠ d → (Lab m i a t ↔ Lab m j a t)) → i = j := by
    intro n
    induction n with
    | zero =>
      intro i j hri hrj hi hj h
      obtain ⟨ni, hni⟩ := hi.node
      obtain ⟨nj, hnj⟩ := hj.node
      cases ni with
      | nt hh ch => obtain ⟨hd, _, _, hr, _⟩ := wf.nt hi hni; omega
      | term t =>
        cases nj with
        | nt hh ch => obtain ⟨hd, _, _, hr, _⟩ := wf.nt hj hnj; omega
        | term t' =>
          have : t = t' := by
            by_cases ht : t = d
            · by_cases ht' : t' = d
              · rw [ht, ht']
              · exact ((lab_term_iff hni).1 ((h _ t' ht').2 (.term hnj))).2.symm
            · exact ((lab_term_iff hnj).1 ((h _ t ht).1 (.term hni))).2
          subst this
          exact wf.uniq hi hj hni hnj
    | succ n ih =>
      intro i j hri hrj hi hj h
      obtain ⟨ni, hni⟩ := hi.node
      cases ni with
      | term t =>
        have hr0 := rank_term hni
        exact ih i j (by omega) hrj hi hj h
      | nt hh ch =>
        obtain ⟨hd, hhd, hl, hr, _, hpos, hk⟩ := wf.nt hi hni
        have kidlab : ∀ (k c : Nat) a t, ch[k]? = some c → Lab m c a t → Lab m i (upd a hd.level k) t :=
          fun k c a t hc hl => .nt hni hhd hc hl
        by_cases hlt : m.rank j < m.rank i
        · exfalso
          obtain ⟨c, hc, hc0⟩ := wf.red i hh ch hi hni
          have hcm : c ∈ ch := List.mem_of_mem_tail hc
          obtain ⟨k, hkc⟩ := List.mem_iff_getElem?.1 hc
          rw [List.getElem?_tail] at hkc
          obtain ⟨hcl, hcr⟩ := hk c hcm
          apply hc0
          refine ih c 0 (by omega) (by rw [rank_term hzn]; omega) hcl hz ?_
          intro a t ht
          constructor
          · intro hlab
            have := (h _ t ht).1 (kidlab (k + 1) c a t hkc hlab)
            have := wf.lab_supp this hj hd.level (by omega)
            rw [upd_self] at this
            omega
          · intro hlab
            exact absurd ((lab_term_iff hzn).1 hlab).2 ht
        · obtain ⟨nj, hnj⟩ := hj.node
          cases nj with
          | term t => rw [rank_term hnj] at hlt; omega
          | nt hh' ch' =>
            obtain ⟨hd', hhd', hl', hr', _, _, hk'⟩ := wf.nt hj hnj
            have hlev : hd.level = hd'.level := by omega
            have heq : hh = hh' := inj _ _ _ _ hhd hhd' hlev
            subst heq
            rw [hhd] at hhd'
            cases hhd'
            have hch : ch = ch' := by
              apply List.ext_getElem?
              intro k
              by_cases hklt : k < hd.edgeNum
              · have h1 : k < ch.length := by omega
                have h2 : k < ch'.length := by omega
                rw [List.getElem?_eq_getElem h1, List.getElem?_eq_getElem h2]
                congr 1
                have hc := List.getElem_mem h1
                have hc' := List.getElem_mem h2
                have hkc := List.getElem?_eq_getElem h1
                have hkc' := List.getElem?_eq_getElem h2
                generalize ch[k] = c at *
                generalize ch'[k] = c' at *
                obtain ⟨hcl, hcr⟩ := hk c hc
                obtain ⟨hcl', hcr'⟩ := hk' c' hc'
                have hread : ∀ a t, t ≠ d → (Lab m c a t ↔ Lab m c' a t) := by
                  intro a t ht
                  constructor
                  · intro hlab
                    have := (h _ t ht).1 (.nt hni hhd hkc hlab)
                    obtain ⟨c2, e1, e2⟩ := (wf.lab_nt_iff hj hnj hhd).1 this
                    rw [upd_self, hkc'] at e1; cases e1
                    rwa [upd_upd, upd_id (wf.lab_supp hlab hcl _ hcr)] at e2
                  · intro hlab
                    have := (h _ t ht).2 (.nt hnj hhd hkc' hlab)
                    obtain ⟨c2, e1, e2⟩ := (wf.lab_nt_iff hi hni hhd).1 this
                    rw [upd_self, hkc] at e1; cases e1
                    rwa [upd_upd, upd_id (wf.lab_supp hlab hcl' _ hcr')] at e2
                by_cases hcj : m.rank c' ≤ m.rank c
                · exact ih c c' (by omega) hcj hcl hcl' hread
                · exact (ih c' c (by omega) (by omega) hcl' hcl
                    (fun a t ht => (hread a t ht).symm)).symm
              · rw [List.getElem?_eq_none (by omega), List.getElem?_eq_none (by omega)]
            subst hch
            exact wf.uniq hi hj hni hnj
  by_cases hij : m.rank j ≤ m.rank i
  · exact key _ i j (Nat.le_refl _) hij hi hj h
  · exact (key _ j i (Nat.le_refl _) (by omega) hj hi (fun a t ht => (h a t ht).symm)).symm

end

end Arena
end DD
