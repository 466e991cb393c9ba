import Verif.Core.Fold

/-!
# Graphviz output

Model of /repo/common/src/dot.rs and of the `dot_impl` functions /repo/bddcore/src/{bdd,zdd}_dot.rs,
/repo/mddcore/src/{mdd,mtmdd,mtmdd2,zmdd}_dot.rs.  They are one traversal, with different terminal labels and different
terminals left out as children (`DotStyle`).  Writing into the buffer does not fail.
-/

set_option autoImplicit false
set_option linter.unusedSectionVars false
set_option linter.unusedVariables false

namespace DD

/-- One statement of the graph. -/
inductive DotLine where
  | node (id : Nat) (round : Bool) (label : String)
  | edge (src dst : Nat) (label : Nat)
deriving DecidableEq, Repr

/-- The `format!` strings, e.g. /repo/bddcore/src/bdd_dot.rs:18, 30-34, 41. -/
def DotLine.text : DotLine → String
  | .node id round label =>
    "\"obj" ++ toString id ++ "\" [shape=" ++ (if round then "circle" else "square") ++ ", label=\"" ++ label ++ "\"];\n"
  | .edge i j k => "\"obj" ++ toString i ++ "\" -> \"obj" ++ toString j ++ "\" [label=\"" ++ toString k ++ "\"];\n"

/-- /repo/common/src/dot.rs:12 -/
def dotHead : String := "digraph { layout=dot; overlap=false; splines=true; node [fontsize=10];\n"

/-- /repo/common/src/dot.rs:13-17, 20-27 -/
def dotText (ls : List DotLine) : String :=
  dotHead ++ String.join (ls.map DotLine.text) ++ "}\n"

/-- How an engine draws terminals: its label, and whether it is drawn as a child. -/
structure DotStyle (T : Type) where
  label : T → String
  drawn : T → Bool

namespace Arena
variable {T : Type}

/-- The `if let` on the child, e.g. /repo/bddcore/src/bdd_dot.rs:37-39; `none` = no such node. -/
def drawnKid (m : Arena T) (st : DotStyle T) (c : Nat) : Option Bool :=
  match m.nodes[c]? with
  | none => none
  | some (.term t) => some (st.drawn t)
  | some (.nt _ _) => some true

/-- One iteration of the loop over the children, e.g. /repo/bddcore/src/bdd_dot.rs:36-43: the child `c` on edge `k` of
`i`; `rec` is the recursive call. -/
def dotKid (m : Arena T) (st : DotStyle T) (rec : Nat → List Nat → Option (List DotLine × List Nat)) (i : Nat)
    (kc : Nat × Nat) (seen : List Nat) : Option (List DotLine × List Nat) :=
  match m.drawnKid st kc.2 with
  | none => none
  | some false => some ([], seen)
  | some true =>
    match rec kc.2 seen with
    | none => none
    | some (ls, seen') => some (ls ++ [.edge i kc.2 kc.1], seen')

/-- `dot_impl`, e.g. /repo/bddcore/src/bdd_dot.rs:8-48: the statements written by the call, and the visited set after
it. -/
def dotImpl (m : Arena T) (st : DotStyle T) : Nat → Nat → List Nat → Option (List DotLine × List Nat)
  | 0, _, _ => none
  | fuel + 1, i, seen =>
    if i ∈ seen then some ([], seen)
    else
      match m.nodes[i]? with
      | none => none
      | some (.term t) => some ([.node i false (st.label t)], i :: seen)
      | some (.nt _ ch) =>
        match m.label? i with
        | none => none
        | some l =>
          match foldKids (dotKid m st (dotImpl m st fuel) i) ((List.range ch.length).zip ch) seen with
          | none => none
          | some (lss, seen') => some (.node i true l :: lss.flatten, i :: seen')

/-- `dot`, /repo/common/src/dot.rs:8-18, without the frame. -/
def dotLines (m : Arena T) (st : DotStyle T) (i : Nat) : Option (List DotLine) :=
  (m.dotImpl st (m.rank i + 1) i []).map (·.1)

/-! ## Specification -/

/-- The node is drawn when it is a child. -/
def Visible (m : Arena T) (st : DotStyle T) (c : Nat) : Prop := ∀ t, m.nodes[c]? = some (.term t) → st.drawn t = true

/-- `j` is in the picture of `i`. -/
inductive Shown (m : Arena T) (st : DotStyle T) : Nat → Nat → Prop
  | root (i : Nat) : Shown m st i i
  | step {i j h c : Nat} {ch : List Nat} : Shown m st i j → m.nodes[j]? = some (.nt h ch) → c ∈ ch → m.Visible st c →
      Shown m st i c

/-- The statements belonging to node `j`: its own and those of its edges. -/
inductive LineOf (m : Arena T) (st : DotStyle T) (j : Nat) : DotLine → Prop
  | term {t : T} : m.nodes[j]? = some (.term t) → LineOf m st j (.node j false (st.label t))
  | nt {h : Nat} {ch : List Nat} {hd : Header} : m.nodes[j]? = some (.nt h ch) → m.headers[h]? = some hd →
      LineOf m st j (.node j true hd.label)
  | edge {h k c : Nat} {ch : List Nat} : m.nodes[j]? = some (.nt h ch) → ch[k]? = some c → m.Visible st c →
      LineOf m st j (.edge j c k)

/-! ## Proofs -/

section
variable [DecidableEq T] [Fixed T] {R' : List Nat → Prop} {m : Arena T} {st : DotStyle T}

theorem Shown.reach {i j : Nat} (h : Shown m st i j) : Reach m i j := by
  induction h with
  | root => exact .refl _
  | step _ hn hc _ ih => exact .step ih hn hc

theorem Shown.trans {i j k : Nat} (h : Shown m st i j) (h' : Shown m st j k) : Shown m st i k := by
  induction h' with
  | root => exact h
  | step _ hn hc hv ih => exact .step ih hn hc hv

theorem Shown.cases_head {i j : Nat} (h : Shown m st i j) :
    i = j ∨ ∃ hh ch c, m.nodes[i]? = some (.nt hh ch) ∧ c ∈ ch ∧ m.Visible st c ∧ Shown m st c j := by
  induction h with
  | root => exact Or.inl rfl
  | @step j h c ch _ hn hc hv ih =>
    rcases ih with rfl | ⟨hh, ch', c', h1, h2, h3, h4⟩
    · exact Or.inr ⟨h, ch, c, hn, hc, hv, .root c⟩
    · exact Or.inr ⟨hh, ch', c', h1, h2, h3, .step h4 hn hc hv⟩

/-- The node a statement belongs to. -/
def owner : DotLine → Nat
  | .node i _ _ => i
  | .edge i _ _ => i

theorem LineOf.owner {j : Nat} {x : DotLine} (h : LineOf m st j x) : owner x = j := by
  cases h <;> rfl

theorem LineOf.src {j j' : Nat} {x : DotLine} (h : LineOf m st j x) (h' : LineOf m st j' x) : j = j' :=
  h.owner.symm.trans h'.owner

/-- The set of visited nodes is closed. -/
def DotSeen (m : Arena T) (st : DotStyle T) (seen : List Nat) : Prop := ∀ i ∈ seen, ∀ j, Shown m st i j → j ∈ seen

theorem drawnKid_live {c : Nat} (h : m.Live c) : ∃ b, m.drawnKid st c = some b ∧ (b = true ↔ m.Visible st c) := by
  obtain ⟨nd, hn⟩ := h.node
  unfold drawnKid Visible
  rw [hn]
  cases nd with
  | term t =>
    refine ⟨_, rfl, fun h t' e => by cases e; exact h, fun h => h t rfl⟩
  | nt h ch => exact ⟨true, rfl, fun _ t e => (nomatch e), fun _ => rfl⟩

theorem dotImpl_ok (wf : WF R' m) : ∀ (fuel i : Nat) (seen : List Nat), m.Live i → m.rank i < fuel → DotSeen m st seen →
    ∃ ls seen', m.dotImpl st fuel i seen = some (ls, seen') ∧ DotSeen m st seen' ∧
      (∀ j, j ∈ seen' ↔ j ∈ seen ∨ Shown m st i j) ∧
      (∀ x, x ∈ ls ↔ ∃ j, j ∉ seen ∧ Shown m st i j ∧ LineOf m st j x) ∧ ls.Nodup := by
  intro fuel
  induction fuel with
  | zero => intro i _ _ h; omega
  | succ n ih =>
    intro i seen hi hr hs
    by_cases hm : i ∈ seen
    · refine ⟨[], seen, by simp only [dotImpl, if_pos hm], hs, ?_, ?_, List.nodup_nil⟩
      · intro j
        exact ⟨.inl, fun h => h.elim id (fun h => hs i hm j h)⟩
      · intro x
        refine ⟨by simp, ?_⟩
        rintro ⟨j, h1, h2, _⟩
        exact absurd (hs i hm j h2) h1
    · obtain ⟨nd, hn⟩ := hi.node
      cases nd with
      | term t =>
        have hreach : ∀ j, Shown m st i j → j = i := by
          intro j hj
          rcases hj.cases_head with h | ⟨_, _, _, h, _⟩
          · exact h.symm
          · rw [hn] at h; cases h
        refine ⟨[.node i false (st.label t)], i :: seen, by simp only [dotImpl, if_neg hm, hn], ?_, ?_, ?_, by simp⟩
        · intro j hj k hk
          rcases List.mem_cons.1 hj with rfl | hj
          · rw [hreach k hk]; exact List.mem_cons_self
          · exact List.mem_cons_of_mem _ (hs j hj k hk)
        · intro j
          rw [List.mem_cons]
          constructor
          · rintro (rfl | h)
            · exact .inr (.root _)
            · exact .inl h
          · rintro (h | h)
            · exact .inr h
            · exact .inl (hreach j h)
        · intro x
          rw [List.mem_singleton]
          constructor
          · rintro rfl; exact ⟨i, hm, .root i, .term hn⟩
          · rintro ⟨j, _, h2, h3⟩
            obtain rfl := hreach j h2
            cases h3 with
            | term h => rw [hn] at h; cases h; rfl
            | nt h => rw [hn] at h; cases h
            | edge h => rw [hn] at h; cases h
      | nt h ch =>
        obtain ⟨hd, hh, _, hrk, _, _, hk⟩ := wf.nt hi hn
        have hlab : m.label? i = some hd.label := by unfold label?; rw [hn]; simp [hh]
        have hni : ∀ c ∈ ch, ¬ Shown m st c i := by
          intro c hc hs
          have := wf.reach_rank_le (hk c hc).1 hs.reach
          have := (hk c hc).2
          omega
        have loop : ∀ (kcs : List (Nat × Nat)), (∀ p ∈ kcs, ch[p.1]? = some p.2) → (kcs.map (·.1)).Nodup →
            ∀ (seen : List Nat), DotSeen m st seen → i ∉ seen →
            ∃ lss seen', foldKids (dotKid m st (dotImpl m st n) i) kcs seen = some (lss, seen') ∧ DotSeen m st seen' ∧
              (∀ j, j ∈ seen' ↔ j ∈ seen ∨ ∃ p ∈ kcs, m.Visible st p.2 ∧ Shown m st p.2 j) ∧
              (∀ x, x ∈ lss.flatten ↔ (∃ j, j ∉ seen ∧ (∃ p ∈ kcs, m.Visible st p.2 ∧ Shown m st p.2 j) ∧ LineOf m st j x) ∨
                ∃ p ∈ kcs, m.Visible st p.2 ∧ x = .edge i p.2 p.1) ∧ lss.flatten.Nodup := by
          intro kcs
          induction kcs with
          | nil =>
            intro _ _ seen hs hni'
            exact ⟨[], seen, rfl, hs, by simp, by simp, by simp⟩
          | cons p kcs ihc =>
            intro hsub hnd seen hs hi'
            obtain ⟨k, c⟩ := p
            have hck := hsub (k, c) List.mem_cons_self
            have hc : c ∈ ch := List.mem_of_getElem? hck
            have hsub' : ∀ p ∈ kcs, ch[p.1]? = some p.2 := fun p hp => hsub p (List.mem_cons_of_mem _ hp)
            rw [List.map_cons, List.nodup_cons] at hnd
            obtain ⟨b, hb1, hb2⟩ := drawnKid_live (st := st) (hk c hc).1
            cases b with
            | false =>
              have hv : ¬ m.Visible st c := fun h => by have := hb2.2 h; cases this
              obtain ⟨lss, seen', k1, k2, k3, k4, k5⟩ := ihc hsub' hnd.2 seen hs hi'
              refine ⟨[] :: lss, seen', ?_, k2, ?_, ?_, by simpa using k5⟩
              · simp only [foldKids, dotKid, hb1, k1]
              · intro j; rw [k3]; simp [hv]
              · intro x; rw [List.flatten_cons, List.nil_append, k4]; simp [hv]
            | true =>
              have hv : m.Visible st c := hb2.1 rfl
              obtain ⟨ls, seen1, h1, h2, h3, h4, h5⟩ := ih c seen (hk c hc).1 (by have := (hk c hc).2; omega) hs
              have hi1 : i ∉ seen1 := by
                intro hmem
                rcases (h3 i).1 hmem with h | h
                · exact hi' h
                · exact hni c hc h
              obtain ⟨lss, seen2, k1, k2, k3, k4, k5⟩ := ihc hsub' hnd.2 seen1 h2 hi1
              refine ⟨(ls ++ [.edge i c k]) :: lss, seen2, ?_, k2, ?_, ?_, ?_⟩
              · simp only [foldKids, dotKid, hb1, h1, k1]
              · intro j
                rw [k3, h3]
                simp [hv, or_assoc]
              · intro x
                rw [List.flatten_cons, List.mem_append, List.mem_append, List.mem_singleton, h4, k4]
                simp only [h3, not_or, List.mem_cons, exists_eq_or_imp, hv, true_and]
                constructor
                · rintro ((⟨j, a1, a2, a3⟩ | rfl) | ⟨j, ⟨a1, a1'⟩, a2, a3⟩ | h)
                  · exact .inl ⟨j, a1, .inl a2, a3⟩
                  · exact .inr (.inl rfl)
                  · exact .inl ⟨j, a1, .inr a2, a3⟩
                  · exact .inr (.inr h)
                · rintro (⟨j, a1, a2, a3⟩ | rfl | h)
                  · by_cases hcj : Shown m st c j
                    · exact .inl (.inl ⟨j, a1, hcj, a3⟩)
                    · rcases a2 with a2 | a2
                      · exact absurd a2 hcj
                      · exact .inr (.inl ⟨j, ⟨a1, hcj⟩, a2, a3⟩)
                  · exact .inl (.inr rfl)
                  · exact .inr (.inr h)
              · rw [List.flatten_cons, List.nodup_append, List.nodup_append]
                refine ⟨⟨h5, by simp, ?_⟩, k5, ?_⟩
                · intro x hx y hy
                  rw [List.mem_singleton] at hy
                  subst hy
                  rintro rfl
                  obtain ⟨j, _, a2, a3⟩ := (h4 _).1 hx
                  cases a3
                  exact hni c hc a2
                · intro x hx y hy
                  rintro rfl
                  rcases (k4 _).1 hy with ⟨j, a1, ⟨p, hp, _, a2⟩, a3⟩ | ⟨p, hp, _, rfl⟩
                  · rcases List.mem_append.1 hx with hx | hx
                    · obtain ⟨j', b1, b2, b3⟩ := (h4 _).1 hx
                      obtain rfl := a3.src b3
                      exact a1 ((h3 _).2 (.inr b2))
                    · rw [List.mem_singleton] at hx
                      subst hx
                      cases a3
                      exact hni _ (List.mem_of_getElem? (hsub' p hp)) a2
                  · rcases List.mem_append.1 hx with hx | hx
                    · obtain ⟨j', b1, b2, b3⟩ := (h4 _).1 hx
                      cases b3
                      exact hni c hc b2
                    · rw [List.mem_singleton] at hx
                      cases hx
                      exact hnd.1 (List.mem_map.2 ⟨p, hp, rfl⟩)
        have hzip : ∀ p : Nat × Nat, p ∈ (List.range ch.length).zip ch ↔ ch[p.1]? = some p.2 := by
          rintro ⟨k, c⟩
          rw [List.mem_iff_getElem?]
          simp only [List.getElem?_zip_eq_some]
          constructor
          · rintro ⟨q, h1, h2⟩
            rw [List.getElem?_range] at h1
            · cases h1; exact h2
            · exact (List.getElem?_eq_some_iff.1 h2).1
          · intro h
            exact ⟨k, List.getElem?_range (List.getElem?_eq_some_iff.1 h).1, h⟩
        have hmap : (((List.range ch.length).zip ch).map (·.1)).Nodup := by
          have : ((List.range ch.length).zip ch).map (·.1) = List.range ch.length := by
            rw [List.map_fst_zip]; simp
          rw [this]; exact List.nodup_range
        obtain ⟨lss, seen', k1, k2, k3, k4, k5⟩ := loop _ (fun p hp => (hzip p).1 hp) hmap seen hs hm
        have hkid : ∀ j, (∃ p ∈ (List.range ch.length).zip ch, m.Visible st p.2 ∧ Shown m st p.2 j) ↔
            ∃ c ∈ ch, m.Visible st c ∧ Shown m st c j := by
          intro j
          constructor
          · rintro ⟨p, hp, h⟩; exact ⟨p.2, List.mem_of_getElem? ((hzip p).1 hp), h⟩
          · rintro ⟨c, hc, h⟩
            obtain ⟨k, hk⟩ := List.mem_iff_getElem?.1 hc
            exact ⟨(k, c), (hzip _).2 hk, h⟩
        have hreach : ∀ j, Shown m st i j ↔ j = i ∨ ∃ c ∈ ch, m.Visible st c ∧ Shown m st c j := by
          intro j
          constructor
          · intro hj
            rcases hj.cases_head with h | ⟨h', ch', c, e1, e2, e3⟩
            · exact .inl h.symm
            · rw [hn] at e1; cases e1; exact .inr ⟨c, e2, e3⟩
          · rintro (rfl | ⟨c, hc, hv, hj⟩)
            · exact .root _
            · exact ((Shown.root i).step hn hc hv).trans hj
        refine ⟨.node i true hd.label :: lss.flatten, i :: seen', ?_, ?_, ?_, ?_, ?_⟩
        · simp only [dotImpl, if_neg hm, hn, hlab, k1]
        · intro j hj k hjk
          rcases List.mem_cons.1 hj with rfl | hj
          · rcases (hreach k).1 hjk with rfl | hc
            · exact List.mem_cons_self
            · exact List.mem_cons_of_mem _ ((k3 k).2 (.inr ((hkid k).2 hc)))
          · exact List.mem_cons_of_mem _ (k2 j hj k hjk)
        · intro j
          rw [List.mem_cons, k3, hreach, hkid]
          constructor
          · rintro (h | h | h)
            · exact .inr (.inl h)
            · exact .inl h
            · exact .inr (.inr h)
          · rintro (h | h | h)
            · exact .inr (.inl h)
            · exact .inl h
            · exact .inr (.inr h)
        · intro x
          rw [List.mem_cons, k4]
          simp only [hkid]
          constructor
          · rintro (rfl | ⟨j, a1, a2, a3⟩ | ⟨p, hp, hv, rfl⟩)
            · exact ⟨i, hm, .root i, .nt hn hh⟩
            · exact ⟨j, a1, (hreach j).2 (.inr a2), a3⟩
            · exact ⟨i, hm, .root i, .edge hn ((hzip p).1 hp) hv⟩
          · rintro ⟨j, a1, a2, a3⟩
            rcases (hreach j).1 a2 with rfl | a2
            · cases a3 with
              | term h => rw [hn] at h; cases h
              | nt h h' => rw [hn] at h; cases h; rw [hh] at h'; cases h'; exact .inl rfl
              | edge h h' hv => rw [hn] at h; cases h; exact .inr (.inr ⟨(_, _), (hzip _).2 h', hv, rfl⟩)
            · exact .inr (.inl ⟨j, a1, a2, a3⟩)
        · rw [List.nodup_cons]
          refine ⟨?_, k5⟩
          intro hx
          rcases (k4 _).1 hx with ⟨j, _, ⟨p, hp, _, a2⟩, a3⟩ | ⟨p, _, _, e⟩
          · have : i = j := a3.owner
            subst this
            exact hni _ (List.mem_of_getElem? ((hzip p).1 hp)) a2
          · cases e

/-- The picture of `i` consists of the statements of the shown nodes, each once. -/
theorem dotLines_ok (wf : WF R' m) (st : DotStyle T) {i : Nat} (hi : m.Live i) :
    ∃ ls, m.dotLines st i = some ls ∧ ls.Nodup ∧ ∀ x, x ∈ ls ↔ ∃ j, Shown m st i j ∧ LineOf m st j x := by
  obtain ⟨ls, seen', h1, _, _, h4, h5⟩ := dotImpl_ok (st := st) wf (m.rank i + 1) i [] hi (by omega) (by intro _ h; cases h)
  refine ⟨ls, by simp [dotLines, h1], h5, ?_⟩
  intro x
  rw [h4]
  simp

end
end Arena
end DD
