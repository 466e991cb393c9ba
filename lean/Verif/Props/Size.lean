import Verif.Bdd.Size
import Verif.Bss.Stable
import Verif.Props.BddAnalysis

/-!
# Property C74 for BDDs: sizes of results, and no garbage
-/

set_option autoImplicit false
set_option linter.unusedSectionVars false
set_option linter.unusedVariables false

namespace DD

namespace MOK
variable {m m' : BddMgr} {names : List String} {L : List Nat}

/-- Wrapping a result keeps the node array and adds no node. -/
theorem wrap_live (h : MOK m names L) {r : Nat} {b : Bdd} {F : BFun} (hb : Bdd.Inv b)
    (st : Arena.Step m.bdd.arena b.arena) (hd : Den b.arena r F) {r' : Nat} (hw : m.wrap (some (r, b)) = some (r', m')) :
    r' = r ∧ m'.bdd.arena.nodes = b.arena.nodes ∧ ∀ j, m'.bdd.arena.Live j → b.arena.Live j := by
  have mok := (h.eng hb st).pin hd
  unfold BddMgr.wrap at hw
  simp only at hw
  split at hw
  · cases hw
  · rename_i m1 he
    cases hw
    unfold BddMgr.maybeGc at he
    split at he
    · cases he; exact ⟨rfl, rfl, fun _ hj => hj⟩
    · split at he
      · cases he
      · rename_i n b1 he1
        cases he
        obtain ⟨n', b', h1, h2, h3, h4, _, h6, _⟩ := Bdd.gc_ok hb (fun i hi _ => mok.roots_live hi)
        have h1 := he1.symm.trans h1
        cases h1
        exact ⟨rfl, h4, fun j hj => (h6.keep j hj).1⟩

end MOK

namespace Props
open Arena

variable {w w' : World}

/-- The number of nodes of a handle: non-terminals and terminals as reported by `size`. -/
def Nodes (w : World) (f k : Nat) : Prop := ∃ n t e, w.bddSize f = some (n, t, e) ∧ k = n + t

theorem nodes_list (hw : w.Reachable) {f i k : Nat} (hf : w.held.get f = some i) (h : Nodes w f k) :
    ∃ L : List Nat, L.Nodup ∧ (∀ j, j ∈ L ↔ Reach w.mgr.bdd.arena i j) ∧ L.length = k := by
  obtain ⟨A, R⟩ := hw.rel
  obtain ⟨F, _, h2⟩ := R.heldS f i hf
  obtain ⟨L, k1, k2, k3⟩ := Bdd.nodeSize_ok R.mok.inv h2.live
  obtain ⟨n, t, e, h1, rfl⟩ := h
  unfold World.bddSize at h1
  rw [hf] at h1
  simp only at h1
  rw [k3] at h1
  simp only [Option.some.injEq, Prod.mk.injEq] at h1
  obtain ⟨e1, e2, _⟩ := h1
  refine ⟨L, k1, k2, ?_⟩
  rw [← e1, ← e2, List.countP_eq_length_filter, List.countP_eq_length_filter]
  exact List.length_eq_length_filter_add _

/-- **C74.** A handle whose function is computed pointwise from those of other handles has at most as many nodes
as there are tuples of nodes of the others: `|f ∘ g| ≤ |f| · |g|`. -/
theorem C74_bdd_size (hw : w.Reachable) {f k : Nat} {F : BFun} (hf : w.Denotes f F) (hk : Nodes w f k)
    {gs ks : List Nat} {Gs : List BFun} (hg : List.Forall₂ w.Denotes gs Gs) (hks : List.Forall₂ (Nodes w) gs ks)
    (hdet : ∀ a b, (∀ G ∈ Gs, G a = G b) → F a = F b) : k ≤ ks.prod := by
  obtain ⟨A, R⟩ := hw.rel
  obtain ⟨i, h1, h2⟩ := denotes_get R hf
  obtain ⟨Lr, n1, n2, rfl⟩ := nodes_list hw h1 hk
  have key : ∃ is Ls, List.Forall₂ (Den w.mgr.bdd.arena) is Gs ∧
      List.Forall₂ (fun g L => ∀ j, Reach w.mgr.bdd.arena g j → j ∈ L) is Ls ∧ Ls.map List.length = ks := by
    clear hdet
    induction hg generalizing ks with
    | nil => cases hks; exact ⟨[], [], .nil, .nil, rfl⟩
    | cons d1 _ ih =>
      cases hks with
      | cons e1 e2 =>
        obtain ⟨is, Ls, a1, a2, a3⟩ := ih e2
        obtain ⟨j, b1, b2⟩ := denotes_get R d1
        obtain ⟨L, c1, c2, c3⟩ := nodes_list hw b1 e1
        exact ⟨j :: is, L :: Ls, .cons b2 a1, .cons (fun x hx => (c2 x).2 hx) a2, by simp [a3, c3]⟩
  obtain ⟨is, Ls, a1, a2, rfl⟩ := key
  exact Bdd.reach_le R.mok.inv R.mok.inj h2 a1 hdet n1 (fun j hj => (n2 j).1 hj) a2

/-- **C74.** Two handles whose functions determine each other pointwise, such as a function and its negation,
have the same number of nodes. -/
theorem C74_bdd_same_size (hw : w.Reachable) {f g k l : Nat} {F G : BFun} (hf : w.Denotes f F) (hg : w.Denotes g G)
    (hk : Nodes w f k) (hl : Nodes w g l) (h : ∀ a b, F a = F b ↔ G a = G b) : k = l := by
  have h1 := C74_bdd_size hw hf hk (.cons hg .nil) (.cons hl .nil)
    (fun a b e => (h a b).2 (e G (List.mem_singleton.2 rfl)))
  have h2 := C74_bdd_size hw hg hl (.cons hf .nil) (.cons hk .nil)
    (fun a b e => (h a b).1 (e F (List.mem_singleton.2 rfl)))
  simp at h1 h2
  omega

/-- The operations made of one recursion over their operands. -/
def single : Cmd → Option (List Nat)
  | .not f => some [f]
  | .and f g => some [f, g]
  | .or f g => some [f, g]
  | .xor f g => some [f, g]
  | .ite f g h => some [f, g, h]
  | _ => none

/-- What such an operation does to the manager. -/
theorem single_spec {A : Abs} (R : Rel w A) {c : Cmd} {fs : List Nat} (hc : single c = some fs) {o : Out}
    (hs : w.step c = some (o, w')) : ∃ r b is Fs F, w.give (w.mgr.wrap (some (r, b))) = some (o, w') ∧ Bdd.Inv b ∧
      Step w.mgr.bdd.arena b.arena ∧ Den b.arena r F ∧ Clean w.mgr.bdd.arena b.arena r ∧
      List.Forall₂ (fun f i => w.held.get f = some i) fs is ∧ List.Forall₂ (Den w.mgr.bdd.arena) is Fs ∧
      ∀ a b, (∀ G ∈ Fs, G a = G b) → F a = F b := by
  have hi := R.mok.inv
  have key : ∀ {res : Option (Nat × Bdd)} {is : List Nat} {Fs : List BFun} {F : BFun},
      w.give (w.mgr.wrap res) = some (o, w') → Bdd.BOk w.mgr.bdd F res →
      (∀ r b, res = some (r, b) → Clean w.mgr.bdd.arena b.arena r) →
      List.Forall₂ (fun f i => w.held.get f = some i) fs is → List.Forall₂ (Den w.mgr.bdd.arena) is Fs →
      (∀ a b, (∀ G ∈ Fs, G a = G b) → F a = F b) →
      ∃ r b is Fs F, w.give (w.mgr.wrap (some (r, b))) = some (o, w') ∧ Bdd.Inv b ∧
        Step w.mgr.bdd.arena b.arena ∧ Den b.arena r F ∧ Clean w.mgr.bdd.arena b.arena r ∧
        List.Forall₂ (fun f i => w.held.get f = some i) fs is ∧ List.Forall₂ (Den w.mgr.bdd.arena) is Fs ∧
        ∀ a b, (∀ G ∈ Fs, G a = G b) → F a = F b := by
    rintro res is Fs F h1 ⟨r, b, rfl, h2, h3, h4⟩ h5 h6 h7 h8
    exact ⟨r, b, is, Fs, F, h1, h2, h3, h4, h5 r b rfl, h6, h7, h8⟩
  cases c <;> simp only [single, Option.some.injEq, reduceCtorEq] at hc
  case not f =>
    subst hc
    simp only [World.step] at hs
    split at hs
    · rename_i i e1
      obtain ⟨F, _, d1⟩ := R.heldS f i e1
      exact key hs (Bdd.not_den hi d1) (fun r b h => Bdd.not_clean hi d1.live h) (.cons e1 .nil) (.cons d1 .nil)
        (fun a b h => by simp only [h F (by simp)])
    · cases hs
  case and f g =>
    subst hc
    simp only [World.step] at hs
    split at hs
    · rename_i i j e1 e2
      obtain ⟨F, _, d1⟩ := R.heldS f i e1
      obtain ⟨G, _, d2⟩ := R.heldS g j e2
      exact key hs (Bdd.and_den hi d1 d2) (fun r b h => Bdd.and_clean hi d1.live d2.live h)
        (.cons e1 (.cons e2 .nil)) (.cons d1 (.cons d2 .nil)) (fun a b h => by simp only [h F (by simp), h G (by simp)])
    · cases hs
  case or f g =>
    subst hc
    simp only [World.step] at hs
    split at hs
    · rename_i i j e1 e2
      obtain ⟨F, _, d1⟩ := R.heldS f i e1
      obtain ⟨G, _, d2⟩ := R.heldS g j e2
      exact key hs (Bdd.or_den hi d1 d2) (fun r b h => Bdd.or_clean hi d1.live d2.live h)
        (.cons e1 (.cons e2 .nil)) (.cons d1 (.cons d2 .nil)) (fun a b h => by simp only [h F (by simp), h G (by simp)])
    · cases hs
  case xor f g =>
    subst hc
    simp only [World.step] at hs
    split at hs
    · rename_i i j e1 e2
      obtain ⟨F, _, d1⟩ := R.heldS f i e1
      obtain ⟨G, _, d2⟩ := R.heldS g j e2
      exact key hs (Bdd.xor_den hi d1 d2) (fun r b h => Bdd.xor_clean hi d1.live d2.live h)
        (.cons e1 (.cons e2 .nil)) (.cons d1 (.cons d2 .nil)) (fun a b h => by simp only [h F (by simp), h G (by simp)])
    · cases hs
  case ite f g k =>
    subst hc
    simp only [World.step] at hs
    split at hs
    · rename_i i j l e1 e2 e3
      obtain ⟨F, _, d1⟩ := R.heldS f i e1
      obtain ⟨G, _, d2⟩ := R.heldS g j e2
      obtain ⟨H, _, d3⟩ := R.heldS k l e3
      exact key hs (Bdd.ite_den hi d1 d2 d3) (fun r b h => Bdd.ite_clean hi d1.live d2.live d3.live h)
        (.cons e1 (.cons e2 (.cons e3 .nil))) (.cons d1 (.cons d2 (.cons d3 .nil)))
        (fun a b h => by simp only [h F (by simp), h G (by simp), h H (by simp)])
    · cases hs

/-- **C74.** After `not`, `and`, `or`, `xor` or `ite`, whether or not a collection ran, every node in use was in use
before the call or belongs to the diagram of the result: no intermediate results are left behind. -/
theorem C74_bdd_no_garbage (hw : w.Reachable) {c : Cmd} {fs : List Nat} (hc : single c = some fs) {o : Out}
    (hs : w.step c = some (o, w')) : ∃ h r, o = .handle h ∧ w'.held.get h = some r ∧
      ∀ j, w'.mgr.bdd.arena.Live j → w.mgr.bdd.arena.Live j ∨ Reach w'.mgr.bdd.arena r j := by
  obtain ⟨A, R⟩ := hw.rel
  obtain ⟨r, b, is, Fs, F, h1, h2, h3, h4, h5, _⟩ := single_spec R hc hs
  unfold World.give at h1
  split at h1
  · cases h1
  · rename_i r' m' e
    cases h1
    obtain ⟨rfl, k2, k3⟩ := R.mok.wrap_live h2 h3 h4 e
    exact ⟨_, r', rfl, by simp, h5.trans_left (r' := r') k3 k2⟩

/-- **C74.** `not`, `and`, `or`, `xor` and `ite` add at most as many nodes as the product of the numbers of nodes of
their operands. -/
theorem C74_bdd_growth (hw : w.Reachable) {c : Cmd} {fs : List Nat} (hc : single c = some fs) {o : Out}
    (hs : w.step c = some (o, w')) {ks : List Nat} (hk : List.Forall₂ (Nodes w) fs ks) :
    w'.mgr.bdd.liveNodeCount ≤ w.mgr.bdd.liveNodeCount + ks.prod := by
  obtain ⟨A, R⟩ := hw.rel
  obtain ⟨r, b, is, Fs, F, h1, h2, h3, h4, h5, h6, h7, h8⟩ := single_spec R hc hs
  unfold World.give at h1
  split at h1
  · cases h1
  · rename_i r' m' e
    cases h1
    obtain ⟨rfl, k2, k3⟩ := R.mok.wrap_live h2 h3 h4 e
    obtain ⟨_, _, q1, q2, _⟩ := R.mok.wrap ⟨r', b, rfl, h2, h3, h4⟩
    rw [e] at q1
    cases q1
    obtain ⟨Lr, l1, l2, _⟩ := Bdd.nodeSize_ok h2 h4.live
    have c1 : m'.bdd.liveNodeCount ≤ b.liveNodeCount + ([] : List Nat).length :=
      h2.wf.count_le q2.inv.wf fun j hj => .inl (k3 j hj)
    have c2 : b.liveNodeCount ≤ w.mgr.bdd.liveNodeCount + Lr.length :=
      R.mok.inv.wf.count_le h2.wf fun j hj => (h5 j hj).imp id (fun h => (l2 j).2 h)
    have wf := R.mok.inv.wf
    have inj : b.arena.LevInj := levInj_of (h3.heq.trans R.mok.hdrs)
    have key : ∃ Ls, List.Forall₂ (Den b.arena) is Fs ∧
        List.Forall₂ (fun g L => ∀ j, Reach b.arena g j → j ∈ L) is Ls ∧ Ls.map List.length = ks := by
      clear h8 hc
      induction h6 generalizing ks Fs with
      | nil => cases hk; cases h7; exact ⟨[], .nil, .nil, rfl⟩
      | cons d1 _ ih =>
        cases hk with
        | cons e1 e2 =>
          cases h7 with
          | cons f1 f2 =>
            obtain ⟨Ls, a1, a2, a3⟩ := ih e2 _ f2
            obtain ⟨L, c1, c2, c3⟩ := nodes_list hw d1 e1
            exact ⟨L :: Ls, .cons (f1.ext wf h3.toExt) a1,
              .cons (fun x hx => (c2 x).2 (wf.reach_back h3.toExt f1.live hx)) a2, by simp [a3, c3]⟩
    obtain ⟨Ls, a1, a2, rfl⟩ := key
    have := Bdd.reach_le h2 inj h4 a1 h8 l1 (fun j hj => (l2 j).1 hj) a2
    simp only [List.length_nil] at c1
    show m'.bdd.liveNodeCount ≤ _
    omega

end Props
end DD
