import Verif.Bss.BssMgr
import Verif.Bss.ReachW
import Verif.Bss.ZReads
import Verif.Bss.ConvertOk

/-!
# Sessions of `BssMgr`

The ZDD manager of a `BssMgr` may have several headers for one level (each call of `minpath` creates its own), so its
invariant is weaker than that of a stand-alone ZDD manager: level and label of every header agree with the variable
order of the BDD manager.
-/

set_option autoImplicit false
set_option linter.unusedSectionVars false
set_option linter.unusedVariables false

namespace DD
open Arena Zdd

/-- ZDD world whose levels carry the given names. -/
structure ZLab (w : ZWorld) (names : List String) : Prop where
  ok : Wr.OK zI w.mgr.w w.hs.held.vals
  lbl : Lbl w.mgr.w.eng.arena names
  hs : w.hs.Ok

theorem Zdd.Lbl.prefix {m : Arena T3} {names names' : List String} (h : Lbl m names) (hp : names <+: names')
    (nd : names'.Nodup) : Lbl m names' :=
  ⟨nd, fun hd hm => getElem?_prefix hp (h.lab hd hm)⟩

theorem Zdd.Lbl.congr {m m' : Arena T3} {names : List String} (h : Lbl m names) (e : m'.headers = m.headers) :
    Lbl m' names := ⟨h.nodup, by rw [e]; exact h.lab⟩

namespace ZLab
variable {w : ZWorld} {names : List String}

theorem has (R : ZLab w names) {h i : Nat} (hi : w.hs.held.get h = some i) :
    ∃ F, ZDen w.mgr.w.eng.arena i F ∧ w.Has h F := by
  obtain ⟨F, hF⟩ := R.ok.live i (AMap.mem_vals_of_get hi)
  exact ⟨F, hF, i, hi, hF⟩

theorem bits (R : ZLab w names) {h : Nat} {V : ZVal} (hV : w.Has h V) {a : Nat → Nat} {t : T3} (ha : V a t) :
    BitA names a := by
  obtain ⟨i, h1, h2⟩ := hV
  exact h2.bits R.ok.inv R.lbl ha

theorem reads_iff (R : ZLab w names) {h : Nat} {V : ZVal} (hV : w.Has h V) {t : T3} (ht : t ≠ .zero)
    {S : Set String} : w.Reads h t S ↔ ∃ a, V a t ∧ S = labS names a := by
  obtain ⟨i, h1, h2⟩ := hV
  rw [← h2.mem_iff R.ok.inv R.lbl ht]
  constructor
  · rintro ⟨j, hj, hm⟩; rw [h1] at hj; cases hj; exact hm
  · intro hm; exact ⟨i, h1, hm⟩

theorem denotes_of (R : ZLab w names) {h : Nat} {V : ZVal} (hV : w.Has h V) (hc : V.Cl) :
    w.Denotes h (ZRel.famOf names V) where
  held := by obtain ⟨i, h1, _⟩ := hV; exact ⟨i, h1⟩
  fam := fun S => (R.reads_iff hV (by decide)).symm
  det := fun S hS => by
    obtain ⟨a, ha, _⟩ := (R.reads_iff hV (by decide)).1 hS
    exact hc a ha

theorem of_denotes (R : ZLab w names) {h : Nat} {𝓕 : Set (Set String)} (hD : w.Denotes h 𝓕) :
    ∃ V, w.Has h V ∧ V.Cl ∧ 𝓕 = ZRel.famOf names V := by
  obtain ⟨i, hi⟩ := hD.held
  obtain ⟨V, _, hV⟩ := R.has hi
  refine ⟨V, hV, ?_, ?_⟩
  · intro a ha
    exact hD.det _ ((R.reads_iff hV (by decide)).2 ⟨a, ha, rfl⟩)
  · ext S; rw [hD.fam, R.reads_iff hV (by decide)]; rfl

theorem denotes_keep {w' : ZWorld} {names' : List String} (R : ZLab w names) (R' : ZLab w' names')
    (hp : names <+: names') {h : Nat} (hk : ∀ F, w.Has h F → w'.Has h F) {𝓕 : Set (Set String)}
    (hD : w.Denotes h 𝓕) : w'.Denotes h 𝓕 := by
  obtain ⟨V, hV, hc, he⟩ := R.of_denotes hD
  have := R'.denotes_of (hk V hV) hc
  have e : ZRel.famOf names' V = 𝓕 := by
    rw [he]; ext S
    constructor
    · rintro ⟨a, ha, rfl⟩; exact ⟨a, ha, labS_prefix hp (R.bits hV ha)⟩
    · rintro ⟨a, ha, rfl⟩; exact ⟨a, ha, (labS_prefix hp (R.bits hV ha)).symm⟩
  rw [e] at this; exact this

/-- A call that creates a handle. -/
theorem give (R : ZLab w names) {m : ZddMgr} {r : Nat} {V : ZVal}
    (h : Wr.OK zI m.w (r :: w.hs.held.vals)) (hn : Lbl m.w.eng.arena names) (hd : ZDen m.w.eng.arena r V)
    (keep : zI.KeepL w.hs.held.vals w.mgr.w.eng m.w.eng) :
    ∃ w', w.give (some (r, m)) = some (.handle w.hs.next, w') ∧ ZLab w' names ∧
      w'.Has w.hs.next V ∧ (∀ h F, w.Has h F → w'.Has h F) ∧ w'.mgr = m ∧ w'.hs = w.hs.give r := by
  refine ⟨{ mgr := m, hs := w.hs.give r }, rfl, ⟨?_, hn, R.hs.give r⟩, ⟨r, Hs.give_next r, hd⟩, ?_, rfl, rfl⟩
  · show Wr.OK zI m.w (w.hs.give r).held.vals
    rw [R.hs.vals_give]; exact h
  · rintro n F ⟨i, h1, h2⟩
    exact ⟨i, R.hs.give_old r h1, keep i (AMap.mem_vals_of_get h1) F h2⟩

/-- An engine result becomes a handle. -/
theorem wrapped (R : ZLab w names) {r : Nat} {e : Zdd} {V : ZVal} (hi : Inv e) (st : Ext w.mgr.w.eng.arena e.arena)
    (hn : Lbl e.arena names) (hd : ZDen e.arena r V) :
    ∃ w', w.give (w.mgr.wrap (some (r, e))) = some (.handle w.hs.next, w') ∧ ZLab w' names ∧
      w'.Has w.hs.next V ∧ ∀ h F, w.Has h F → w'.Has h F := by
  obtain ⟨m, k1, k2, k3, k4, k5⟩ := R.ok.wrap (r := r) (e := e) hi (keep_of_ext R.ok.inv st) hd
  have e1 : w.mgr.wrap (some (r, e)) = some (r, { w.mgr with w := m }) := by simp only [ZddMgr.wrap, k1]
  rw [e1]
  obtain ⟨w', g1, g2, g3, g4, -, -⟩ := R.give (m := { w.mgr with w := m }) k2 (hn.congr k3) k4 k5
  exact ⟨w', g1, g2, g3, g4⟩

theorem bin (R : ZLab w names) {op : Zdd → Nat → Nat → Option (Nat × Zdd)}
    {P : ZVal → ZVal → ZVal → Prop} {f g : Nat}
    (hop : ∀ i j F G, ZDen w.mgr.w.eng.arena i F → ZDen w.mgr.w.eng.arena j G →
      ZOk w.mgr.w.eng (P F G) (op w.mgr.w.eng i j))
    (hf : ∃ i, w.hs.held.get f = some i) (hg : ∃ i, w.hs.held.get g = some i) :
    ∃ o w', w.op2 op f g = some (o, w') ∧ ZBin P w f g o w' ∧ ZLab w' names ∧
      (∀ h F, w.Has h F → w'.Has h F) := by
  obtain ⟨i, hi⟩ := hf
  obtain ⟨j, hj⟩ := hg
  obtain ⟨F, F1, F2⟩ := R.has hi
  obtain ⟨G, G1, G2⟩ := R.has hj
  obtain ⟨r, s', V, h1, h2, h3, h4, h5⟩ := hop i j F G F1 G1
  obtain ⟨w', k1, k2, k3, k4⟩ := R.wrapped h2 h3.toExt (R.lbl.congr h3.heq) h4
  exact ⟨_, w', by simp only [ZWorld.op2, hi, hj, h1]; exact k1, ⟨F, G, V, F2, G2, rfl, k3, h5⟩, k2, k4⟩

/-- What a call on the ZDD side does (for the calls possible through `&ZddMgr`). -/
def Post (w : ZWorld) : ZCmd → ZOut → ZWorld → Prop
  | .empty, o, w' => o = .handle w.hs.next ∧ w'.Has w.hs.next zEmpty
  | .base, o, w' => o = .handle w.hs.next ∧ w'.Has w.hs.next zBase
  | .union f g, o, w' => ZBin ZSpecUnion w f g o w'
  | .intersect f g, o, w' => ZBin ZSpecInter w f g o w'
  | .setdiff f g, o, w' => ZBin ZSpecDiff w f g o w'
  | .product f g, o, w' => ZBin ZSpecProd w f g o w'
  | .clone f, o, w' => o = .handle w.hs.next ∧ ∀ F, w.Has f F → w'.Has w.hs.next F
  | .eq f g, o, w' => w' = w ∧ ∃ F G b, w.Has f F ∧ w.Has g G ∧ o = .bool b ∧ (b = true → F = G)
  | _, _, _ => True

theorem step (R : ZLab w names) {c : ZCmd} (hc : ZCmd.shared c = true ∨ c = .clearCache)
    (hl : ∀ f ∈ ZWorld.operands c, ∃ i, w.hs.held.get f = some i) :
    ∃ o w', w.step c = some (o, w') ∧ Post w c o w' ∧ ZLab w' names ∧
      ∀ h F, w.Has h F → c ≠ .drop h → w'.Has h F := by
  cases c with
  | singleton x => rcases hc with h | h <;> cases h
  | fromSets ss => rcases hc with h | h <;> cases h
  | empty =>
    obtain ⟨w', k1, k2, k3, k4⟩ := R.wrapped R.ok.inv (Ext.refl _) R.lbl (zden_zero R.ok.inv)
    exact ⟨_, w', k1, ⟨rfl, k3⟩, k2, fun h F hF _ => k4 h F hF⟩
  | base =>
    obtain ⟨w', k1, k2, k3, k4⟩ := R.wrapped R.ok.inv (Ext.refl _) R.lbl (zden_one R.ok.inv)
    exact ⟨_, w', k1, ⟨rfl, k3⟩, k2, fun h F hF _ => k4 h F hF⟩
  | union f g =>
    obtain ⟨o, w', h1, h2, h3, h4⟩ := R.bin (fun i j F G => union_z R.ok.inv)
      (hl f (by simp [ZWorld.operands])) (hl g (by simp [ZWorld.operands]))
    exact ⟨o, w', h1, h2, h3, fun h F hF _ => h4 h F hF⟩
  | intersect f g =>
    obtain ⟨o, w', h1, h2, h3, h4⟩ := R.bin (fun i j F G => intersect_z R.ok.inv)
      (hl f (by simp [ZWorld.operands])) (hl g (by simp [ZWorld.operands]))
    exact ⟨o, w', h1, h2, h3, fun h F hF _ => h4 h F hF⟩
  | setdiff f g =>
    obtain ⟨o, w', h1, h2, h3, h4⟩ := R.bin (fun i j F G => setdiff_z R.ok.inv)
      (hl f (by simp [ZWorld.operands])) (hl g (by simp [ZWorld.operands]))
    exact ⟨o, w', h1, h2, h3, fun h F hF _ => h4 h F hF⟩
  | product f g =>
    obtain ⟨o, w', h1, h2, h3, h4⟩ := R.bin (fun i j F G => product_z R.ok.inv)
      (hl f (by simp [ZWorld.operands])) (hl g (by simp [ZWorld.operands]))
    exact ⟨o, w', h1, h2, h3, fun h F hF _ => h4 h F hF⟩
  | divide f g =>
    obtain ⟨o, w', h1, h2, h3, h4⟩ := R.bin (op := Zdd.divide) (P := fun _ _ _ => True)
      (fun i j F G hF hG => zok_of (divide_ok R.ok.inv hF.live hG.live) (fun _ _ _ _ _ _ _ => trivial))
      (hl f (by simp [ZWorld.operands])) (hl g (by simp [ZWorld.operands]))
    exact ⟨o, w', h1, trivial, h3, fun h F hF _ => h4 h F hF⟩
  | clone f =>
    obtain ⟨i, hi⟩ := hl f (by simp [ZWorld.operands])
    obtain ⟨F, F1, F2⟩ := R.has hi
    obtain ⟨w', k1, k2, k3, k4, _⟩ := R.give (m := { w.mgr with w := w.mgr.w.pin i }) (R.ok.pin (k := i) F1)
      R.lbl F1 (fun _ _ _ h => h)
    exact ⟨_, w', by simp only [ZWorld.step, hi]; exact k1,
      ⟨rfl, fun G hG => by rw [ZRel.has_unique hG F2]; exact k3⟩, k2, fun h F hF _ => k4 h F hF⟩
  | drop f =>
    obtain ⟨i, hi⟩ := hl f (by simp [ZWorld.operands])
    refine ⟨.unit, { mgr := w.mgr.unpin i, hs := w.hs.drop f }, by simp only [ZWorld.step, hi], trivial,
      ⟨?_, R.lbl, R.hs.drop f⟩, ?_⟩
    · have := Wr.OK.dropHandle (P := []) R.hs (by simpa using R.ok) hi
      rw [List.append_nil] at this
      exact this
    · rintro h F ⟨j, h1, h2⟩ hne
      refine ⟨j, ?_, h2⟩
      show (w.hs.drop f).held.get h = _
      rw [Hs.drop_get (fun e => hne (by rw [e]))]; exact h1
  | children f =>
    obtain ⟨i, hi⟩ := hl f (by simp [ZWorld.operands])
    obtain ⟨F, F1, F2⟩ := R.has hi
    cases zden_cases R.ok.inv F1 with
    | term t e1 _ e3 =>
      exact ⟨.pair none, w, by simp only [ZWorld.step, hi, e1], trivial, R, fun h F hF _ => hF⟩
    | node hh lo hi' hd e1 e2 e3 e4 e5 e6 e7 =>
      obtain ⟨w1, k1, k2, k3, k4, k5, k6⟩ := R.give (m := { w.mgr with w := w.mgr.w.pin lo })
        (R.ok.pin (k := lo) e6) R.lbl e6 (fun _ _ _ h => h)
      have e7' : ZDen w1.mgr.w.eng.arena hi' (F.hi hd.level) := by rw [k5]; exact e7
      obtain ⟨w2, l1, l2, l3, l4, l5, l6⟩ := k2.give (m := { w1.mgr with w := w1.mgr.w.pin hi' })
        (k2.ok.pin (k := hi') e7') k2.lbl e7' (fun _ _ _ h => h)
      refine ⟨.pair (some (w.hs.next, w.hs.next + 1)), w2, ?_, trivial, l2,
        fun h F hF _ => l4 h F (k4 h F hF)⟩
      simp only [ZWorld.step, hi, e1]
      obtain ⟨m2, s2⟩ := w2
      simp only at l5 l6
      rw [l5, l6, k5, k6]
  | setThreshold n =>
    exact ⟨.unit, _, rfl, trivial, ⟨R.ok.threshold n, R.lbl, R.hs⟩, fun h F hF _ => hF⟩
  | clearCache =>
    exact ⟨.unit, _, rfl, trivial, ⟨R.ok.eng (clearCache_inv R.ok.inv) (fun _ _ h => h), R.lbl, R.hs⟩,
      fun h F hF _ => hF⟩
  | eq f g =>
    obtain ⟨i, hi⟩ := hl f (by simp [ZWorld.operands])
    obtain ⟨j, hj⟩ := hl g (by simp [ZWorld.operands])
    obtain ⟨F, F1, F2⟩ := R.has hi
    obtain ⟨G, G1, G2⟩ := R.has hj
    refine ⟨_, w, by simp only [ZWorld.step, hi, hj]; rfl, ⟨rfl, F, G, _, F2, G2, rfl, ?_⟩,
      R, fun h F hF _ => hF⟩
    rw [decide_eq_true_iff]
    rintro rfl; exact F1.unique G1
  | isZero f =>
    obtain ⟨i, hi⟩ := hl f (by simp [ZWorld.operands])
    obtain ⟨F, F1, F2⟩ := R.has hi
    obtain ⟨x, hx⟩ := F1.live.node
    exact ⟨_, w, by simp only [ZWorld.step, hi, node?, hx, Option.map_some]; rfl, trivial, R,
      fun h F hF _ => hF⟩
  | isOne f =>
    obtain ⟨i, hi⟩ := hl f (by simp [ZWorld.operands])
    obtain ⟨F, F1, F2⟩ := R.has hi
    obtain ⟨x, hx⟩ := F1.live.node
    exact ⟨_, w, by simp only [ZWorld.step, hi, node?, hx, Option.map_some]; rfl, trivial, R,
      fun h F hF _ => hF⟩
  | header f =>
    obtain ⟨i, hi⟩ := hl f (by simp [ZWorld.operands])
    exact ⟨_, w, by simp only [ZWorld.step, hi]; rfl, trivial, R, fun h F hF _ => hF⟩
  | level f =>
    obtain ⟨i, hi⟩ := hl f (by simp [ZWorld.operands])
    exact ⟨_, w, by simp only [ZWorld.step, hi]; rfl, trivial, R, fun h F hF _ => hF⟩
  | label f =>
    obtain ⟨i, hi⟩ := hl f (by simp [ZWorld.operands])
    exact ⟨_, w, by simp only [ZWorld.step, hi]; rfl, trivial, R, fun h F hF _ => hF⟩

theorem of_step (R : ZLab w names) {c : ZCmd} (hc : ZCmd.shared c = true ∨ c = .clearCache) {o : ZOut}
    {w' : ZWorld} (h : w.step c = some (o, w')) :
    Post w c o w' ∧ ZLab w' names ∧ ∀ h F, w.Has h F → c ≠ .drop h → w'.Has h F := by
  obtain ⟨o', w'', h1, h2⟩ := R.step hc (ZRel.operands_of_step h)
  rw [h] at h1; cases h1
  exact h2

theorem mono (R : ZLab w names) {names' : List String} (hp : names <+: names') (nd : names'.Nodup) :
    ZLab w names' := ⟨R.ok, R.lbl.prefix hp nd, R.hs⟩

end ZLab

/-! ## The variable order only grows -/

theorem arpnTok_prefix {s s' : ARpn} {t : Tok} (h : arpnTok s t = some (.ok s')) : s.names <+: s'.names := by
  cases t <;> simp only [arpnTok] at h
  case var v =>
    cases h; exact addName_prefix _ _
  all_goals
    first
    | (cases h; exact List.prefix_rfl)
    | (split at h <;> first | (cases h; exact List.prefix_rfl) | cases h)

theorem arpnLoop_prefix (ts : List Tok) : ∀ {s : ARpn},
    (∀ s', arpnLoop s ts = some (.ok s') → s.names <+: s'.names) ∧
      ∀ e ns, arpnLoop s ts = some (.error (e, ns)) → s.names <+: ns := by
  induction ts with
  | nil =>
    intro s
    refine ⟨fun s' h => ?_, fun e ns h => ?_⟩
    · simp only [arpnLoop] at h; cases h; exact List.prefix_rfl
    · simp only [arpnLoop] at h; cases h
  | cons t ts ih =>
    intro s
    simp only [arpnLoop]
    cases ht : arpnTok s t with
    | none => exact ⟨fun s' h => (by cases h), fun e ns h => (by cases h)⟩
    | some r =>
      cases r with
      | error e =>
        exact ⟨fun s' h => (by cases h), fun e ns h => (by cases h; exact List.prefix_rfl)⟩
      | ok s1 =>
        have h1 := arpnTok_prefix ht
        exact ⟨fun s' h => h1.trans (ih.1 s' h), fun e ns h => h1.trans (ih.2 e ns h)⟩

theorem arpn_prefix {names ns : List String} {ts : List Tok} {r : Except RpnErr BFun}
    (h : arpn names ts = some (r, ns)) : names <+: ns := by
  simp only [arpn] at h
  have := arpnLoop_prefix ts (s := { names := names, stack := [], cache := fun _ => none })
  split at h
  · cases h
  · rename_i e1
    cases h
    exact this.2 _ _ e1
  · rename_i e1
    have := this.1 _ e1
    split at h <;> (cases h; exact this)

theorem Abs.Post.prefix {A A' : Abs} {c : Cmd} {o : Out} (hp : A.Post c o A') : A.names <+: A'.names := by
  cases c <;> simp only [Abs.Post] at hp
  case defvar => rw [hp.2]; exact addName_prefix _ _
  case rpn =>
    obtain ⟨r, ns, h1, h2⟩ := hp
    have := arpn_prefix h1
    cases r with
    | ok G => rw [h2.2]; exact this
    | error e => rw [h2.2]; exact this
  case children =>
    obtain ⟨_, t, _, _, h3⟩ := hp
    cases t with
    | none => rw [h3.2]; exact List.prefix_rfl
    | some l => rw [h3.2]; exact List.prefix_rfl
  case const => rw [hp.2]; exact List.prefix_rfl
  case not => obtain ⟨_, _, _, rfl⟩ := hp; exact List.prefix_rfl
  case dual => obtain ⟨_, _, _, rfl⟩ := hp; exact List.prefix_rfl
  case clone => obtain ⟨_, _, _, rfl⟩ := hp; exact List.prefix_rfl
  case and => obtain ⟨_, _, _, _, _, rfl⟩ := hp; exact List.prefix_rfl
  case or => obtain ⟨_, _, _, _, _, rfl⟩ := hp; exact List.prefix_rfl
  case xor => obtain ⟨_, _, _, _, _, rfl⟩ := hp; exact List.prefix_rfl
  case createNode => obtain ⟨_, _, _, _, _, rfl⟩ := hp; exact List.prefix_rfl
  case ite => obtain ⟨_, _, _, _, _, _, _, rfl⟩ := hp; exact List.prefix_rfl
  case andList => obtain ⟨_, _, _, rfl⟩ := hp; exact List.prefix_rfl
  case orList => obtain ⟨_, _, _, rfl⟩ := hp; exact List.prefix_rfl
  case kofn => obtain ⟨_, _, _, rfl⟩ := hp; exact List.prefix_rfl
  case drop => rw [hp.2]; exact List.prefix_rfl
  case gc => rw [hp.2]; exact List.prefix_rfl
  case setThreshold => rw [hp.2]; exact List.prefix_rfl
  case clearCache => rw [hp.2]; exact List.prefix_rfl
  case isUndet => rw [hp.2]; exact List.prefix_rfl
  case varorder => rw [hp.2]; exact List.prefix_rfl
  case eq => obtain ⟨_, _, _, _, _, _, _, rfl⟩ := hp; exact List.prefix_rfl
  case isZero => obtain ⟨_, _, _, _, _, rfl⟩ := hp; exact List.prefix_rfl
  case isOne => obtain ⟨_, _, _, _, _, rfl⟩ := hp; exact List.prefix_rfl
  case level => obtain ⟨_, _, _, _, _, rfl⟩ := hp; exact List.prefix_rfl
  case minsol => obtain ⟨_, _, _, _, _, rfl⟩ := hp; exact List.prefix_rfl

/-! ## `BssMgr` -/

namespace BssW

/-- `create_node` respects the variable order. -/
def Ordered (w : BssW) : BssCmd → Prop
  | .bdd c => w.bdd.Ordered c
  | _ => True

/-- Worlds reachable from a new manager by public calls. -/
inductive Reachable : BssW → Prop
  | new : Reachable BssW.new
  | step {w w' : BssW} {o : BssOut} (c : BssCmd) : Reachable w → w.Ordered c → w.step c = some (o, w') → Reachable w'

end BssW

/-- Invariant of a `BssMgr`. -/
structure BRel (w : BssW) (A : Abs) : Prop where
  bdd : Rel w.bdd A
  zdd : ZLab w.zdd A.names

/-- The family (by levels) of the minimal solutions of `F`. -/
def minFam (F : BFun) : ZVal := zFam (fun a => ∃ b, a = bl b ∧ MinS F b)

theorem bl_of_bitA {names : List String} {a : Nat → Nat} (h : BitA names a) : a = bl (fun l => decide (a l = 1)) := by
  funext l
  simp only [bl]
  rcases h l with h | ⟨h, _⟩ <;> simp [h]

namespace BRel
variable {w : BssW} {A : Abs}

theorem new : BRel BssW.new Abs.init :=
  ⟨Rel.new, ⟨ZRel.new.mok.ok, ⟨List.nodup_nil, fun hd h => (by cases h)⟩, ZRel.new.hs⟩⟩

/-- What `minpath` returns and does. -/
def MinPost (w : BssW) (F : BFun) (o : BssOut) (w' : BssW) : Prop :=
  (¬ MonoB F ∧ o = .fam none ∧ w'.zdd = w.zdd) ∨
    (MonoB F ∧ o = .fam (some w.zdd.hs.next) ∧ w'.zdd.Has w.zdd.hs.next (minFam F))

theorem minpath (R : BRel w A) {f : Nat} {F : BFun} (hf : A.held f = some F) :
    ∃ o w' b, w.minpath f = some (o, w') ∧ MinPost w F o w' ∧ BRel w' A ∧
      w.bdd.step (.minsol f) = some (.bool b, w'.bdd) ∧ (∀ h V, w.zdd.Has h V → w'.zdd.Has h V) := by
  obtain ⟨i, h2, h3⟩ := R.bdd.get hf
  obtain ⟨x, b, e1, e2, e3, e4, e5⟩ := Bdd.minsol_ok R.bdd.mok.inv R.bdd.mok.inj h3
  obtain ⟨o', b', A', k1, ⟨F', c', q1, q2, q3, q4⟩, k3⟩ := R.bdd.step (c := .minsol f)
    (by show (A.held f).isSome; rw [hf]; rfl)
  subst q4
  have hb : w.bdd.step (.minsol f) = some (.bool x.isSome, { w.bdd with mgr := { w.bdd.mgr with bdd := b } }) := by
    simp only [World.step, h2, e1]
  rw [hb] at k1
  simp only [Option.some.injEq, Prod.mk.injEq] at k1
  obtain ⟨rfl, rfl⟩ := k1
  cases x with
  | none =>
    exact ⟨.fam none, { w with bdd := { w.bdd with mgr := { w.bdd.mgr with bdd := b } } }, _,
      by simp only [BssW.minpath, h2, e1], .inl ⟨e4 rfl, rfl, rfl⟩, ⟨k3, R.zdd⟩, hb, fun _ _ h => h⟩
  | some r =>
    obtain ⟨hm, hr⟩ := e5 r rfl
    have hdr : ∀ hd ∈ b.arena.headers, A'.names[hd.level]? = some hd.label := by
      intro hd hh
      rw [e3.heq, R.bdd.mok.hdrs] at hh
      obtain ⟨h, hh⟩ := List.mem_iff_getElem?.1 hh
      rw [mkHeaders_get] at hh
      obtain ⟨y, g1, rfl⟩ := hh
      exact g1
    obtain ⟨z, dst, t1, t2, t3, t4, t5⟩ := toZdd_ok (P := fun l s => A'.names[l]? = some s) e2.wf e2.two hdr
      R.zdd.ok.inv R.zdd.lbl.lab hr.live
    have hn : Lbl dst.arena A'.names := ⟨R.bdd.mok.nodup, t4⟩
    have hd : ZDen dst.arena z (minFam F) := by
      refine ⟨t5.lr, fun a y => ?_⟩
      cases y with
      | zero => simp [minFam, zFam]
      | undet =>
        have := hr.cl a
        have h2 := t5.val a .undet (by decide)
        rw [← h2] at this
        constructor
        · intro h; exact absurd h (zFam_cl _ a)
        · rintro ⟨_, h⟩; exact absurd h this
      | one =>
        rw [minFam, zFam_one, t5.val a .one (by decide)]
        constructor
        · rintro ⟨c, rfl, hc⟩
          exact ⟨by decide, (hr.mem c).2 hc⟩
        · rintro ⟨_, hL⟩
          have hb := bl_of_bitA (lab_bit t2 hn ((t5.val a .one (by decide)).2 hL) t5.lr)
          exact ⟨_, hb, (hr.mem _).1 (hb ▸ hL)⟩
    obtain ⟨z', g1, g2, g3, g4⟩ := R.zdd.wrapped t2 t3 hn hd
    exact ⟨.fam (some w.zdd.hs.next), { bdd := { w.bdd with mgr := { w.bdd.mgr with bdd := b } }, zdd := z' }, _,
      by simp only [BssW.minpath, h2, e1, t1, g1], .inr ⟨hm, rfl, g3⟩, ⟨k3, g2⟩, hb, g4⟩

theorem mincut (R : BRel w A) {f : Nat} {F : BFun} (hf : A.held f = some F) :
    ∃ o w' A', w.mincut f = some (o, w') ∧ MinPost w (fun a => !F (fun l => !a l)) o w' ∧ BRel w' A' ∧
      (w.bdd.Reachable → w'.bdd.Reachable) ∧ A'.names = A.names ∧
      (∀ h G, A.held h = some G → A'.held h = some G) ∧ (∀ h V, w.zdd.Has h V → w'.zdd.Has h V) := by
  obtain ⟨o1, b1, A1, h1, ⟨F', q1, q2, q3⟩, R1⟩ := R.bdd.step (c := .dual f)
    (by show (A.held f).isSome; rw [hf]; rfl)
  rw [hf] at q1; cases q1
  subst q2
  have hd : A1.held A.next = some (fun a => !F (fun l => !a l)) := by
    rw [q3]; show (if A.next = A.next then _ else _) = _; rw [if_pos rfl]
  have hn : A1.names = A.names := by rw [q3]; rfl
  obtain ⟨o2, w2, c, h2, p2, R2, s2, k2⟩ := minpath (w := { w with bdd := b1 }) ⟨R1, by rw [hn]; exact R.zdd⟩ hd
  obtain ⟨o3, b3, A3, h3, ⟨r1, r2⟩, R3⟩ := R2.bdd.step (c := .drop A.next)
    (by show (A1.held A.next).isSome; rw [hd]; rfl)
  refine ⟨o2, { w2 with bdd := b3 }, A3, by simp only [BssW.mincut, h1, h2, h3], p2, ⟨R3, ?_⟩, ?_, ?_, ?_, k2⟩
  · rw [r2]; exact R2.zdd
  · intro hw
    exact .step (.drop A.next) (.step (.minsol A.next) (.step (.dual f) hw trivial h1) trivial s2) trivial h3
  · rw [r2]; exact hn
  · intro h G hG
    have hne : h ≠ A.next := by
      obtain ⟨i, hi, _⟩ := R.bdd.get hG
      have := R.bdd.fresh h i hi
      rw [R.bdd.next]; omega
    rw [r2]
    show (if h = A.next then none else A1.held h) = some G
    rw [if_neg hne, q3]
    show (if h = A.next then _ else A.held h) = some G
    rw [if_neg hne]; exact hG

end BRel

theorem BssW.Reachable.rel {w : BssW} (h : w.Reachable) : w.bdd.Reachable ∧ ∃ A, BRel w A := by
  induction h with
  | new => exact ⟨.new, _, BRel.new⟩
  | @step w w' o c _ ho hst ih =>
    obtain ⟨hb, A, R⟩ := ih
    cases c with
    | bdd c =>
      simp only [BssW.step, Option.map_eq_some_iff] at hst
      obtain ⟨⟨o1, b1⟩, h1, h2⟩ := hst
      cases h2
      obtain ⟨A', hp, R'⟩ := R.bdd.of_step ho h1
      exact ⟨.step c hb ho h1, A', R', R.zdd.mono hp.prefix R'.mok.nodup⟩
    | zdd c =>
      simp only [BssW.step] at hst
      split at hst
      · rename_i hc
        simp only [Option.map_eq_some_iff] at hst
        obtain ⟨⟨o1, z1⟩, h1, h2⟩ := hst
        cases h2
        exact ⟨hb, A, R.bdd, (R.zdd.of_step (.inl hc) h1).2.1⟩
      · cases hst
    | minpath f =>
      have hst : w.minpath f = some (o, w') := hst
      have : ∃ i, w.bdd.held.get f = some i := by
        cases hg : w.bdd.held.get f with
        | none => simp [BssW.minpath, hg] at hst
        | some i => exact ⟨i, rfl⟩
      obtain ⟨i, hi⟩ := this
      obtain ⟨F, hF, _⟩ := R.bdd.heldS f i hi
      obtain ⟨o', w'', c, h1, h2, h3, h4, _⟩ := R.minpath hF
      rw [hst] at h1; cases h1
      exact ⟨.step (.minsol f) hb trivial h4, A, h3⟩
    | mincut f =>
      have hst : w.mincut f = some (o, w') := hst
      have : ∃ i, w.bdd.held.get f = some i := by
        cases hg : w.bdd.held.get f with
        | none => simp [BssW.mincut, World.step, hg] at hst
        | some i => exact ⟨i, rfl⟩
      obtain ⟨i, hi⟩ := this
      obtain ⟨F, hF, _⟩ := R.bdd.heldS f i hi
      obtain ⟨o', w'', A', h1, h2, h3, h4, _⟩ := R.mincut hF
      rw [hst] at h1; cases h1
      exact ⟨h4 hb, A', h3⟩
    | clearCache =>
      obtain ⟨o1, b1, A1, h1, ⟨_, q2⟩, R1⟩ := R.bdd.step (c := .clearCache) trivial
      obtain ⟨o2, z2, h2, _, R2, _⟩ := R.zdd.step (c := .clearCache) (.inr rfl) (by simp [ZWorld.operands])
      have hst : (match w.bdd.step .clearCache, w.zdd.step .clearCache with
        | some (_, b), some (_, z) => some (BssOut.unit, BssW.mk b z)
        | _, _ => none) = some (o, w') := hst
      rw [h1, h2] at hst
      cases hst
      subst q2
      exact ⟨.step .clearCache hb trivial h1, A1, R1, R2⟩

end DD
