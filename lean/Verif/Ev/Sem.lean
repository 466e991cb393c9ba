import Verif.Ev.Model
import Verif.Core.Sem

/-!
# Meaning of the edge-valued engine
-/

set_option autoImplicit false
set_option linter.unusedVariables false
set_option linter.unusedSectionVars false

namespace DD
namespace Ev

/-- Assignments: level to state; each within the number of edges of the header of that level. -/
def ValidA (s : Ev) (a : Nat → Nat) : Prop := ∀ hd ∈ s.headers, a hd.level < hd.edgeNum

/-- Following the assignment from node `i`: the sum of the values met, `none` = infinity. -/
inductive Eval (s : Ev) (a : Nat → Nat) : Nat → Option Int → Prop
  | omega {i : Nat} : s.nodes[i]? = some .omega → Eval s a i (some 0)
  | infinity {i : Nat} : s.nodes[i]? = some .infinity → Eval s a i none
  | nt {i h : Nat} {es : List EvEdge} {hd : Header} {e : EvEdge} {v : Option Int} : s.nodes[i]? = some (.nt h es) →
      s.headers[h]? = some hd → es[a hd.level]? = some e → Eval s a e.node v → Eval s a i (v.map (e.value + ·))

/-- The value of an edge. -/
def EVal (s : Ev) (a : Nat → Nat) (e : EvEdge) (w : Option Int) : Prop :=
  ∃ v, Eval s a e.node v ∧ w = v.map (e.value + ·)

theorem Eval.det {s : Ev} {a : Nat → Nat} {i : Nat} {v v' : Option Int} (h : Eval s a i v) (h' : Eval s a i v') :
    v = v' := by
  induction h generalizing v' with
  | omega h1 => cases h' with
    | omega _ => rfl
    | infinity h2 => rw [h1] at h2; cases h2
    | nt h2 _ _ _ => rw [h1] at h2; cases h2
  | infinity h1 => cases h' with
    | infinity _ => rfl
    | omega h2 => rw [h1] at h2; cases h2
    | nt h2 _ _ _ => rw [h1] at h2; cases h2
  | nt h1 h2 h3 _ ih => cases h' with
    | infinity k => rw [h1] at k; cases k
    | omega k => rw [h1] at k; cases k
    | nt k1 k2 k3 k4 =>
      rw [h1] at k1; cases k1
      rw [h2] at k2; cases k2
      rw [h3] at k3; cases k3
      rw [ih k4]

theorem EVal.det {s : Ev} {a : Nat → Nat} {e : EvEdge} {w w' : Option Int} (h : EVal s a e w) (h' : EVal s a e w') :
    w = w' := by
  obtain ⟨v, h1, rfl⟩ := h
  obtain ⟨v', h2, rfl⟩ := h'
  rw [h1.det h2]

/-- The operations on values; infinity is neutral for `min`, absorbing otherwise. -/
def evop : EvOp → Option Int → Option Int → Option Int
  | .min, none, y => y
  | .min, x, none => x
  | .min, some x, some y => some (min x y)
  | .max, some x, some y => some (max x y)
  | .add, some x, some y => some (x + y)
  | .sub, some x, some y => some (x - y)
  | _, _, _ => none

theorem evop_shift (o : EvOp) (fv gv mu : Int) (u v : Option Int) :
    evop o (u.map (fv + ·)) (v.map (gv + ·)) =
      (evop o (u.map (fv - mu + ·)) (v.map (gv - mu + ·))).map (offset o mu + ·) := by
  cases u <;> cases v <;> cases o <;> simp [evop, offset] <;> omega

/-- Entries of the cache. -/
structure CGood (s : Ev) (o : EvOp) (f g : Nat) (d : Int) (x : EvEdge) : Prop where
  livef : f < s.nodes.length
  liveg : g < s.nodes.length
  live : x.node < s.nodes.length
  rank : s.rank x.node ≤ max (s.rank f) (s.rank g)
  val : ∀ a u v, s.ValidA a → Eval s a f u → Eval s a g v →
    EVal s a x (evop o (u.map (max d 0 + ·)) (v.map (max (-d) 0 + ·)))

/-- What is known of a non-terminal. -/
structure NtGood (s : Ev) (h : Nat) (es : List EvEdge) (hd : Header) : Prop where
  hdr : s.headers[h]? = some hd
  len : es.length = hd.edgeNum
  kids : ∀ e ∈ es, e.node < s.nodes.length ∧ s.rank e.node ≤ hd.level
  nonneg : ∀ e ∈ es, 0 ≤ e.value
  zero : ∃ e ∈ es, e.value = 0
  diff : ¬ ∀ e ∈ es, ∀ e' ∈ es, e = e'

/-- Invariant. -/
structure Inv (s : Ev) : Prop where
  n0 : s.nodes[0]? = some .omega
  n1 : s.nodes[1]? = some .infinity
  om : ∀ i, s.nodes[i]? = some .omega → i = 0
  inf : ∀ i, s.nodes[i]? = some .infinity → i = 1
  lev : ∀ (h h' : Nat) (hd hd' : Header), s.headers[h]? = some hd → s.headers[h']? = some hd' →
    hd.level = hd'.level → h = h'
  pos : ∀ hd ∈ s.headers, 0 < hd.edgeNum
  nt : ∀ (i h : Nat) (es : List EvEdge), s.nodes[i]? = some (EvNode.nt h es) → ∃ hd, NtGood s h es hd
  ut : ∀ h es i, s.utable.get (h, es) = some i ↔ s.nodes[i]? = some (EvNode.nt h es)
  cache : ∀ o f g d x, s.cache.get (o, f, g, d) = some x → CGood s o f g d x

/-- Only more headers and more nodes. -/
structure Ext (s s' : Ev) : Prop where
  hdr : s.headers <+: s'.headers
  nodes : s.nodes <+: s'.nodes

theorem Ext.refl (s : Ev) : Ext s s := ⟨List.prefix_rfl, List.prefix_rfl⟩
theorem Ext.trans {s s' s'' : Ev} (h : Ext s s') (h' : Ext s' s'') : Ext s s'' :=
  ⟨h.hdr.trans h'.hdr, h.nodes.trans h'.nodes⟩

theorem prefix_get {α : Type} {l l' : List α} (h : l <+: l') {i : Nat} {x : α} (hx : l[i]? = some x) : l'[i]? = some x := by
  obtain ⟨t, rfl⟩ := h
  rw [List.getElem?_append_left (List.getElem?_eq_some_iff.1 hx).1]; exact hx

theorem lt_of_get {α : Type} {l : List α} {i : Nat} {x : α} (h : l[i]? = some x) : i < l.length :=
  (List.getElem?_eq_some_iff.1 h).1

theorem get_of_lt {α : Type} {l : List α} {i : Nat} (h : i < l.length) : ∃ x, l[i]? = some x :=
  ⟨l[i], List.getElem?_eq_getElem h⟩

theorem Ext.lt {s s' : Ev} (h : Ext s s') {i : Nat} (hi : i < s.nodes.length) : i < s'.nodes.length :=
  Nat.lt_of_lt_of_le hi h.nodes.length_le

theorem Ext.valid {s s' : Ev} (h : Ext s s') {a : Nat → Nat} (ha : s'.ValidA a) : s.ValidA a :=
  fun hd hm => ha hd (h.hdr.subset hm)

theorem Eval.ext {s s' : Ev} (x : Ext s s') {a : Nat → Nat} {i : Nat} {v : Option Int} (h : Eval s a i v) : Eval s' a i v := by
  induction h with
  | omega h => exact .omega (prefix_get x.nodes h)
  | infinity h => exact .infinity (prefix_get x.nodes h)
  | nt h1 h2 h3 _ ih => exact .nt (prefix_get x.nodes h1) (prefix_get x.hdr h2) h3 ih

theorem EVal.ext {s s' : Ev} (x : Ext s s') {a : Nat → Nat} {e : EvEdge} {w : Option Int} (h : EVal s a e w) :
    EVal s' a e w := by
  obtain ⟨v, h1, h2⟩ := h
  exact ⟨v, h1.ext x, h2⟩

variable {s : Ev}

theorem rank_nt {i h : Nat} {es : List EvEdge} {hd : Header} (h1 : s.nodes[i]? = some (.nt h es))
    (h2 : s.headers[h]? = some hd) : s.rank i = hd.level + 1 := by
  simp [rank, level?, h1, h2, depth]

theorem rank_omega {i : Nat} (h : s.nodes[i]? = some .omega) : s.rank i = 0 := by simp [rank, level?, h, depth]
theorem rank_infinity {i : Nat} (h : s.nodes[i]? = some .infinity) : s.rank i = 0 := by simp [rank, level?, h, depth]

theorem Inv.rank_ext {s' : Ev} (I : Inv s) (x : Ext s s') {i : Nat} (hi : i < s.nodes.length) : s'.rank i = s.rank i := by
  obtain ⟨n, hn⟩ := get_of_lt hi
  have hn' := prefix_get x.nodes hn
  cases n with
  | omega => rw [rank_omega hn, rank_omega hn']
  | infinity => rw [rank_infinity hn, rank_infinity hn']
  | nt h es =>
    obtain ⟨hd, g⟩ := I.nt i h es hn
    rw [rank_nt hn g.hdr, rank_nt hn' (prefix_get x.hdr g.hdr)]

theorem NtGood.ext {s' : Ev} (I : Inv s) (x : Ext s s') {h : Nat} {es : List EvEdge} {hd : Header}
    (g : NtGood s h es hd) : NtGood s' h es hd :=
  ⟨prefix_get x.hdr g.hdr, g.len, fun e he => ⟨x.lt (g.kids e he).1, by rw [I.rank_ext x (g.kids e he).1]; exact (g.kids e he).2⟩,
    g.nonneg, g.zero, g.diff⟩

theorem mem_of_get {α : Type} {l : List α} {i : Nat} {x : α} (h : l[i]? = some x) : x ∈ l := List.mem_of_getElem? h

/-- Every live node has a value at every valid assignment. -/
theorem Inv.total (I : Inv s) {a : Nat → Nat} (ha : s.ValidA a) : ∀ (n i : Nat), i < s.nodes.length → s.rank i ≤ n →
    ∃ v, Eval s a i v := by
  intro n
  induction n with
  | zero =>
    intro i hi hr
    obtain ⟨x, hx⟩ := get_of_lt hi
    cases x with
    | omega => exact ⟨_, .omega hx⟩
    | infinity => exact ⟨_, .infinity hx⟩
    | nt h es =>
      obtain ⟨hd, g⟩ := I.nt i h es hx
      rw [rank_nt hx g.hdr] at hr; omega
  | succ n ih =>
    intro i hi hr
    obtain ⟨x, hx⟩ := get_of_lt hi
    cases x with
    | omega => exact ⟨_, .omega hx⟩
    | infinity => exact ⟨_, .infinity hx⟩
    | nt h es =>
      obtain ⟨hd, g⟩ := I.nt i h es hx
      rw [rank_nt hx g.hdr] at hr
      have hk := ha hd (mem_of_get g.hdr)
      rw [← g.len] at hk
      obtain ⟨e, he⟩ := get_of_lt hk
      obtain ⟨k1, k2⟩ := g.kids e (mem_of_get he)
      obtain ⟨v, hv⟩ := ih e.node k1 (by omega)
      exact ⟨_, .nt hx g.hdr he hv⟩

theorem Inv.eval (I : Inv s) {a : Nat → Nat} (ha : s.ValidA a) {i : Nat} (hi : i < s.nodes.length) : ∃ v, Eval s a i v :=
  I.total ha _ i hi (Nat.le_refl _)

/-- Values read after an extension are the old ones. -/
theorem Inv.back {s' : Ev} (I : Inv s) (x : Ext s s') {a : Nat → Nat} (ha : s'.ValidA a) {i : Nat}
    (hi : i < s.nodes.length) {v : Option Int} (h : Eval s' a i v) : Eval s a i v := by
  obtain ⟨u, hu⟩ := I.eval (x.valid ha) hi
  rw [h.det (hu.ext x)]
  exact hu

theorem CGood.ext {s' : Ev} (I : Inv s) (x : Ext s s') {o : EvOp} {f g : Nat} {d : Int} {r : EvEdge}
    (c : CGood s o f g d r) : CGood s' o f g d r where
  livef := x.lt c.livef
  liveg := x.lt c.liveg
  live := x.lt c.live
  rank := by rw [I.rank_ext x c.livef, I.rank_ext x c.liveg, I.rank_ext x c.live]; exact c.rank
  val a u v ha hu hv := (c.val a u v (x.valid ha) (I.back x ha c.livef hu) (I.back x ha c.liveg hv)).ext x

theorem Inv.new : Inv Ev.new where
  n0 := rfl
  n1 := rfl
  om i h := by
    match i with
    | 0 => rfl
    | 1 => simp [Ev.new] at h
    | i + 2 => simp [Ev.new] at h
  inf i h := by
    match i with
    | 0 => simp [Ev.new] at h
    | 1 => rfl
    | i + 2 => simp [Ev.new] at h
  lev h h' hd hd' k := by simp [Ev.new] at k
  pos hd h := by simp [Ev.new] at h
  nt i h es k := by
    match i with
    | 0 => simp [Ev.new] at k
    | 1 => simp [Ev.new] at k
    | i + 2 => simp [Ev.new] at k
  ut h es i := by
    match i with
    | 0 => simp [Ev.new]
    | 1 => simp [Ev.new]
    | i + 2 => simp [Ev.new]
  cache o f g d x h := by simp [Ev.new] at h

/-- A header on a new level. -/
theorem Inv.createHeader (I : Inv s) {l : Nat} (x : String) {n : Nat} (hl : ∀ hd ∈ s.headers, hd.level ≠ l) (hn : 0 < n) :
    Inv (s.createHeader l x n).2 ∧ Ext s (s.createHeader l x n).2 := by
  have e : Ext s (s.createHeader l x n).2 := ⟨List.prefix_append _ _, List.prefix_rfl⟩
  refine ⟨⟨I.n0, I.n1, I.om, I.inf, ?_, ?_, ?_, I.ut, ?_⟩, e⟩
  · intro h h' hd hd' h1 h2 heq
    have f : ∀ {h : Nat} {hd : Header}, (s.headers ++ [⟨l, x, n⟩])[h]? = some hd →
        s.headers[h]? = some hd ∨ (h = s.headers.length ∧ hd = ⟨l, x, n⟩) := by
      intro h hd k
      by_cases hh : h < s.headers.length
      · rw [List.getElem?_append_left hh] at k; exact .inl k
      · rw [List.getElem?_append_right (by omega)] at k
        cases hi : h - s.headers.length with
        | zero => rw [hi] at k; simp at k; exact .inr ⟨by omega, k.symm⟩
        | succ m => rw [hi] at k; simp at k
    rcases f h1 with k1 | ⟨rfl, rfl⟩ <;> rcases f h2 with k2 | ⟨rfl, rfl⟩
    · exact I.lev h h' hd hd' k1 k2 heq
    · exact absurd heq (hl hd (mem_of_get k1))
    · exact absurd heq.symm (hl hd' (mem_of_get k2))
    · rfl
  · intro hd hm
    simp only [Ev.createHeader, List.mem_append, List.mem_singleton] at hm
    rcases hm with hm | rfl
    · exact I.pos hd hm
    · exact hn
  · intro i h es k
    obtain ⟨hd, g⟩ := I.nt i h es k
    exact ⟨hd, g.ext I e⟩
  · intro o f g d r h
    exact (I.cache o f g d r h).ext I e

theorem minValue_le : ∀ (e : EvEdge) (es : List EvEdge), ∀ x ∈ e :: es, minValue e es ≤ x.value := by
  intro e es
  induction es generalizing e with
  | nil => intro x hx; simp at hx; subst hx; exact Int.le_refl _
  | cons e' es ih =>
    intro x hx
    simp only [minValue]
    rcases List.mem_cons.1 hx with rfl | hx
    · omega
    · have := ih e' x hx; omega

theorem minValue_mem : ∀ (e : EvEdge) (es : List EvEdge), ∃ x ∈ e :: es, x.value = minValue e es := by
  intro e es
  induction es generalizing e with
  | nil => exact ⟨e, by simp, rfl⟩
  | cons e' es ih =>
    obtain ⟨x, hx, h⟩ := ih e'
    simp only [minValue]
    by_cases hc : e.value ≤ minValue e' es
    · exact ⟨e, by simp, by omega⟩
    · exact ⟨x, List.mem_cons_of_mem _ hx, by omega⟩

/-- What `createNode` gives. -/
structure MkOk (s : Ev) (hd : Header) (es : List EvEdge) (r : EvEdge) (s' : Ev) : Prop where
  inv : Inv s'
  ext : Ext s s'
  hdrs : s'.headers = s.headers
  cache : s'.cache = s.cache
  live : r.node < s'.nodes.length
  rank : s'.rank r.node ≤ hd.level + 1
  val : ∀ a e w, s.ValidA a → es[a hd.level]? = some e → EVal s a e w → EVal s' a r w

theorem createNode_ok (I : Inv s) {h : Nat} {hd : Header} (hh : s.headers[h]? = some hd) {es : List EvEdge}
    (hlen : es.length = hd.edgeNum) (hk : ∀ e ∈ es, e.node < s.nodes.length ∧ s.rank e.node ≤ hd.level) :
    ∃ r s', s.createNode h es = some (r, s') ∧ MkOk s hd es r s' := by
  have hp := I.pos hd (mem_of_get hh)
  cases es with
  | nil => simp at hlen; omega
  | cons first rest =>
    unfold createNode
    simp only
    by_cases hall : (first :: rest).all (fun x => first == x) = true
    · rw [if_pos hall]
      have heq : ∀ e ∈ first :: rest, e = first := by
        intro e he
        have := List.all_eq_true.1 hall e he
        exact (by simpa using this : first = e).symm
      refine ⟨_, _, rfl, I, .refl s, rfl, rfl, (hk first (by simp)).1, ?_, ?_⟩
      · have := (hk first (by simp)).2; omega
      · intro a e w _ he hv
        rw [heq e (mem_of_get he)] at hv; exact hv
    · rw [if_neg hall]
      have hmin := minValue_le first rest
      obtain ⟨x0, hx0, hv0⟩ := minValue_mem first rest
      generalize hmu : minValue first rest = mu at *
      let es' : List EvEdge := (first :: rest).map (fun x => ⟨x.value - mu, x.node⟩)
      have hes' : (first :: rest).map (fun x => (⟨x.value - mu, x.node⟩ : EvEdge)) = es' := rfl
      simp only [hes']
      have hdiff : ¬ ∀ e ∈ es', ∀ e' ∈ es', e = e' := by
        intro hc
        apply hall
        rw [List.all_eq_true]
        intro x hx
        have := hc ⟨first.value - mu, first.node⟩ (List.mem_map.2 ⟨first, by simp, rfl⟩) ⟨x.value - mu, x.node⟩
          (List.mem_map.2 ⟨x, hx, rfl⟩)
        simp only [EvEdge.mk.injEq] at this
        have : first = x := by
          cases first; cases x
          simp only [EvEdge.mk.injEq] at *
          exact ⟨by omega, this.2⟩
        simp [this]
      have hval : ∀ {s' : Ev} {i : Nat}, Ext s s' → s'.nodes[i]? = some (.nt h es') → s'.headers[h]? = some hd →
          ∀ a e w, s.ValidA a → (first :: rest)[a hd.level]? = some e → EVal s a e w → EVal s' a ⟨mu, i⟩ w := by
        intro s' i x hi hh' a e w ha he hv
        obtain ⟨v, h1, rfl⟩ := hv
        refine ⟨v.map ((e.value - mu) + ·), ?_, ?_⟩
        · exact Eval.nt (e := ⟨e.value - mu, e.node⟩) hi hh' (by simp only [es', List.getElem?_map, he]; rfl) (h1.ext x)
        · cases v <;> simp; omega
      have hgood : NtGood s h es' hd := by
        refine ⟨hh, by simp [es', ← hlen], ?_, ?_, ?_, hdiff⟩
        · intro e he
          obtain ⟨x, hx, rfl⟩ := List.mem_map.1 he
          exact hk x hx
        · intro e he
          obtain ⟨x, hx, rfl⟩ := List.mem_map.1 he
          have := hmin x hx
          show 0 ≤ x.value - mu
          omega
        · exact ⟨⟨x0.value - mu, x0.node⟩, List.mem_map.2 ⟨x0, hx0, rfl⟩, by show x0.value - mu = 0; omega⟩
      cases hu : s.utable.get (h, es') with
      | some i =>
        have hi := (I.ut h es' i).1 hu
        refine ⟨_, _, rfl, I, .refl s, rfl, rfl, lt_of_get hi, Nat.le_of_eq (rank_nt hi hh), hval (.refl s) hi hh⟩
      | none =>
        let s' : Ev := { s with nodes := s.nodes ++ [.nt h es'], utable := s.utable.insert (h, es') s.nodes.length }
        have x : Ext s s' := ⟨List.prefix_rfl, List.prefix_append _ _⟩
        have hi : s'.nodes[s.nodes.length]? = some (.nt h es') := by simp [s']
        have hold : ∀ {i : Nat} {n : EvNode}, s'.nodes[i]? = some n →
            s.nodes[i]? = some n ∨ (i = s.nodes.length ∧ n = .nt h es') := by
          intro i n hn
          by_cases hl : i < s.nodes.length
          · rw [show s'.nodes = s.nodes ++ [.nt h es'] from rfl, List.getElem?_append_left hl] at hn
            exact .inl hn
          · rw [show s'.nodes = s.nodes ++ [.nt h es'] from rfl, List.getElem?_append_right (by omega)] at hn
            cases hi : i - s.nodes.length with
            | zero => rw [hi] at hn; simp at hn; exact .inr ⟨by omega, hn.symm⟩
            | succ m => rw [hi] at hn; simp at hn
        refine ⟨_, s', rfl, ?_, x, rfl, rfl, ?_, ?_, ?_⟩
        · refine ⟨prefix_get x.nodes I.n0, prefix_get x.nodes I.n1, ?_, ?_, I.lev, I.pos, ?_, ?_, ?_⟩
          · intro i hn
            rcases hold hn with k | ⟨_, k⟩
            · exact I.om i k
            · cases k
          · intro i hn
            rcases hold hn with k | ⟨_, k⟩
            · exact I.inf i k
            · cases k
          · intro i h2 es2 hn
            rcases hold hn with k | ⟨_, k⟩
            · obtain ⟨hd2, g⟩ := I.nt i h2 es2 k
              exact ⟨hd2, g.ext I x⟩
            · cases k
              exact ⟨hd, hgood.ext I x⟩
          · intro h2 es2 i
            show (s.utable.insert (h, es') s.nodes.length).get (h2, es2) = some i ↔ _
            rw [AMap.get_insert]
            by_cases hc : (h, es') = (h2, es2)
            · cases hc
              rw [if_pos rfl]
              constructor
              · rintro ⟨⟩; exact hi
              · intro hn
                rcases hold hn with k | ⟨k, _⟩
                · rw [← I.ut, hu] at k; cases k
                · rw [k]
            · rw [if_neg (by first | exact hc | exact fun h => hc h.symm), I.ut]
              constructor
              · intro hn; exact prefix_get x.nodes hn
              · intro hn
                rcases hold hn with k | ⟨_, k⟩
                · exact k
                · cases k; exact absurd rfl hc
          · intro o f g d r hr
            exact (I.cache o f g d r hr).ext I x
        · exact lt_of_get hi
        · exact Nat.le_of_eq (rank_nt hi hh)
        · exact hval x hi hh

end Ev
end DD
