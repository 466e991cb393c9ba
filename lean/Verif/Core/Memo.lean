import Verif.Core.Rec
import Verif.Common.ComputeCache

/-!
# Memoised operations

`memo` models the wrapper `if let Some(x) = self.cache_get(..) { return x } … self.cache_put(..)`
present in every apply-style operation.  `CacheOK Good c`: every entry that the cache can return is
`Good`.
-/

set_option autoImplicit false
set_option linter.unusedSectionVars false

namespace DD

/-- Look up; on a miss compute and store. -/
def memo {S : Type} (get : S → Option Nat) (put : S → Nat → S) (body : S → Option (Nat × S))
    (s : S) : Option (Nat × S) :=
  match get s with
  | some x => some (x, s)
  | none =>
    match body s with
    | none => none
    | some (r, s') => some (r, put s' r)

namespace ComputeCache

/-- Every entry the cache can return satisfies `Good k0 k1 k2 value`; `len` never underflows and is exact as long as
the `N` node slots have ids other than the marker of empty entries. -/
structure CacheOK (N : Nat) (Good : Nat → Nat → Nat → Nat → Prop) (c : ComputeCache) : Prop where
  placed : c.Placed
  le : c.LenLe
  len : N ≤ EMPTY → c.LenOK
  good : ∀ k0 k1 k2 v, c.get k0 k1 k2 = some v → Good k0 k1 k2 v

theorem CacheOK.new (N : Nat) (Good : Nat → Nat → Nat → Nat → Prop) : CacheOK N Good ComputeCache.new where
  placed := placed_withBits _
  le := (lenOK_withBits _).le
  len _ := lenOK_withBits _
  good k0 k1 k2 v h := by
    rw [show ComputeCache.new = withBits INIT_BITS from rfl, get_withBits] at h
    cases h

theorem CacheOK.clear {N N' : Nat} {Good Good' : Nat → Nat → Nat → Nat → Prop} {c : ComputeCache}
    (_ : CacheOK N Good c) : CacheOK N' Good' c.clear where
  placed := placed_clear c
  le := (lenOK_clear c).le
  len _ := lenOK_clear c
  good k0 k1 k2 v h := by rw [get_clear] at h; cases h

theorem CacheOK.mono {N N' : Nat} {Good Good' : Nat → Nat → Nat → Nat → Prop} {c : ComputeCache}
    (h : CacheOK N Good c) (hn : N ≤ N') (hg : ∀ k0 k1 k2 v, Good k0 k1 k2 v → Good' k0 k1 k2 v) :
    CacheOK N' Good' c := ⟨h.placed, h.le, fun e => h.len (Nat.le_trans hn e), fun k0 k1 k2 v hv => hg _ _ _ _ (h.good k0 k1 k2 v hv)⟩

theorem CacheOK.put {N : Nat} {Good : Nat → Nat → Nat → Nat → Prop} {c : ComputeCache}
    (h : CacheOK N Good c) {k0 k1 k2 v : Nat} (hlt : v < N) (hv : Good k0 k1 k2 v) :
    CacheOK N Good (c.put k0 k1 k2 v) where
  placed := placed_put h.placed _ _ _ _
  le := lenLe_put h.le _ _ _ _
  len e := lenOK_put (h.len e) (Nat.ne_of_lt (Nat.lt_of_lt_of_le hlt e))
  good a b d w hw := by
    rcases get_put h.placed hw with he | he
    · cases he; exact hv
    · exact h.good _ _ _ _ he

/-- Occupied slots are exactly the hits. -/
theorem Placed.hit {c : ComputeCache} (hp : c.Placed) {i : Nat} (hi : i < c.size)
    (hv : (c.slots i).val ≠ EMPTY) :
    c.get (c.slots i).k0 (c.slots i).k1 (c.slots i).k2 = some (c.slots i).val := by
  rw [get_eq_some, hp i hi hv]
  exact ⟨rfl, hv⟩

/-- Pruning: no panic, and entries with all words live survive with their properties. -/
theorem CacheOK.retainBy {N : Nat} {Good Good' : Nat → Nat → Nat → Nat → Prop} {c : ComputeCache}
    (h : CacheOK N Good c) {ids : Slot → List Nat} {live : List Bool}
    (hlt : ∀ k0 k1 k2 v, Good k0 k1 k2 v → ∀ i ∈ ids ⟨k0, k1, k2, v⟩, i < live.length)
    (hg : ∀ k0 k1 k2 v, Good k0 k1 k2 v → (∀ i ∈ ids ⟨k0, k1, k2, v⟩, live[i]? = some true) →
      Good' k0 k1 k2 v) :
    ∃ c', ComputeCache.retainBy ids c live = some c' ∧ CacheOK N Good' c' := by
  obtain ⟨c', hc⟩ := retainBy_isSome (ids := ids) (c := c) (live := live) h.le (by
    intro i hi hv
    have := h.good _ _ _ _ (h.placed.hit hi hv)
    exact allLive_isSome (hlt _ _ _ _ this))
  refine ⟨c', hc, placed_retainBy hc h.placed, lenLe_retainBy hc h.le, fun e => lenOK_retainBy hc (h.len e), ?_⟩
  intro k0 k1 k2 v hv
  obtain ⟨h1, h2⟩ := (get_retainBy hc).1 hv
  exact hg _ _ _ _ (h.good _ _ _ _ h1) h2

end ComputeCache

namespace Eng

variable {S U : Type} [DecidableEq U] [Fixed U] {E : Eng S U}

/-- A memoised computation meets a requirement met by the hits and by the body. -/
theorem memo_ok {s : S} (hs : E.Inv s) {k : Nat} {Φ : (Nat → Nat) → U → Prop}
    {get : S → Option Nat} {put : S → Nat → S} {body : S → Option (Nat × S)}
    (hget : ∀ x, get s = some x → (E.ar s).Live x ∧ (E.ar s).rank x ≤ k ∧ (E.ar s).Sound Φ x)
    (hb : E.Ok s k Φ (body s))
    (hput : ∀ s' r, E.Inv s' → E.St s s' → (E.ar s').Live r → (E.ar s').rank r ≤ k →
      (E.ar s').Sound Φ r → E.Inv (put s' r) ∧ E.ar (put s' r) = E.ar s' ∧ E.St s' (put s' r)) :
    E.Ok s k Φ (memo get put body s) := by
  unfold memo
  cases hg : get s with
  | some x =>
    obtain ⟨h1, h2, h3⟩ := hget x hg
    exact Ok.ret hs h1 h2 h3
  | none =>
    obtain ⟨r, s', h1, h2, h3, h4, h5, h6⟩ := hb
    obtain ⟨p1, p2, p3⟩ := hput s' r h2 h3 h4 h5 h6
    simp only [h1]
    refine ⟨r, put s' r, rfl, p1, E.trans _ _ _ h3 p3, ?_⟩
    rw [p2]
    exact ⟨h4, h5, h6⟩

end Eng

/-! ## Cofactors with respect to a level (for the ternary operations) -/

namespace Arena

variable {T : Type}

/-- `cofactor` / `ite_cofactor`: the children if the node sits at level `top`, else `k` copies
(/repo/bddcore/src/bdd_ops.rs:273-280, /repo/mddcore/src/mdd_ops.rs:265-272). -/
def cofactor (m : Arena T) (id top k : Nat) : List Nat :=
  if m.level? id = some top then
    match m.nodes[id]? with
    | some (.nt _ ch) => ch
    | _ => List.replicate k id
  else List.replicate k id

/-- `top_header` / `ite_top_header`: header and arity of the first operand at level `top`
(/repo/bddcore/src/bdd_ops.rs:285-294, /repo/mddcore/src/mdd_ops.rs:277-286).
`none` = `unreachable!`. -/
def topHeader (m : Arena T) (top : Nat) : List Nat → Option (Nat × Nat)
  | [] => none
  | x :: xs =>
    if m.level? x = some top then
      match m.nodes[x]? with
      | some (.nt h ch) => some (h, ch.length)
      | _ => topHeader m top xs
    else topHeader m top xs

/-- The loop computing `top` (/repo/bddcore/src/bdd_ops.rs:250-256,
/repo/mddcore/src/mdd_ops.rs:242-249). `Level::MAX`/`None` of terminals is skipped. -/
def topLevel (m : Arena T) (top : Nat) : List Nat → Nat
  | [] => top
  | x :: xs =>
    match m.level? x with
    | some l => topLevel m (if l > top then l else top) xs
    | none => topLevel m top xs

variable [DecidableEq T] [Fixed T] {R : List Nat → Prop} {m : Arena T}

/-- Cofactors of a node not above `top`. -/
theorem WF.cofactor_spec (wf : WF R m) {id top k : Nat} (hi : m.Live id)
    (hr : m.rank id ≤ top + 1) {hd : Header} (hh : hd ∈ m.headers) (hl : hd.level = top)
    (hk : k = hd.edgeNum) :
    (m.cofactor id top k).length = k ∧
    ∀ (j c : Nat), (m.cofactor id top k)[j]? = some c →
      m.Live c ∧ m.rank c ≤ top ∧ m.rank c ≤ m.rank id ∧
      ∀ a z, a top = j → (Eval m a id z ↔ Eval m a c z) := by
  unfold cofactor
  by_cases hlev : m.level? id = some top
  · simp only [hlev, if_true]
    obtain ⟨n, hn⟩ := hi.node
    cases n with
    | term t => rw [level?_term hn] at hlev; cases hlev
    | nt h ch =>
      obtain ⟨hd', hh', hl', hr', hlv', _, hkid⟩ := wf.nt hi hn
      rw [hlv'] at hlev
      have htop : hd'.level = top := by simpa using hlev
      simp only [hn]
      have hlen : ch.length = k := by
        rw [hl', hk]
        exact wf.arity _ (List.mem_of_getElem? hh') _ hh (htop.trans hl.symm)
      refine ⟨hlen, ?_⟩
      intro j c hc
      obtain ⟨h1, h2⟩ := hkid c (List.mem_of_getElem? hc)
      refine ⟨h1, by omega, by omega, ?_⟩
      intro a z ha
      exact eval_child hn hh' (by rw [htop]; exact ha) hc
  · simp only [hlev, if_false]
    refine ⟨List.length_replicate, ?_⟩
    intro j c hc
    have hcid : c = id := by
      rw [List.getElem?_replicate] at hc
      split at hc
      · exact (Option.some.inj hc).symm
      · cases hc
    subst hcid
    refine ⟨hi, ?_, Nat.le_refl _, fun a z _ => Iff.rfl⟩
    obtain ⟨n, hn⟩ := hi.node
    cases n with
    | term t => rw [rank_term hn]; omega
    | nt h ch =>
      obtain ⟨hd', _, _, hr', hlv', _⟩ := wf.nt hi hn
      rw [hlv'] at hlev
      have : hd'.level ≠ top := by simpa using hlev
      omega

/-- The cofactors of a node at level `top` are of smaller rank. -/
theorem rank_eq_of_level {id top : Nat} (h : m.level? id = some top) : m.rank id = top + 1 := by
  simp [rank, h]

theorem topLevel_ge (m : Arena T) : ∀ (xs : List Nat) (top : Nat), top ≤ m.topLevel top xs ∧
    (∀ x ∈ xs, m.rank x ≤ m.topLevel top xs + 1) ∧
    (m.topLevel top xs = top ∨ ∃ x ∈ xs, m.level? x = some (m.topLevel top xs)) := by
  intro xs
  induction xs with
  | nil => intro top; simp [topLevel]
  | cons x xs ih =>
    intro top
    cases hl : m.level? x with
    | none =>
      obtain ⟨h1, h2, h3⟩ := ih top
      simp only [topLevel, hl]
      refine ⟨h1, ?_, ?_⟩
      · intro y hy
        rcases List.mem_cons.1 hy with rfl | hy
        · simp [rank, hl]
        · exact h2 y hy
      · rcases h3 with h3 | ⟨y, hy, h3⟩
        · exact Or.inl h3
        · exact Or.inr ⟨y, List.mem_cons_of_mem _ hy, h3⟩
    | some l =>
      obtain ⟨h1, h2, h3⟩ := ih (if l > top then l else top)
      simp only [topLevel, hl]
      generalize hT : m.topLevel (if l > top then l else top) xs = T' at *
      refine ⟨?_, ?_, ?_⟩
      · split at h1 <;> omega
      · intro y hy
        rcases List.mem_cons.1 hy with rfl | hy
        · simp only [rank, hl]; split at h1 <;> omega
        · exact h2 y hy
      · rcases h3 with h3 | ⟨y, hy, h3⟩
        · split at h3
          · exact Or.inr ⟨x, List.mem_cons_self, by rw [hl, h3]⟩
          · exact Or.inl h3
        · exact Or.inr ⟨y, List.mem_cons_of_mem _ hy, h3⟩

theorem WF.topHeader_spec (wf : WF R m) {top : Nat} : ∀ {xs : List Nat}, (∀ x ∈ xs, m.Live x) →
    (∃ x ∈ xs, m.level? x = some top) →
    ∃ h hd, m.topHeader top xs = some (h, hd.edgeNum) ∧ m.headers[h]? = some hd ∧
      hd.level = top := by
  intro xs
  induction xs with
  | nil => rintro _ ⟨x, hx, _⟩; simp at hx
  | cons y ys ih =>
    rintro hlive ⟨x, hx, hlx⟩
    unfold topHeader
    by_cases hy : m.level? y = some top
    · simp only [hy, if_true]
      obtain ⟨n, hn⟩ := (hlive y List.mem_cons_self).node
      cases n with
      | term t => rw [level?_term hn] at hy; cases hy
      | nt h ch =>
        obtain ⟨hd, hh, hl, _, hlv, _⟩ := wf.nt (hlive y List.mem_cons_self) hn
        simp only [hn]
        refine ⟨h, hd, by rw [hl], hh, ?_⟩
        rw [hlv] at hy
        simpa using hy
    · simp only [hy, if_false]
      apply ih (fun z hz => hlive z (List.mem_cons_of_mem _ hz))
      rcases List.mem_cons.1 hx with rfl | hx
      · exact absurd hlx hy
      · exact ⟨x, hx, hlx⟩

end Arena

/-- The argument triples of the recursive calls of a ternary operation. -/
def zip3 (a b c : List Nat) : List (Nat × Nat × Nat) := a.zip (b.zip c)

theorem zip3_getElem? {a b c : List Nat} {j x y z : Nat} :
    (zip3 a b c)[j]? = some (x, y, z) ↔ a[j]? = some x ∧ b[j]? = some y ∧ c[j]? = some z := by
  unfold zip3
  rw [List.getElem?_zip_eq_some, List.getElem?_zip_eq_some]

theorem zip3_length {a b c : List Nat} {n : Nat} (ha : a.length = n) (hb : b.length = n)
    (hc : c.length = n) : (zip3 a b c).length = n := by
  simp [zip3, ha, hb, hc]

namespace View

open Arena

variable {S U T1 T2 T3 : Type} [DecidableEq U] [Fixed U] [DecidableEq T1] [Fixed T1]
  [DecidableEq T2] [Fixed T2] [DecidableEq T3] [Fixed T3] {E : Eng S U}

theorem op3_st (v : View E T1) (w : View E T2) (u : View E T3) {s s' : S} (hs : E.Inv s)
    (h : E.St s s') {R : T1 → T2 → T3 → U → Prop} {f g k : Nat} (hf : (v.ar s).Live f)
    (hg : (w.ar s).Live g) (hk : (u.ar s).Live k) {a : Nat → Nat} {z : U} :
    Op3 R (v.ar s') (w.ar s') (u.ar s') f g k a z ↔
      Op3 R (v.ar s) (w.ar s) (u.ar s) f g k a z := by
  unfold Op3
  simp only [v.eval_st hs h hf, w.eval_st hs h hg, u.eval_st hs h hk]

/-- Specification of the recursive calls of a ternary operation below rank sum `n`. -/
def Rec3 (v : View E T1) (w : View E T2) (u : View E T3) (R : T1 → T2 → T3 → U → Prop)
    (rec : S → Nat × Nat × Nat → Option (Nat × S)) (n : Nat) : Prop :=
  ∀ s f g h, E.Inv s → (v.ar s).Live f → (w.ar s).Live g → (u.ar s).Live h →
    Max.max ((v.ar s).rank f) (Max.max ((w.ar s).rank g) ((u.ar s).rank h)) < n →
    E.Ok s (max ((v.ar s).rank f) (max ((w.ar s).rank g) ((u.ar s).rank h)))
      (Op3 R (v.ar s) (w.ar s) (u.ar s) f g h) (rec s (f, g, h))

/-- Splitting three operands at level `top`. -/
theorem arm3_ok (v : View E T1) (w : View E T2) (u : View E T3)
    {R : T1 → T2 → T3 → U → Prop}
    {rec : S → Nat × Nat × Nat → Option (Nat × S)} {n : Nat} (ih : Rec3 v w u R rec n)
    {s : S} (hs : E.Inv s) {f g h top hx : Nat} {hd : Header} (lf : (v.ar s).Live f)
    (lg : (w.ar s).Live g) (lh : (u.ar s).Live h)
    (hhx : (E.ar s).headers[hx]? = some hd) (htop : hd.level = top)
    (rf : (v.ar s).rank f ≤ top + 1) (rg : (w.ar s).rank g ≤ top + 1)
    (rh : (u.ar s).rank h ≤ top + 1)
    (hsome : (v.ar s).rank f = top + 1 ∨ (w.ar s).rank g = top + 1 ∨ (u.ar s).rank h = top + 1)
    (hn : Max.max ((v.ar s).rank f) (Max.max ((w.ar s).rank g) ((u.ar s).rank h)) ≤ n) :
    E.Ok s (max ((v.ar s).rank f) (max ((w.ar s).rank g) ((u.ar s).rank h)))
      (Op3 R (v.ar s) (w.ar s) (u.ar s) f g h)
      (branchS E.mkn rec s hx (zip3 ((v.ar s).cofactor f top hd.edgeNum)
        ((w.ar s).cofactor g top hd.edgeNum) ((u.ar s).cofactor h top hd.edgeNum))) := by
  have hm := List.mem_of_getElem? hhx
  obtain ⟨l1, c1⟩ := (v.toWF s hs).cofactor_spec (k := hd.edgeNum) lf rf
    (by rw [v.hdrs s hs]; exact hm) htop rfl
  obtain ⟨l2, c2⟩ := (w.toWF s hs).cofactor_spec (k := hd.edgeNum) lg rg
    (by rw [w.hdrs s hs]; exact hm) htop rfl
  obtain ⟨l3, c3⟩ := (u.toWF s hs).cofactor_spec (k := hd.edgeNum) lh rh
    (by rw [u.hdrs s hs]; exact hm) htop rfl
  have hmax : max ((v.ar s).rank f) (max ((w.ar s).rank g) ((u.ar s).rank h)) = hd.level + 1 := by
    omega
  rw [hmax]
  refine Eng.branch_ok hs hhx (zip3_length l1 l2 l3)
    (Φ := fun p => Op3 R (v.ar s) (w.ar s) (u.ar s) p.1 p.2.1 p.2.2) ?_ ?_
  · rintro s1 ⟨x, y, z⟩ i1 p1 hc
    obtain ⟨j, hj⟩ := List.mem_iff_getElem?.1 hc
    obtain ⟨j1, j2, j3⟩ := zip3_getElem?.1 hj
    obtain ⟨a1, a2, a3, -⟩ := c1 j x j1
    obtain ⟨b1, b2, b3, -⟩ := c2 j y j2
    obtain ⟨d1, d2, d3, -⟩ := c3 j z j3
    have r1 := v.rank_st hs p1 a1
    have r2 := w.rank_st hs p1 b1
    have r3 := u.rank_st hs p1 d1
    have := ih s1 x y z i1 (v.live_st p1 a1) (w.live_st p1 b1) (u.live_st p1 d1) (by omega)
    rw [r1, r2, r3] at this
    exact this.mono (by omega) (fun a _ q hz => (v.op3_st w u hs p1 a1 b1 d1).1 hz)
  · rintro j ⟨x, y, z⟩ a q hc ha hj hz p1 p2 p3 e1 e2 e3
    obtain ⟨j1, j2, j3⟩ := zip3_getElem?.1 hc
    obtain ⟨-, -, -, a4⟩ := c1 j x j1
    obtain ⟨-, -, -, b4⟩ := c2 j y j2
    obtain ⟨-, -, -, d4⟩ := c3 j z j3
    rw [htop] at hj
    exact hz p1 p2 p3 ((a4 a p1 hj).1 e1) ((b4 a p2 hj).1 e2) ((d4 a p3 hj).1 e3)

end View

end DD
