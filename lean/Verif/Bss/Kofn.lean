import Verif.Bdd.Bool

/-!
# List connectives and k-out-of-n

Model of /repo/bss/src/bdd_kofn.rs.
-/

set_option autoImplicit false
set_option linter.unusedSectionVars false
set_option linter.unusedVariables false

namespace DD
open Arena

namespace Bdd

/-- The loop `for &n in node { res = dd.op(res, n) }`. -/
def foldOp (op : Bdd → Nat → Nat → Option (Nat × Bdd)) : Bdd → Nat → List Nat → Option (Nat × Bdd)
  | s, res, [] => some (res, s)
  | s, res, n :: ns =>
    match op s res n with
    | none => none
    | some (r, s') => foldOp op s' r ns

/-- /repo/bss/src/bdd_kofn.rs:3-12 -/
def andList (s : Bdd) (ns : List Nat) : Option (Nat × Bdd) := foldOp Bdd.and s one ns

/-- /repo/bss/src/bdd_kofn.rs:14-23 -/
def orList (s : Bdd) (ns : List Nat) : Option (Nat × Bdd) := foldOp Bdd.or s zero ns

/-- /repo/bss/src/bdd_kofn.rs:42-66; `memo` is the flat table, `none` = index panic or
`usize` underflow. -/
def kofnF (node : List Nat) (n : Nat) : Nat → Bdd × List (Option Nat) → Nat → Nat →
    Option (Nat × Bdd × List (Option Nat))
  | 0, _, _, _ => none
  | fuel + 1, (s, memo), k, start =>
    if k = 0 then some (one, s, memo)
    else if n < start then none
    else if k > n - start then some (zero, s, memo)
    else
      match memo[k * (n + 1) + start]? with
      | none => none
      | some (some v) => some (v, s, memo)
      | some none =>
        match kofnF node n fuel (s, memo) (k - 1) (start + 1) with
        | none => none
        | some (t, st) =>
          match kofnF node n fuel st k (start + 1) with
          | none => none
          | some (e, s, memo) =>
            match node[start]? with
            | none => none
            | some x =>
              match s.ite x t e with
              | none => none
              | some (r, s) => some (r, s, memo.set (k * (n + 1) + start) (some r))

/-- /repo/bss/src/bdd_kofn.rs:31-40 -/
def kofn (s : Bdd) (k : Nat) (node : List Nat) : Option (Nat × Bdd) :=
  match kofnF node node.length (node.length + 1)
      (s, List.replicate ((k + 1) * (node.length + 1)) none) k 0 with
  | none => none
  | some (r, s, _) => some (r, s)

/-- Nodes `ns` denote the functions `Fs`, position by position. -/
inductive DenL (m : Arena T3) : List Nat → List BFun → Prop
  | nil : DenL m [] []
  | cons {i : Nat} {F : BFun} {ns : List Nat} {Fs : List BFun} :
      Den m i F → DenL m ns Fs → DenL m (i :: ns) (F :: Fs)

theorem DenL.ext {R : List Nat → Prop} {m m' : Arena T3} (wf : WF R m) (e : Ext m m')
    {ns : List Nat} {Fs : List BFun} (h : DenL m ns Fs) : DenL m' ns Fs := by
  induction h with
  | nil => exact .nil
  | cons h1 _ ih => exact .cons (h1.ext wf e) ih

theorem DenL.get {m : Arena T3} {ns : List Nat} {Fs : List BFun} (h : DenL m ns Fs) :
    ns.length = Fs.length ∧ ∀ (j i : Nat) (F : BFun), ns[j]? = some i → Fs[j]? = some F →
      Den m i F := by
  induction h with
  | nil => simp
  | @cons x F xs Fs h1 _ ih =>
    refine ⟨by simp [ih.1], ?_⟩
    intro j i G hi hG
    cases j with
    | zero => simp at hi hG; subst hi hG; exact h1
    | succ j => simp at hi hG; exact ih.2 j i G hi hG

theorem foldOp_den {op : Bdd → Nat → Nat → Option (Nat × Bdd)} {c : Bool → Bool → Bool}
    (hop : ∀ (s : Bdd), Inv s → ∀ (f g : Nat) (F G : BFun), Den s.arena f F → Den s.arena g G →
      BOk s (fun a => c (F a) (G a)) (op s f g)) :
    ∀ (ns : List Nat) (Fs : List BFun) (s : Bdd) (r : Nat) (F : BFun), Inv s → Den s.arena r F →
      DenL s.arena ns Fs → BOk s (fun a => (Fs.map (· a)).foldl c (F a)) (foldOp op s r ns) := by
  intro ns
  induction ns with
  | nil =>
    intro Fs s r F hs hr h
    cases h
    exact .ret hs hr
  | cons n ns ih =>
    intro Fs s r F hs hr h
    cases h with
    | @cons _ G _ Gs h1 h2 =>
      obtain ⟨r1, s1, e1, i1, st1, d1⟩ := hop s hs r n F G hr h1
      obtain ⟨r2, s2, e2, i2, st2, d2⟩ := ih Gs s1 r1 _ i1 d1 (h2.ext hs.wf st1.toExt)
      exact ⟨r2, s2, by simp only [foldOp, e1, e2], i2, st1.trans st2, d2⟩

theorem foldl_and (l : List Bool) (b : Bool) : l.foldl (· && ·) b = (b && l.all id) := by
  induction l generalizing b with
  | nil => simp
  | cons x xs ih => simp [ih, Bool.and_assoc]

theorem foldl_or (l : List Bool) (b : Bool) : l.foldl (· || ·) b = (b || l.any id) := by
  induction l generalizing b with
  | nil => simp
  | cons x xs ih => simp [ih, Bool.or_assoc]

theorem andList_den {s : Bdd} (hs : Inv s) {ns : List Nat} {Fs : List BFun}
    (h : DenL s.arena ns Fs) : BOk s (fun a => Fs.all (· a)) (s.andList ns) := by
  have := foldOp_den (c := (· && ·)) (fun s hs f g F G hf hg => and_den hs hf hg) ns Fs s one
    (fun _ => true) hs (Den_const hs true) h
  obtain ⟨r, s', h1, h2, h3, h4⟩ := this
  refine ⟨r, s', h1, h2, h3, h4.congr (fun a => ?_)⟩
  rw [foldl_and]; simp [Function.comp_def]

theorem orList_den {s : Bdd} (hs : Inv s) {ns : List Nat} {Fs : List BFun}
    (h : DenL s.arena ns Fs) : BOk s (fun a => Fs.any (· a)) (s.orList ns) := by
  have := foldOp_den (c := (· || ·)) (fun s hs f g F G hf hg => or_den hs hf hg) ns Fs s zero
    (fun _ => false) hs (Den_const hs false) h
  obtain ⟨r, s', h1, h2, h3, h4⟩ := this
  refine ⟨r, s', h1, h2, h3, h4.congr (fun a => ?_)⟩
  rw [foldl_or]; simp [Function.comp_def]

/-- At least `k` of the functions are true. -/
def atLeast (k : Nat) (Fs : List BFun) : BFun := fun a => decide (k ≤ Fs.countP (· a))

/-- Memo table invariant. -/
def MemoOK (K n : Nat) (Fs : List BFun) (m : Arena T3) (memo : List (Option Nat)) : Prop :=
  memo.length = (K + 1) * (n + 1) ∧
  ∀ k start v, k ≤ K → start ≤ n → memo[k * (n + 1) + start]? = some (some v) →
    Den m v (atLeast k (Fs.drop start))

theorem idx_lt {K n k start : Nat} (hk : k ≤ K) (hs : start ≤ n) :
    k * (n + 1) + start < (K + 1) * (n + 1) := by
  have h1 : k * (n + 1) ≤ K * (n + 1) := Nat.mul_le_mul_right _ hk
  rw [Nat.add_mul, Nat.one_mul]
  omega

theorem idx_inj {n k start k' start' : Nat} (hs : start ≤ n) (hs' : start' ≤ n)
    (h : k * (n + 1) + start = k' * (n + 1) + start') : k = k' ∧ start = start' := by
  have h1 : (k * (n + 1) + start) / (n + 1) = k := by
    rw [Nat.mul_comm, Nat.mul_add_div (by omega), Nat.div_eq_of_lt (by omega)]; omega
  have h2 : (k' * (n + 1) + start') / (n + 1) = k' := by
    rw [Nat.mul_comm, Nat.mul_add_div (by omega), Nat.div_eq_of_lt (by omega)]; omega
  rw [h] at h1
  have hk : k = k' := h1.symm.trans h2
  subst hk
  exact ⟨rfl, by omega⟩

theorem kofnF_den {node : List Nat} {Fs : List BFun} {K : Nat} : ∀ (fuel : Nat) (s : Bdd)
    (memo : List (Option Nat)) (k start : Nat), Inv s → DenL s.arena node Fs →
    MemoOK K node.length Fs s.arena memo → k ≤ K → start ≤ node.length →
    node.length - start < fuel →
    ∃ r s' memo', kofnF node node.length fuel (s, memo) k start = some (r, s', memo') ∧
      Inv s' ∧ Step s.arena s'.arena ∧ MemoOK K node.length Fs s'.arena memo' ∧
      Den s'.arena r (atLeast k (Fs.drop start)) := by
  intro fuel
  induction fuel with
  | zero => intro s memo k start _ _ _ _ _ h; omega
  | succ fuel ih =>
    intro s memo k start hs hd hm hk hst hf
    obtain ⟨hlen, hget⟩ := hd.get
    unfold kofnF
    by_cases hk0 : k = 0
    · subst hk0
      simp only [if_true]
      exact ⟨_, _, _, rfl, hs, Step.refl _, hm, (Den_const hs true).congr (by simp [atLeast])⟩
    simp only [hk0, if_false, show ¬ node.length < start by omega]
    by_cases hbig : k > node.length - start
    · simp only [hbig, if_true]
      refine ⟨_, _, _, rfl, hs, Step.refl _, hm, (Den_const hs false).congr (fun a => ?_)⟩
      have : (Fs.drop start).countP (· a) ≤ (Fs.drop start).length := List.countP_le_length
      rw [List.length_drop] at this
      simp only [atLeast]
      symm
      rw [decide_eq_false_iff_not]
      omega
    simp only [hbig, if_false]
    have hlt : start < node.length := by omega
    have hi := idx_lt (K := K) (n := node.length) hk hst
    rw [← hm.1] at hi
    have hmemo := List.getElem?_eq_getElem hi
    cases hv : memo[k * (node.length + 1) + start] with
    | some v =>
      rw [hv] at hmemo
      simp only [hmemo]
      exact ⟨_, _, _, rfl, hs, Step.refl _, hm, hm.2 k start v hk hst hmemo⟩
    | none =>
      rw [hv] at hmemo
      simp only [hmemo]
      obtain ⟨t, s1, m1, e1, i1, st1, mo1, d1⟩ := ih s memo (k - 1) (start + 1) hs hd hm (by omega)
        (by omega) (by omega)
      simp only [e1]
      obtain ⟨e, s2, m2, e2, i2, st2, mo2, d2⟩ := ih s1 m1 k (start + 1) i1
        (hd.ext hs.wf st1.toExt) mo1 hk (by omega) (by omega)
      simp only [e2]
      have hx := List.getElem?_eq_getElem hlt
      simp only [hx]
      have hFl : start < Fs.length := by omega
      have hF := List.getElem?_eq_getElem hFl
      have dx := hget start _ _ hx hF
      obtain ⟨r, s3, e3, i3, st3, d3⟩ := ite_den i2
        ((dx.ext hs.wf st1.toExt).ext i1.wf st2.toExt) (d1.ext i1.wf st2.toExt) d2
      simp only [e3]
      have hdr : Den s3.arena r (atLeast k (Fs.drop start)) := by
        refine d3.congr (fun a => ?_)
        rw [List.drop_eq_getElem_cons hFl]
        simp only [atLeast, List.countP_cons]
        cases Fs[start] a with
        | true =>
          simp only [if_true, decide_eq_decide]; omega
        | false => simp
      refine ⟨r, s3, _, rfl, i3, (st1.trans st2).trans st3, ⟨by simpa using mo2.1, ?_⟩, hdr⟩
      intro k' start' v hk' hst' hv'
      rw [List.getElem?_set] at hv'
      split at hv'
      · rename_i heq
        obtain ⟨rfl, rfl⟩ := idx_inj hst hst' heq
        split at hv'
        · simp at hv'; subst hv'; exact hdr
        · cases hv'
      · exact (mo2.2 k' start' v hk' hst' hv').ext i2.wf st3.toExt

theorem kofn_den {s : Bdd} (hs : Inv s) {ns : List Nat} {Fs : List BFun} (k : Nat)
    (h : DenL s.arena ns Fs) : BOk s (atLeast k Fs) (s.kofn k ns) := by
  obtain ⟨r, s', m', e, i, st, _, d⟩ := kofnF_den (K := k) (ns.length + 1) s
    (List.replicate ((k + 1) * (ns.length + 1)) none) k 0 hs h
    ⟨by simp, by
      intro k start v _ _ hv
      rw [List.getElem?_replicate] at hv
      split at hv <;> cases hv⟩ (Nat.le_refl _) (by omega) (by omega)
  exact ⟨r, s', by simp only [kofn, e], i, st, by simpa using d⟩

end Bdd
end DD
