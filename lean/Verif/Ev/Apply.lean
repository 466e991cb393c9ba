import Verif.Ev.Sem

/-!
# The binary operations of the edge-valued engine
-/

set_option autoImplicit false
set_option linter.unusedVariables false
set_option linter.unusedSectionVars false

namespace DD
namespace Ev
variable {s : Ev}

/-- What a call gives: `r` stands for the operation on the values of `x` and `y`. -/
structure ApOk (o : EvOp) (s : Ev) (x y : EvEdge) (r : EvEdge) (s' : Ev) : Prop where
  inv : Inv s'
  ext : Ext s s'
  hdrs : s'.headers = s.headers
  live : r.node < s'.nodes.length
  rank : s'.rank r.node ≤ max (s.rank x.node) (s.rank y.node)
  val : ∀ a u v, s.ValidA a → Eval s a x.node u → Eval s a y.node v →
    EVal s' a r (evop o (u.map (x.value + ·)) (v.map (y.value + ·)))

/-- The terminal arms. -/
theorem base_ok (I : Inv s) {o : EvOp} {x y e : EvEdge} {nf ng : EvNode} (hf : s.nodes[x.node]? = some nf)
    (hg : s.nodes[y.node]? = some ng) (h : base o x.value x.node y.value y.node nf ng = some e) : ApOk o s x y e s := by
  have l0 := lt_of_get I.n0
  have l1 := lt_of_get I.n1
  have r0 : s.rank omega = 0 := rank_omega I.n0
  have r1 : s.rank infinity = 0 := rank_infinity I.n1
  have lf := lt_of_get hf
  have lg := lt_of_get hg
  have e0 : ∀ a, Eval s a omega (some 0) := fun a => .omega I.n0
  have e1 : ∀ a, Eval s a infinity none := fun a => .infinity I.n1
  have hinf : ∀ {i : Nat} {a : Nat → Nat} {u : Option Int}, s.nodes[i]? = some .infinity → Eval s a i u → u = none :=
    fun h1 h2 => h2.det (.infinity h1)
  have hom : ∀ {i : Nat} {a : Nat → Nat} {u : Option Int}, s.nodes[i]? = some .omega → Eval s a i u → u = some 0 :=
    fun h1 h2 => h2.det (.omega h1)
  have left : nf = .infinity → ApOk o s x y (withInf o ⟨y.value, y.node⟩) s := by
    rintro rfl
    cases o
    case min =>
      refine ⟨I, .refl s, rfl, lg, by show s.rank y.node ≤ _; omega, ?_⟩
      intro a u v _ hu hv
      rw [hinf hf hu]
      exact ⟨v, hv, by cases v <;> rfl⟩
    all_goals
      refine ⟨I, .refl s, rfl, l1, by show s.rank infinity ≤ _; omega, ?_⟩
      intro a u v _ hu hv
      rw [hinf hf hu]
      exact ⟨none, e1 a, by cases v <;> rfl⟩
  have right : ng = .infinity → ApOk o s x y (withInf o ⟨x.value, x.node⟩) s := by
    rintro rfl
    cases o
    case min =>
      refine ⟨I, .refl s, rfl, lf, by show s.rank x.node ≤ _; omega, ?_⟩
      intro a u v _ hu hv
      rw [hinf hg hv]
      exact ⟨u, hu, by cases u <;> rfl⟩
    all_goals
      refine ⟨I, .refl s, rfl, l1, by show s.rank infinity ≤ _; omega, ?_⟩
      intro a u v _ hu hv
      rw [hinf hg hv]
      exact ⟨none, e1 a, by cases u <;> rfl⟩
  cases nf with
  | infinity =>
    cases ng with
    | infinity =>
      simp only [base, Option.some.injEq] at h
      subst h
      refine ⟨I, .refl s, rfl, l1, by show s.rank infinity ≤ _; omega, ?_⟩
      intro a u v _ hu hv
      rw [hinf hf hu, hinf hg hv]
      exact ⟨none, e1 a, by cases o <;> rfl⟩
    | omega =>
      simp only [base, Option.some.injEq] at h
      subst h
      exact left rfl
    | nt hh es =>
      simp only [base, Option.some.injEq] at h
      subst h
      exact left rfl
  | omega =>
    cases ng with
    | infinity =>
      simp only [base, Option.some.injEq] at h
      subst h
      exact right rfl
    | omega =>
      simp only [base, Option.some.injEq] at h
      subst h
      cases o
      all_goals
        refine ⟨I, .refl s, rfl, l0, by show s.rank omega ≤ _; omega, ?_⟩
        intro a u v _ hu hv
        rw [hom hf hu, hom hg hv]
        exact ⟨some 0, e0 a, by simp [evop]⟩
    | nt hh es => simp [base] at h
  | nt hh es =>
    cases ng with
    | infinity =>
      simp only [base, Option.some.injEq] at h
      subst h
      exact right rfl
    | omega => simp [base] at h
    | nt hh' es' => simp [base] at h

/-- The operands of the recursive calls. -/
structure ExOk (s : Ev) (x y : EvEdge) (hd : Header) (ps : List (EvEdge × EvEdge)) : Prop where
  len : ps.length = hd.edgeNum
  top : hd.level + 1 ≤ max (s.rank x.node) (s.rank y.node)
  kids : ∀ p ∈ ps, p.1.node < s.nodes.length ∧ p.2.node < s.nodes.length ∧
    max (s.rank p.1.node) (s.rank p.2.node) ≤ hd.level ∧
    Max.max (s.rank p.1.node) (s.rank p.2.node) < Max.max (s.rank x.node) (s.rank y.node)
  val : ∀ a u v, s.ValidA a → Eval s a x.node u → Eval s a y.node v → ∃ p u' v', ps[a hd.level]? = some p ∧
    Eval s a p.1.node u' ∧ Eval s a p.2.node v' ∧
    u'.map (p.1.value + ·) = u.map (x.value - min x.value y.value + ·) ∧
    v'.map (p.2.value + ·) = v.map (y.value - min x.value y.value + ·)

theorem map_add (u : Option Int) (k l : Int) : (u.map (l + ·)).map (k + ·) = u.map (k + l + ·) := by
  cases u <;> simp; omega

/-- The value of a non-terminal, along its edge. -/
theorem eval_nt {i h : Nat} {es : List EvEdge} {hd : Header} (h1 : s.nodes[i]? = some (EvNode.nt h es))
    (h2 : s.headers[h]? = some hd) {a : Nat → Nat} {u : Option Int} (hu : Eval s a i u) :
    ∃ e v, es[a hd.level]? = some e ∧ Eval s a e.node v ∧ u = v.map (e.value + ·) := by
  cases hu with
  | omega k => rw [h1] at k; cases k
  | infinity k => rw [h1] at k; cases k
  | nt k1 k2 k3 k4 =>
    rw [h1] at k1; cases k1
    rw [h2] at k2; cases k2
    exact ⟨_, _, k3, k4, rfl⟩

theorem expand_ok (I : Inv s) {o : EvOp} {x y : EvEdge} {nf ng : EvNode} (hf : s.nodes[x.node]? = some nf)
    (hg : s.nodes[y.node]? = some ng) (h : base o x.value x.node y.value y.node nf ng = none) :
    ∃ h hd ps, expand s x.value x.node y.value y.node nf ng = some (h, ps) ∧ s.headers[h]? = some hd ∧ ExOk s x y hd ps := by
  have lf := lt_of_get hf
  have lg := lt_of_get hg
  -- expanding the right operand only
  have right : ∀ {hh : Nat} {es : List EvEdge}, ng = .nt hh es → s.rank x.node < s.rank y.node → ∃ hd,
      s.headers[hh]? = some hd ∧ ExOk s x y hd (es.map fun e =>
        (⟨x.value - min x.value y.value, x.node⟩, ⟨y.value - min x.value y.value + e.value, e.node⟩)) := by
    rintro hh es rfl hr
    obtain ⟨hd, g⟩ := I.nt _ _ _ hg
    have rg := rank_nt hg g.hdr
    refine ⟨hd, g.hdr, by simp [g.len], by omega, ?_, ?_⟩
    · intro p hp
      obtain ⟨e, he, rfl⟩ := List.mem_map.1 hp
      obtain ⟨k1, k2⟩ := g.kids e he
      refine ⟨lf, k1, ?_, ?_⟩
      · show max (s.rank x.node) (s.rank e.node) ≤ _; omega
      · show Max.max (s.rank x.node) (s.rank e.node) < _; omega
    · intro a u v ha hu hv
      obtain ⟨e, w, k1, k2, rfl⟩ := eval_nt hg g.hdr hv
      exact ⟨_, u, w, by rw [List.getElem?_map, k1]; rfl, hu, k2, rfl, by simp only [map_add]⟩
  have left : ∀ {hh : Nat} {es : List EvEdge}, nf = .nt hh es → s.rank y.node < s.rank x.node → ∃ hd,
      s.headers[hh]? = some hd ∧ ExOk s x y hd (es.map fun e =>
        (⟨x.value - min x.value y.value + e.value, e.node⟩, ⟨y.value - min x.value y.value, y.node⟩)) := by
    rintro hh es rfl hr
    obtain ⟨hd, g⟩ := I.nt _ _ _ hf
    have rf := rank_nt hf g.hdr
    refine ⟨hd, g.hdr, by simp [g.len], by omega, ?_, ?_⟩
    · intro p hp
      obtain ⟨e, he, rfl⟩ := List.mem_map.1 hp
      obtain ⟨k1, k2⟩ := g.kids e he
      refine ⟨k1, lg, ?_, ?_⟩
      · show max (s.rank e.node) (s.rank y.node) ≤ _; omega
      · show Max.max (s.rank e.node) (s.rank y.node) < _; omega
    · intro a u v ha hu hv
      obtain ⟨e, w, k1, k2, rfl⟩ := eval_nt hf g.hdr hu
      exact ⟨_, w, v, by rw [List.getElem?_map, k1]; rfl, k2, hv, by simp only [map_add], rfl⟩
  cases nf with
  | infinity => cases ng <;> simp [base] at h
  | omega =>
    cases ng with
    | infinity => simp [base] at h
    | omega => simp [base] at h
    | nt hh es =>
      obtain ⟨hd0, g0⟩ := I.nt _ _ _ hg
      obtain ⟨hd, k1, k2⟩ := right rfl (by rw [rank_omega hf, rank_nt hg g0.hdr]; omega)
      exact ⟨hh, hd, _, rfl, k1, k2⟩
  | nt hf' fe =>
    cases ng with
    | infinity => simp [base] at h
    | omega =>
      obtain ⟨hd0, g0⟩ := I.nt _ _ _ hf
      obtain ⟨hd, k1, k2⟩ := left rfl (by rw [rank_omega hg, rank_nt hf g0.hdr]; omega)
      exact ⟨hf', hd, _, rfl, k1, k2⟩
    | nt hg' ge =>
      simp only [expand]
      by_cases c1 : depth (s.level? x.node) > depth (s.level? y.node)
      · rw [if_pos c1]
        obtain ⟨hd, k1, k2⟩ := left rfl c1
        exact ⟨hf', hd, _, rfl, k1, k2⟩
      · rw [if_neg c1]
        by_cases c2 : depth (s.level? x.node) < depth (s.level? y.node)
        · rw [if_pos c2]
          obtain ⟨hd, k1, k2⟩ := right rfl c2
          exact ⟨hg', hd, _, rfl, k1, k2⟩
        · rw [if_neg c2]
          obtain ⟨hd, g⟩ := I.nt _ _ _ hf
          obtain ⟨hd', g'⟩ := I.nt _ _ _ hg
          have rf := rank_nt hf g.hdr
          have rg := rank_nt hg g'.hdr
          have hr : s.rank x.node = s.rank y.node := by unfold rank; omega
          have hh := I.lev _ _ _ _ g.hdr g'.hdr (by omega)
          subst hh
          have := g.hdr
          rw [g'.hdr] at this
          cases this
          refine ⟨hf', hd, _, rfl, g.hdr, by simp [g.len, g'.len], by omega, ?_, ?_⟩
          · intro p hp
            obtain ⟨⟨e, e'⟩, he, rfl⟩ := List.mem_map.1 hp
            have m := List.of_mem_zip he
            obtain ⟨k1, k2⟩ := g.kids e m.1
            obtain ⟨k3, k4⟩ := g'.kids e' m.2
            refine ⟨k1, k3, ?_, ?_⟩
            · show max (s.rank e.node) (s.rank e'.node) ≤ _; omega
            · show Max.max (s.rank e.node) (s.rank e'.node) < _; omega
          · intro a u v ha hu hv
            obtain ⟨e, w, k1, k2, rfl⟩ := eval_nt hf g.hdr hu
            obtain ⟨e', w', k3, k4, rfl⟩ := eval_nt hg g'.hdr hv
            exact ⟨_, w, w', by
              rw [List.getElem?_map, List.getElem?_zip_eq_some (z := (e, e')).2 ⟨k1, k3⟩]; rfl, k2, k4,
              by simp only [map_add], by simp only [map_add]⟩

theorem mapS_ok {o : EvOp} {n : Nat} {rec : Ev → EvEdge → EvEdge → Option (EvEdge × Ev)}
    (hrec : ∀ (s : Ev) (x y : EvEdge), Inv s → x.node < s.nodes.length → y.node < s.nodes.length →
      Max.max (s.rank x.node) (s.rank y.node) < n → ∃ r s', rec s x y = some (r, s') ∧ ApOk o s x y r s') (L : Nat) :
    ∀ (ps : List (EvEdge × EvEdge)) (s : Ev), Inv s →
      (∀ p ∈ ps, p.1.node < s.nodes.length ∧ p.2.node < s.nodes.length ∧
        max (s.rank p.1.node) (s.rank p.2.node) ≤ L ∧ Max.max (s.rank p.1.node) (s.rank p.2.node) < n) →
      ∃ es s', mapS rec s ps = some (es, s') ∧ Inv s' ∧ Ext s s' ∧ s'.headers = s.headers ∧ es.length = ps.length ∧
        (∀ e ∈ es, e.node < s'.nodes.length ∧ s'.rank e.node ≤ L) ∧
        ∀ (k : Nat) (p : EvEdge × EvEdge), ps[k]? = some p → ∃ e, es[k]? = some e ∧
          ∀ a u v, s.ValidA a → Eval s a p.1.node u → Eval s a p.2.node v →
            EVal s' a e (evop o (u.map (p.1.value + ·)) (v.map (p.2.value + ·))) := by
  intro ps
  induction ps with
  | nil => intro s I _; exact ⟨[], s, rfl, I, .refl s, rfl, rfl, by simp, by simp⟩
  | cons p ps ih =>
    intro s I hp
    obtain ⟨x, y⟩ := p
    obtain ⟨l1, l2, l3, l4⟩ := hp (x, y) (by simp)
    obtain ⟨r, s1, e1, k⟩ := hrec s x y I l1 l2 l4
    obtain ⟨es, s2, e2, I2, x2, hd2, len, hes, hval⟩ := ih s1 k.inv (by
      intro p hm
      obtain ⟨m1, m2, m3, m4⟩ := hp p (List.mem_cons_of_mem _ hm)
      rw [I.rank_ext k.ext m1, I.rank_ext k.ext m2]
      exact ⟨k.ext.lt m1, k.ext.lt m2, m3, m4⟩)
    refine ⟨r :: es, s2, by simp [mapS, e1, e2], I2, k.ext.trans x2, by rw [hd2, k.hdrs], by simp [len], ?_, ?_⟩
    · intro e he
      rcases List.mem_cons.1 he with rfl | he
      · refine ⟨x2.lt k.live, ?_⟩
        rw [k.inv.rank_ext x2 k.live]
        exact Nat.le_trans k.rank l3
      · exact hes e he
    · intro j p hj
      cases j with
      | zero =>
        simp only [List.getElem?_cons_zero, Option.some.injEq] at hj
        subst hj
        exact ⟨r, rfl, fun a u v ha hu hv => (k.val a u v ha hu hv).ext x2⟩
      | succ j =>
        simp only [List.getElem?_cons_succ] at hj
        obtain ⟨e, he, hv⟩ := hval j p hj
        refine ⟨e, by simpa using he, fun a u v ha hu hv' => hv a u v ?_ (hu.ext k.ext) (hv'.ext k.ext)⟩
        intro hd hm
        rw [k.hdrs] at hm
        exact ha hd hm

theorem applyF_ok (o : EvOp) : ∀ (n : Nat) (s : Ev) (x y : EvEdge), Inv s → x.node < s.nodes.length →
    y.node < s.nodes.length → Max.max (s.rank x.node) (s.rank y.node) < n → ∃ r s', applyF o n s x y = some (r, s') ∧
      ApOk o s x y r s' := by
  intro n
  induction n with
  | zero => intro s x y _ _ _ h; omega
  | succ n ih =>
    intro s x y I lx ly hr
    -- from a result relative to the smaller value
    have lift : ∀ {s' : Ev} {r : EvEdge}, Inv s' → Ext s s' → s'.headers = s.headers → r.node < s'.nodes.length →
        s'.rank r.node ≤ max (s.rank x.node) (s.rank y.node) →
        (∀ a u v, s.ValidA a → Eval s a x.node u → Eval s a y.node v → EVal s' a r (evop o
          (u.map (x.value - min x.value y.value + ·)) (v.map (y.value - min x.value y.value + ·)))) →
        ApOk o s x y ⟨offset o (min x.value y.value) + r.value, r.node⟩ s' := by
      intro s' r k1 k2 k3 k4 k5 k6
      refine ⟨k1, k2, k3, k4, k5, ?_⟩
      intro a u v ha hu hv
      obtain ⟨w, h1, h2⟩ := k6 a u v ha hu hv
      refine ⟨w, h1, ?_⟩
      rw [evop_shift o _ _ (min x.value y.value), h2, map_add]
    have d1 : max (x.value - y.value) 0 = x.value - min x.value y.value := by omega
    have d2 : max (-(x.value - y.value)) 0 = y.value - min x.value y.value := by omega
    simp only [applyF]
    cases hc : s.cache.get (o, x.node, y.node, x.value - y.value) with
    | some r =>
      have c := I.cache _ _ _ _ _ hc
      refine ⟨_, _, rfl, lift I (.refl s) rfl c.live c.rank ?_⟩
      intro a u v ha hu hv
      have := c.val a u v ha hu hv
      rw [d1, d2] at this
      exact this
    | none =>
      obtain ⟨nf, hf⟩ := get_of_lt lx
      obtain ⟨ng, hg⟩ := get_of_lt ly
      simp only [hf, hg]
      cases hb : base o x.value x.node y.value y.node nf ng with
      | some e => exact ⟨_, _, rfl, base_ok I hf hg hb⟩
      | none =>
        obtain ⟨h, hd, ps, e1, hh, X⟩ := expand_ok I hf hg hb
        simp only [e1]
        obtain ⟨es, s1, e2, I1, x1, hd1, len, hes, hval⟩ := mapS_ok (o := o) (n := n) ih hd.level ps s I (by
          intro p hp
          obtain ⟨m1, m2, m3, m4⟩ := X.kids p hp
          exact ⟨m1, m2, m3, by omega⟩)
        simp only [e2]
        obtain ⟨r, s2, e3, k⟩ := createNode_ok I1 (h := h) (hd := hd) (by rw [hd1]; exact hh) (es := es)
          (by rw [len, X.len]) hes
        simp only [e3]
        have x2 : Ext s s2 := x1.trans k.ext
        have hv : ∀ a u v, s.ValidA a → Eval s a x.node u → Eval s a y.node v → EVal s2 a r (evop o
            (u.map (x.value - min x.value y.value + ·)) (v.map (y.value - min x.value y.value + ·))) := by
          intro a u v ha hu hv
          obtain ⟨p, u', v', p1, p2, p3, p4, p5⟩ := X.val a u v ha hu hv
          obtain ⟨e, q1, q2⟩ := hval _ p p1
          have := q2 a u' v' ha p2 p3
          rw [p4, p5] at this
          refine k.val a e _ ?_ q1 this
          intro hd' hm
          rw [hd1] at hm
          exact ha hd' hm
        have hrank : s2.rank r.node ≤ max (s.rank x.node) (s.rank y.node) := Nat.le_trans k.rank X.top
        have hhd : s2.headers = s.headers := by rw [k.hdrs, hd1]
        let s3 : Ev := { s2 with cache := s2.cache.insert (o, x.node, y.node, x.value - y.value) r }
        have x3 : Ext s2 s3 := ⟨List.prefix_rfl, List.prefix_rfl⟩
        have hcg : CGood s2 o x.node y.node (x.value - y.value) r := by
          refine ⟨x2.lt lx, x2.lt ly, k.live, ?_, ?_⟩
          · rw [I.rank_ext x2 lx, I.rank_ext x2 ly]; exact hrank
          · intro a u v ha hu hv'
            rw [d1, d2]
            exact hv a u v (x2.valid ha) (I.back x2 ha lx hu) (I.back x2 ha ly hv')
        have I3 : Inv s3 := by
          have J := k.inv
          refine ⟨J.n0, J.n1, J.om, J.inf, J.lev, J.pos, ?_, J.ut, ?_⟩
          · intro i h es hn
            obtain ⟨hd, g⟩ := J.nt i h es hn
            exact ⟨hd, g.ext J x3⟩
          · intro o' f g d r' hr'
            have hr2 : (s2.cache.insert (o, x.node, y.node, x.value - y.value) r).get (o', f, g, d) = some r' := hr'
            rw [AMap.get_insert] at hr2
            clear hr'
            split at hr2
            · rename_i heq
              cases heq
              obtain rfl := Option.some.inj hr2
              exact hcg.ext J x3
            · exact (J.cache o' f g d r' hr2).ext J x3
        refine ⟨_, s3, rfl, lift I3 (x2.trans x3) hhd k.live hrank ?_⟩
        intro a u v ha hu hv'
        exact (hv a u v ha hu hv').ext x3

theorem apply_ok (I : Inv s) (o : EvOp) {x y : EvEdge} (hx : x.node < s.nodes.length) (hy : y.node < s.nodes.length) :
    ∃ r s', s.apply o x y = some (r, s') ∧ ApOk o s x y r s' :=
  applyF_ok o _ s x y I hx hy (by omega)

end Ev
end DD
