import Verif.Bss.ZRefine

/-!
# ZDD sessions: the effect of every public call
-/

set_option autoImplicit false
set_option linter.unusedSectionVars false
set_option linter.unusedVariables false

namespace DD
open Arena Zdd

/-- The family with exactly the members `P` and no undetermined part. -/
def zFam (P : (Nat → Nat) → Prop) : ZVal := fun a z => z = .one ∧ P a

theorem zFam_cl (P : (Nat → Nat) → Prop) : (zFam P).Cl := by
  rintro a ⟨h, _⟩; cases h

theorem zFam_one (P : (Nat → Nat) → Prop) (a : Nat → Nat) : zFam P a .one ↔ P a := by
  simp [zFam]

theorem ZDen.eq_zFam {m : Arena T3} {i : Nat} {V : ZVal} (h : ZDen m i V) (hc : V.Cl)
    {P : (Nat → Nat) → Prop} (hp : ∀ a, V a .one ↔ P a) : V = zFam P := by
  funext a z
  apply propext
  cases z with
  | zero => simp [h.val, zFam]
  | one => rw [hp, zFam_one]
  | undet => exact ⟨fun h => absurd h (hc a), fun h => absurd h (zFam_cl P a)⟩

theorem ZDen.fam_congr {m : Arena T3} {i : Nat} {P Q : (Nat → Nat) → Prop} (h : ZDen m i (zFam P))
    (e : ∀ a, P a ↔ Q a) : ZDen m i (zFam Q) := by
  have : P = Q := funext fun a => propext (e a)
  rw [← this]; exact h

theorem zEmpty_eq : zEmpty = zFam (fun _ => False) := by funext a z; simp [zEmpty, zFam]
theorem zBase_eq : zBase = zFam (fun a => a = fun _ => 0) := by
  funext a z; simp [zBase, zFam, and_comm]
theorem zSingle_eq (l : Nat) : zSingle l = zFam (fun a => a = upd (fun _ => 0) l 1) := by
  funext a z; simp [zSingle, zFam, and_comm]

/-- Manager invariant: `names` are the elements in order of first appearance, `L` the nodes of all live
handles. -/
structure ZMOK (m : ZddMgr) (names : List String) (L : List Nat) : Prop where
  ok : Wr.OK zI m.w L
  hdrs : m.w.eng.arena.headers = mkHeaders names
  nodup : names.Nodup
  varsLen : m.vars.len = names.length
  vars : ∀ s h, m.vars.get s = some h ↔ names[h]? = some s

theorem addName_prefix (names : List String) (v : String) : names <+: addName names v := by
  unfold addName
  split
  · exact List.prefix_rfl
  · exact ⟨[v], rfl⟩

theorem mem_addName (names : List String) (v : String) : v ∈ addName names v := by
  unfold addName
  split
  · assumption
  · simp

/-- Names after mentioning all of `vs`. -/
def addNames (names : List String) (vs : List String) : List String := vs.foldl addName names

theorem addNames_prefix (names vs : List String) : names <+: addNames names vs := by
  induction vs generalizing names with
  | nil => exact List.prefix_rfl
  | cons v vs ih => exact (addName_prefix names v).trans (ih _)

theorem addNames_append (names vs vs' : List String) :
    addNames names (vs ++ vs') = addNames (addNames names vs) vs' := by
  unfold addNames; rw [List.foldl_append]

theorem mem_addNames {names vs : List String} {v : String} (h : v ∈ vs) : v ∈ addNames names vs := by
  induction vs generalizing names with
  | nil => cases h
  | cons w vs ih =>
    rcases List.mem_cons.1 h with rfl | h
    · exact (addNames_prefix _ vs).subset (mem_addName names v)
    · exact ih h

/-- Indicator of a set of names. -/
noncomputable def ind (names xs : List String) : Nat → Nat := fun l =>
  by classical exact if ∃ x ∈ xs, names[l]? = some x then 1 else 0

theorem ind_nil (names : List String) : ind names [] = fun _ => 0 := by
  funext l; simp [ind]

theorem getElem?_prefix {names names' : List String} (h : names <+: names') {l : Nat} {x : String}
    (hx : names[l]? = some x) : names'[l]? = some x := by
  obtain ⟨t, rfl⟩ := h
  rw [List.getElem?_append_left (List.getElem?_eq_some_iff.1 hx).1]; exact hx

theorem ind_prefix {names names' xs : List String} (h : names <+: names') (nd : names'.Nodup)
    (hs : ∀ x ∈ xs, x ∈ names) : ind names' xs = ind names xs := by
  funext l
  simp only [ind]
  congr 1
  apply propext
  constructor
  · rintro ⟨x, hx, hl⟩
    refine ⟨x, hx, ?_⟩
    obtain ⟨j, hj⟩ := List.mem_iff_getElem?.1 (hs x hx)
    have hj' := getElem?_prefix h hj
    have hlt := (List.getElem?_eq_some_iff.1 hl).1
    have : l = j := (List.getElem?_inj hlt nd).1 (hl.trans hj'.symm)
    rw [this]; exact hj
  · rintro ⟨x, hx, hl⟩
    exact ⟨x, hx, getElem?_prefix h hl⟩

theorem ind_cons {names xs : List String} {x : String} {k : Nat} (nd : names.Nodup)
    (hk : names[k]? = some x) : ind names (x :: xs) = sup (upd (fun _ => 0) k 1) (ind names xs) := by
  funext l
  simp only [ind, sup, upd]
  by_cases h1 : l = k
  · subst h1
    simp [hk]
    split <;> simp
  · have h2 : ¬ names[l]? = some x := fun h => h1 ((List.getElem?_inj
      (List.getElem?_eq_some_iff.1 h).1 nd).1 (h.trans hk.symm))
    simp [h1, h2]

theorem sup_assoc (a b c : Nat → Nat) : sup (sup a b) c = sup a (sup b c) := by
  funext l; simp [sup, Nat.max_assoc]

theorem keep_of_ext {s s' : Zdd} (hs : Inv s) (e : Ext s.arena s'.arena) : zI.Keep s s' :=
  fun k V h => ZDen.ext h hs.wf e

namespace ZMOK
variable {m : ZddMgr} {names : List String} {L : List Nat}

theorem inj (h : ZMOK m names L) : m.w.eng.arena.LevInj := levInj_of h.hdrs

/-- Wrapping an engine result. -/
theorem wrap (h : ZMOK m names L) {P : ZVal → Prop} {res : Option (Nat × Zdd)}
    (hr : ZOk m.w.eng P res) :
    ∃ r m' V, m.wrap res = some (r, m') ∧ ZMOK m' names (r :: L) ∧ ZDen m'.w.eng.arena r V ∧ P V ∧
      zI.KeepL L m.w.eng m'.w.eng ∧ m'.vars = m.vars := by
  obtain ⟨r, e, V, rfl, h1, h2, h3, h4⟩ := hr
  obtain ⟨w, k1, k2, k3, k4, k5⟩ := h.ok.wrap (r := r) (e := e) h1 (keep_of_ext h.ok.inv h2.toExt) h3
  refine ⟨r, { m with w := w }, V, by simp only [ZddMgr.wrap, k1], ?_, k4, h4, k5, rfl⟩
  exact { ok := k2, hdrs := by
            show w.eng.arena.headers = _
            have : w.eng.arena.headers = e.arena.headers := k3
            rw [this, h2.heq]; exact h.hdrs
          nodup := h.nodup, varsLen := h.varsLen, vars := h.vars }

theorem empty (h : ZMOK m names L) :
    ∃ r m', m.empty = some (r, m') ∧ ZMOK m' names (r :: L) ∧ ZDen m'.w.eng.arena r zEmpty ∧
      zI.KeepL L m.w.eng m'.w.eng := by
  have : ZOk m.w.eng (fun V => V = zEmpty) (some (Zdd.zero, m.w.eng)) :=
    ⟨_, _, _, rfl, h.ok.inv, Step.refl _, zden_zero h.ok.inv, rfl⟩
  obtain ⟨r, m', V, h1, h2, h3, rfl, h5, _⟩ := h.wrap this
  exact ⟨r, m', h1, h2, h3, h5⟩

theorem base (h : ZMOK m names L) :
    ∃ r m', m.base = some (r, m') ∧ ZMOK m' names (r :: L) ∧ ZDen m'.w.eng.arena r zBase ∧
      zI.KeepL L m.w.eng m'.w.eng := by
  have : ZOk m.w.eng (fun V => V = zBase) (some (Zdd.one, m.w.eng)) :=
    ⟨_, _, _, rfl, h.ok.inv, Step.refl _, zden_one h.ok.inv, rfl⟩
  obtain ⟨r, m', V, h1, h2, h3, rfl, h5, _⟩ := h.wrap this
  exact ⟨r, m', h1, h2, h3, h5⟩

theorem unpin {i : Nat} (h : ZMOK m names (i :: L)) : ZMOK (m.unpin i) names L :=
  { ok := h.ok.unpin, hdrs := h.hdrs, nodup := h.nodup, varsLen := h.varsLen, vars := h.vars }

theorem congr (h : ZMOK m names L) {L' : List Nat} (e : ∀ k, L.count k = L'.count k) :
    ZMOK m names L' :=
  { ok := h.ok.congr e, hdrs := h.hdrs, nodup := h.nodup, varsLen := h.varsLen, vars := h.vars }

theorem header (h : ZMOK m names L) (x : String) :
    ∃ k m', m.header x = (k, m') ∧ ZMOK m' (addName names x) L ∧
      (addName names x)[k]? = some x ∧ zI.Keep m.w.eng m'.w.eng ∧
      m'.w.eng.arena.headers[k]? = some ⟨k, x, 2⟩ := by
  unfold ZddMgr.header
  by_cases hx : x ∈ names
  · obtain ⟨k, hk⟩ := List.mem_iff_getElem?.1 hx
    have hadd : addName names x = names := by simp [addName, hx]
    simp only [(h.vars x k).2 hk, hadd]
    refine ⟨k, m, rfl, h, hk, fun _ _ h => h, ?_⟩
    rw [h.hdrs, mkHeaders_get]; exact ⟨x, hk, rfl⟩
  · have hnone : m.vars.get x = none := by
      cases hg : m.vars.get x with
      | none => rfl
      | some i => exact absurd (List.mem_of_getElem? ((h.vars x i).1 hg)) hx
    have hadd : addName names x = names ++ [x] := by simp [addName, hx]
    simp only [hnone, hadd]
    obtain ⟨h1, h2, h3, h4, h5, h6⟩ := createHeader_inv h.ok.inv m.vars.len x
    have hid : (m.w.eng.createHeader m.vars.len x).1 = names.length := by
      show m.w.eng.arena.headers.length = _
      rw [h.hdrs]; simp [mkHeaders]
    generalize hb : m.w.eng.createHeader m.vars.len x = hb' at h1 h2 h3 h4 h5 h6 hid
    obtain ⟨k, e⟩ := hb'
    simp only at h1 h2 h3 h4 h5 h6 hid
    subst hid
    have keep := keep_of_ext h.ok.inv h2
    have nd : (names ++ [x]).Nodup := by
      rw [List.nodup_append]
      refine ⟨h.nodup, by simp, ?_⟩
      intro y hy z hz
      simp at hz
      subst hz
      intro he
      exact hx (he ▸ hy)
    refine ⟨_, _, rfl, ?_, by simp, keep, ?_⟩
    · exact
        { ok := h.ok.eng h1 keep
          hdrs := by
            show e.arena.headers = _
            rw [h4, h.hdrs, h.varsLen, mkHeaders_append]
          nodup := nd
          varsLen := by
            show (m.vars.insert x _).len = _
            rw [AMap.len_insert_fresh _ hnone, h.varsLen]
            simp
          vars := fun s k => by
            show (m.vars.insert x names.length).get s = some k ↔ _
            rw [AMap.get_insert]
            split
            · rename_i he
              subst he
              constructor
              · rintro ⟨⟩; simp
              · intro hk
                have hlt := (List.getElem?_eq_some_iff.1 hk).1
                have : k = names.length := (List.getElem?_inj hlt nd).1 (hk.trans (by simp))
                rw [this]
            · rename_i hne
              rw [h.vars, List.getElem?_append]
              split
              · exact Iff.rfl
              · rename_i hk
                constructor
                · intro h'; exact absurd (List.getElem?_eq_some_iff.1 h').1 hk
                · intro h'
                  have := (List.getElem?_eq_some_iff.1 h').1
                  have h0 : k - names.length = 0 := by simp at this; omega
                  rw [h0] at h'
                  simp at h'
                  exact absurd h' hne }
    · show e.arena.headers[names.length]? = _
      rw [h3, h.varsLen]

theorem singleton (h : ZMOK m names L) (x : String) :
    ∃ r m' k, m.singleton x = some (r, m') ∧ ZMOK m' (addName names x) (r :: L) ∧
      (addName names x)[k]? = some x ∧ ZDen m'.w.eng.arena r (zSingle k) ∧
      zI.KeepL L m.w.eng m'.w.eng := by
  obtain ⟨k, m1, h1, h2, h3, h4, h5⟩ := h.header x
  obtain ⟨r, m2, V, g1, g2, g3, rfl, g5, _⟩ := h2.wrap (single_z h2.ok.inv h5)
  refine ⟨r, m2, k, by simp only [ZddMgr.singleton, h1]; exact g1, g2, h3, g3, ?_⟩
  intro j hj V hV
  exact g5 j hj V (h4 j V hV)

theorem fromSet (xs : List String) : ∀ {m : ZddMgr} {names : List String} {L : List Nat} {fam : Nat}
    {P : (Nat → Nat) → Prop}, ZMOK m names (fam :: L) → ZDen m.w.eng.arena fam (zFam P) →
    ∃ r m', m.fromSet fam xs = some (r, m') ∧ ZMOK m' (addNames names xs) (r :: L) ∧
      ZDen m'.w.eng.arena r (zFam fun a => ∃ b, P b ∧ a = sup b (ind (addNames names xs) xs)) ∧
      zI.KeepL L m.w.eng m'.w.eng := by
  induction xs with
  | nil =>
    intro m names L fam P h hd
    refine ⟨fam, m, rfl, h, ?_, fun _ _ _ h => h⟩
    refine hd.fam_congr (fun a => Iff.symm ?_)
    rw [ind_nil]
    constructor
    · rintro ⟨b, hb, rfl⟩; rw [sup_zeroR]; exact hb
    · intro ha; exact ⟨a, ha, (sup_zeroR a).symm⟩
  | cons x xs ih =>
    intro m names L fam P h hd
    obtain ⟨single, m1, k, g1, g2, g3, g4, g5⟩ := h.singleton x
    have hd1 := g5 fam List.mem_cons_self _ hd
    obtain ⟨r, m2, V, k1, k2, k3, k4, k5, _⟩ := g2.wrap (product_z g2.ok.inv hd1 g4)
    obtain ⟨c1, c2⟩ := k4 (zFam_cl _) (by rw [zSingle_eq]; exact zFam_cl _)
    have hV : V = zFam (fun a => ∃ b, P b ∧ a = sup b (upd (fun _ => 0) k 1)) := by
      refine k3.eq_zFam c1 (fun a => ?_)
      rw [c2]
      simp only [zFam_one, zSingle_eq]
      constructor
      · rintro ⟨b, d, h1, rfl, h3⟩; exact ⟨b, h1, h3⟩
      · rintro ⟨b, h1, h3⟩; exact ⟨b, _, h1, rfl, h3⟩
    rw [hV] at k3
    have k2' : ZMOK m2 (addName names x) (fam :: single :: r :: L) :=
      k2.congr (fun j => by simp only [List.count_cons]; omega)
    have k2'' := k2'.unpin.unpin
    obtain ⟨r', m3, l1, l2, l3, l4⟩ := ih k2'' (fam := r) k3
    have e : addNames names (x :: xs) = addNames (addName names x) xs := rfl
    refine ⟨r', m3, ?_, by rw [e]; exact l2, ?_, ?_⟩
    · simp only [ZddMgr.fromSet, g1, k1]; exact l1
    · rw [e]
      refine l3.fam_congr (fun a => Iff.symm ?_)
      have hk : (addNames (addName names x) xs)[k]? = some x :=
        getElem?_prefix (addNames_prefix _ _) g3
      rw [ind_cons l2.nodup hk]
      constructor
      · rintro ⟨b, hb, rfl⟩
        exact ⟨_, ⟨b, hb, rfl⟩, (sup_assoc _ _ _).symm⟩
      · rintro ⟨_, ⟨b, hb, rfl⟩, rfl⟩
        exact ⟨b, hb, sup_assoc _ _ _⟩
    · intro j hj V hV
      exact l4 j hj V (k5 j (by simp [hj]) V (g5 j (List.mem_cons_of_mem _ hj) V hV))

/-- Members of the family listed in `ss`. -/
def Listed (names : List String) (ss : List (List String)) (a : Nat → Nat) : Prop :=
  ∃ s ∈ ss, a = ind names s

theorem fromSetsLoop (ss : List (List String)) : ∀ {m : ZddMgr} {names : List String} {L : List Nat}
    {result : Nat} {P : (Nat → Nat) → Prop}, ZMOK m names (result :: L) →
    ZDen m.w.eng.arena result (zFam P) →
    ∃ r m', m.fromSetsLoop result ss = some (r, m') ∧ ZMOK m' (addNames names ss.flatten) (r :: L) ∧
      ZDen m'.w.eng.arena r (zFam fun a => P a ∨ Listed (addNames names ss.flatten) ss a) ∧
      zI.KeepL L m.w.eng m'.w.eng := by
  induction ss with
  | nil =>
    intro m names L result P h hd
    refine ⟨result, m, rfl, h, ?_, fun _ _ _ h => h⟩
    refine hd.fam_congr (fun a => Iff.symm ?_)
    simp [Listed]
  | cons s ss ih =>
    intro m names L result P h hd
    obtain ⟨fam, m1, a1, a2, a3, a4⟩ := h.base
    rw [zBase_eq] at a3
    obtain ⟨fam', m2, b1, b2, b3, b4⟩ := fromSet s a2 a3
    have hd2 := b4 result (by simp) _ (a4 result (by simp) _ hd)
    obtain ⟨r, m3, V, k1, k2, k3, k4, k5, _⟩ := b2.wrap (union_z b2.ok.inv hd2 b3)
    obtain ⟨c1, c2⟩ := k4 (zFam_cl _) (zFam_cl _)
    have hV : V = zFam (fun a => P a ∨ a = ind (addNames names s) s) := by
      refine k3.eq_zFam c1 (fun a => ?_)
      rw [c2]
      simp only [zFam_one]
      constructor
      · rintro (h1 | ⟨b, rfl, h1⟩)
        · exact .inl h1
        · rw [sup_zeroL] at h1; exact .inr h1
      · rintro (h1 | h1)
        · exact .inl h1
        · exact .inr ⟨_, rfl, by rw [sup_zeroL]; exact h1⟩
    rw [hV] at k3
    have k2' : ZMOK m3 (addNames names s) (result :: fam' :: r :: L) :=
      k2.congr (fun j => by simp only [List.count_cons]; omega)
    obtain ⟨r', m4, l1, l2, l3, l4⟩ := ih k2'.unpin.unpin (result := r) k3
    have e : addNames names (s :: ss).flatten = addNames (addNames names s) ss.flatten := by
      rw [List.flatten_cons, addNames_append]
    refine ⟨r', m4, ?_, by rw [e]; exact l2, ?_, ?_⟩
    · simp only [ZddMgr.fromSetsLoop, a1, b1, k1]; exact l1
    · rw [e]
      refine l3.fam_congr (fun a => Iff.symm ?_)
      simp only [Listed, List.mem_cons, exists_eq_or_imp, or_assoc]
      rw [ind_prefix (addNames_prefix (addNames names s) ss.flatten) l2.nodup
        (fun x hx => mem_addNames hx)]
    · intro j hj V hV
      exact l4 j hj V (k5 j (by simp [hj]) V (b4 j (by simp [hj]) V (a4 j (by simp [hj]) V hV)))

theorem fromSets (h : ZMOK m names L) (ss : List (List String)) :
    ∃ r m', m.fromSets ss = some (r, m') ∧ ZMOK m' (addNames names ss.flatten) (r :: L) ∧
      ZDen m'.w.eng.arena r (zFam (Listed (addNames names ss.flatten) ss)) ∧
      zI.KeepL L m.w.eng m'.w.eng := by
  obtain ⟨r, m1, h1, h2, h3, h4⟩ := h.empty
  rw [zEmpty_eq] at h3
  obtain ⟨r', m2, k1, k2, k3, k4⟩ := fromSetsLoop ss h2 h3
  refine ⟨r', m2, by simp only [ZddMgr.fromSets, h1]; exact k1, k2, ?_, ?_⟩
  · simpa using k3
  · intro j hj V hV
    exact k4 j hj V (h4 j hj V hV)

end ZMOK
end DD
