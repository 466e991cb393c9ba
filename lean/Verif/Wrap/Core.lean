import Verif.Bss.Roots

/-!
# Reference-counted wrappers around an engine

`bss::ZddMgr` (/repo/bss/src/zdd.rs) and `mss::MddMgr` (/repo/mss/src/mdd.rs) share the same handle
bookkeeping.  It is modelled once, over an engine type `E` and a key type `K` (what a handle points
to).  `Rc`, `RefCell` and `Weak` are one shared state; use of a handle after its manager is dropped
is outside the model.
-/

set_option autoImplicit false
set_option linter.unusedSectionVars false
set_option linter.unusedVariables false

namespace DD

/-- What the wrapper calls on its engine. -/
structure EngOps (E K : Type) where
  live : E → Nat
  gc : E → List K → Option (Nat × E)

/-- An engine and the root table. -/
structure Wr (E K : Type) where
  eng : E
  gc : GcState K

variable {E K X H : Type} [DecidableEq K]

namespace Wr

/-- Handle creation: /repo/bss/src/zdd.rs:167-176, /repo/mss/src/mdd.rs:72-86. -/
def pin (m : Wr E K) (k : K) : Wr E K := { m with gc := { m.gc with roots := pinR m.gc.roots k } }

/-- `Drop`: /repo/bss/src/zdd.rs:314-326, /repo/mss/src/mdd.rs:94-106. -/
def unpin (m : Wr E K) (k : K) : Wr E K := { m with gc := { m.gc with roots := unpinR m.gc.roots k } }

/-- /repo/bss/src/zdd.rs:22-34, /repo/mss/src/mdd.rs:29-44 (`saturating_mul` is plain
multiplication). -/
def maybeGc (o : EngOps E K) (m : Wr E K) : Option (Wr E K) :=
  if o.live m.eng < m.gc.threshold then some m
  else
    match o.gc m.eng m.gc.roots.keys with
    | none => none
    | some (_, e) =>
      some { m with eng := e, gc := { m.gc with threshold := max (o.live e * 2) m.gc.floor } }

/-- `wrap` /repo/bss/src/zdd.rs:119-123, /repo/mss/src/mdd.rs:159-163 and `rewrap`
/repo/bss/src/zdd.rs:178-184, /repo/mss/src/mdd.rs:114-124, of a result `(node, engine)`. -/
def wrap (o : EngOps E K) (m : Wr E K) (res : Option (K × E)) : Option (K × Wr E K) :=
  match res with
  | none => none
  | some (r, e) =>
    match maybeGc o ({ m with eng := e }.pin r) with
    | none => none
    | some m' => some (r, m')

/-- /repo/bss/src/zdd.rs:125-129, /repo/mss/src/mdd.rs:146-150 -/
def setGcThreshold (m : Wr E K) (n : Nat) : Wr E K :=
  { m with gc := { m.gc with threshold := n, floor := n } }

/-- /repo/bss/src/zdd.rs:54-64, /repo/mss/src/mdd.rs:127-137; the floor is `1 << 16` in both. -/
def new (e : E) : Wr E K where
  eng := e
  gc := { roots := AMap.empty, threshold := 65536, floor := 65536 }

end Wr

/-- Facts about the engine: an invariant, the meaning of keys, and the part that collections keep. -/
structure EngI (E K X H : Type) (o : EngOps E K) where
  inv : E → Prop
  den : E → K → X → Prop
  hdr : E → H
  gc_ok : ∀ (e : E) (roots : List K), inv e → (∀ k ∈ roots, ∃ x, den e k x) →
    ∃ n e', o.gc e roots = some (n, e') ∧ inv e' ∧ hdr e' = hdr e ∧
      ∀ k ∈ roots, ∀ x, den e k x → den e' k x

variable {o : EngOps E K}

/-- Manager invariant: `L` lists the keys of all live handles. -/
structure Wr.OK (I : EngI E K X H o) (m : Wr E K) (L : List K) : Prop where
  inv : I.inv m.eng
  roots : RootsOK m.gc.roots L
  live : ∀ k ∈ L, ∃ x, I.den m.eng k x

/-- Everything that has a meaning keeps it. -/
def EngI.Keep (I : EngI E K X H o) (e e' : E) : Prop := ∀ k x, I.den e k x → I.den e' k x

/-- The keys in `L` keep their meaning. -/
def EngI.KeepL (I : EngI E K X H o) (L : List K) (e e' : E) : Prop :=
  ∀ k ∈ L, ∀ x, I.den e k x → I.den e' k x

namespace Wr.OK
variable {I : EngI E K X H o} {m : Wr E K} {L : List K}

theorem congr (h : OK I m L) {L' : List K} (e : ∀ k, L.count k = L'.count k) : OK I m L' where
  inv := h.inv
  roots := h.roots.congr e
  live k hk := h.live k (by rw [← List.count_pos_iff, e, List.count_pos_iff]; exact hk)

theorem pin (h : OK I m L) {k : K} {x : X} (hd : I.den m.eng k x) : OK I (m.pin k) (k :: L) where
  inv := h.inv
  roots := h.roots.pin k
  live j hj := by
    rcases List.mem_cons.1 hj with rfl | hj
    · exact ⟨x, hd⟩
    · exact h.live j hj

theorem unpin {k : K} (h : OK I m (k :: L)) : OK I (m.unpin k) L where
  inv := h.inv
  roots := RootsOK.unpin h.roots
  live j hj := h.live j (List.mem_cons_of_mem _ hj)

theorem eng (h : OK I m L) {e : E} (hi : I.inv e) (keep : I.Keep m.eng e) : OK I { m with eng := e } L where
  inv := hi
  roots := h.roots
  live k hk := by
    obtain ⟨x, hx⟩ := h.live k hk
    exact ⟨x, keep k x hx⟩

theorem threshold (h : OK I m L) (n : Nat) : OK I (m.setGcThreshold n) L :=
  ⟨h.inv, h.roots, h.live⟩

/-- A collection whose roots include all pinned keys. -/
theorem collect (h : OK I m L) {roots : List K} (hr : ∀ k ∈ roots, ∃ x, I.den m.eng k x)
    (hsub : ∀ k ∈ L, k ∈ roots) :
    ∃ n e, o.gc m.eng roots = some (n, e) ∧ OK I { m with eng := e } L ∧ I.hdr e = I.hdr m.eng ∧
      I.KeepL roots m.eng e := by
  obtain ⟨n, e, h1, h2, h3, h4⟩ := I.gc_ok m.eng roots h.inv hr
  refine ⟨n, e, h1, ⟨h2, h.roots, fun k hk => ?_⟩, h3, h4⟩
  obtain ⟨x, hx⟩ := h.live k hk
  exact ⟨x, h4 k (hsub k hk) x hx⟩

theorem maybeGc (h : OK I m L) : ∃ m', m.maybeGc o = some m' ∧ OK I m' L ∧
    I.hdr m'.eng = I.hdr m.eng ∧ I.KeepL L m.eng m'.eng := by
  unfold Wr.maybeGc
  split
  · exact ⟨m, rfl, h, rfl, fun _ _ _ hd => hd⟩
  · obtain ⟨n, e, h1, h2, h3, h4⟩ := h.collect (roots := m.gc.roots.keys)
      (fun k hk => h.live k (h.roots.mem_keys.1 hk)) (fun k hk => h.roots.mem_keys.2 hk)
    simp only [h1]
    exact ⟨_, rfl, ⟨h2.inv, h2.roots, h2.live⟩, h3, fun k hk => h4 k (h.roots.mem_keys.2 hk)⟩

theorem wrap (h : OK I m L) {r : K} {e : E} {x : X} (hi : I.inv e) (keep : I.Keep m.eng e)
    (hd : I.den e r x) :
    ∃ m', m.wrap o (some (r, e)) = some (r, m') ∧ OK I m' (r :: L) ∧ I.hdr m'.eng = I.hdr e ∧
      I.den m'.eng r x ∧ I.KeepL L m.eng m'.eng := by
  obtain ⟨m', h1, h2, h3, h4⟩ := ((h.eng hi keep).pin (k := r) hd).maybeGc
  refine ⟨m', by simp only [Wr.wrap, h1], h2, h3, h4 r List.mem_cons_self x hd, ?_⟩
  intro k hk y hy
  exact h4 k (List.mem_cons_of_mem _ hk) y (keep k y hy)

end Wr.OK

/-! ## Client handles -/

/-- The handles a client currently holds, numbered in order of creation. -/
structure Hs (K : Type) where
  held : AMap Nat K
  next : Nat

namespace Hs

/-- No handles. -/
def empty : Hs K := { held := AMap.empty, next := 0 }

/-- A new handle. -/
def give (s : Hs K) (k : K) : Hs K := { held := s.held.insert s.next k, next := s.next + 1 }

/-- A dropped handle. -/
def drop (s : Hs K) (h : Nat) : Hs K := { s with held := s.held.remove h }

/-- Keys of a list of handles; `none` = some handle is not held. -/
def nodes (s : Hs K) : List Nat → Option (List K)
  | [] => some []
  | f :: fs =>
    match s.held.get f, s.nodes fs with
    | some i, some is => some (i :: is)
    | _, _ => none

/-- Numbers are used once. -/
structure Ok (s : Hs K) : Prop where
  nodup : s.held.NodupKeys
  fresh : ∀ h k, s.held.get h = some k → h < s.next

variable {s : Hs K}

theorem ok_empty : Ok (empty : Hs K) := ⟨AMap.nodup_empty, by intro h i hi; cases hi⟩

theorem Ok.notin (h : s.Ok) : s.held.get s.next = none := by
  cases hg : s.held.get s.next with
  | none => rfl
  | some i => exact absurd (h.fresh _ _ hg) (by omega)

theorem Ok.give (h : s.Ok) (k : K) : (s.give k).Ok where
  nodup := AMap.nodup_insert h.nodup _ _
  fresh h' i hi := by
    have hi' : (s.held.insert s.next k).get h' = some i := hi
    rw [AMap.get_insert] at hi'
    show h' < s.next + 1
    split at hi'
    · omega
    · have := h.fresh h' i hi'; omega

theorem Ok.vals_give (h : s.Ok) (k : K) : (s.give k).held.vals = k :: s.held.vals :=
  AMap.vals_insert_fresh _ h.notin

theorem give_next (k : K) : (s.give k).held.get s.next = some k := by
  show (s.held.insert s.next k).get s.next = _
  rw [AMap.get_insert_self]

theorem Ok.give_old (hs : s.Ok) {h : Nat} {i : K} (k : K) (hi : s.held.get h = some i) :
    (s.give k).held.get h = some i := by
  show (s.held.insert s.next k).get h = _
  rw [AMap.get_insert_ne _ _ (by have := hs.fresh h i hi; omega)]
  exact hi

theorem Ok.drop (hs : s.Ok) (h : Nat) : (s.drop h).Ok where
  nodup := AMap.nodup_remove hs.nodup _
  fresh h' k hk := by
    have hk : (s.held.remove h).get h' = some k := hk
    rw [AMap.get_remove] at hk
    split at hk
    · cases hk
    · exact hs.fresh h' k hk

theorem drop_get {h h' : Nat} (ne : h' ≠ h) : (s.drop h).held.get h' = s.held.get h' := by
  show (s.held.remove h).get h' = _
  rw [AMap.get_remove, if_neg (Ne.symm ne)]

theorem drop_self (h : Nat) : (s.drop h).held.get h = none := by
  show (s.held.remove h).get h = _
  rw [AMap.get_remove, if_pos rfl]

theorem nodes_isSome (fs : List Nat) :
    (s.nodes fs).isSome ↔ ∀ f ∈ fs, ∃ i, s.held.get f = some i := by
  induction fs with
  | nil => simp [nodes]
  | cons f fs ih =>
    simp only [List.mem_cons, forall_eq_or_imp, ← ih]
    simp only [nodes]
    cases s.held.get f <;> cases s.nodes fs <;> simp

theorem nodes_length : ∀ {fs : List Nat} {is : List K}, s.nodes fs = some is → is.length = fs.length := by
  intro fs
  induction fs with
  | nil => intro is h; cases h; rfl
  | cons f fs ih =>
    intro is h
    simp only [nodes] at h
    split at h
    · rename_i i is' _ h2
      cases h
      simp only [List.length_cons, ih h2]
    · cases h

theorem nodes_from : ∀ {fs : List Nat} {is : List K}, s.nodes fs = some is → ∀ i ∈ is, ∃ f ∈ fs, s.held.get f = some i := by
  intro fs
  induction fs with
  | nil => intro is h; cases h; intro i hi; cases hi
  | cons f fs ih =>
    intro is h i hi
    simp only [nodes] at h
    split at h
    · rename_i j is' h1 h2
      cases h
      rcases List.mem_cons.1 hi with rfl | hi
      · exact ⟨f, List.mem_cons_self, h1⟩
      · obtain ⟨f', hf', e⟩ := ih h2 i hi
        exact ⟨f', List.mem_cons_of_mem _ hf', e⟩
    · cases h

theorem nodes_mem : ∀ {fs : List Nat} {is : List K}, s.nodes fs = some is → ∀ i ∈ is, i ∈ s.held.vals := by
  intro fs
  induction fs with
  | nil => intro is h i hi; simp [nodes] at h; subst h; cases hi
  | cons f fs ih =>
    intro is h i hi
    simp only [nodes] at h
    split at h
    · rename_i j js h1 h2
      cases h
      rcases List.mem_cons.1 hi with rfl | hi
      · exact AMap.mem_vals_of_get h1
      · exact ih h2 i hi
    · cases h

end Hs

/-- Dropping a handle. -/
theorem Wr.OK.dropHandle {I : EngI E K X H o} {m : Wr E K} {s : Hs K} {P : List K} (hs : s.Ok)
    (h : Wr.OK I m (s.held.vals ++ P)) {n : Nat} {k : K} (hg : s.held.get n = some k) :
    Wr.OK I (m.unpin k) ((s.drop n).held.vals ++ P) := by
  refine Wr.OK.unpin (k := k) (h.congr (fun j => ?_))
  have := AMap.count_vals_remove hs.nodup hg j
  simp only [List.count_append, this, List.count_cons, Hs.drop]
  omega

end DD
