import Verif.Common.AMap

/-!
# The node arena shared by the five engines

`BddManager`, `ZddManager`, `MddManager`, `MtMddManager`, `ZmddManager` all keep the same data:
a vector of headers, a vector of nodes, a unique table (two for the multi-terminal engines), and a
free list of slots reclaimed by `gc`.  This file models that common part; engine files cite the
lines of each engine.

* /repo/bddcore/src/bdd.rs:43-64, 66-93, 136-150, 208-210, 225-244
* /repo/bddcore/src/zdd.rs:28-41, 46-70, 111-125, 168-170, 185-204
* /repo/mddcore/src/mdd.rs:32-50, 55-79, 122-135, 179-204
* /repo/mddcore/src/mtmdd.rs:62-73, 92-104, 135-155, 196-230
* /repo/mddcore/src/zmdd.rs:19-27, 37-58, 86-106, 138-174

Simplifications: the node's own `id` field is its index (asserted by the code's `debug_assert`);
unique table and value table are one map keyed by node content (keys are disjoint);
`as u32` is the identity; the free list is a list whose head is the top of the Rust stack.
-/

set_option autoImplicit false

namespace DD

/-- /repo/common/src/nodes.rs:35-41 `NodeHeader` (its `id` is its index). -/
structure Header where
  level : Nat
  label : String
  edgeNum : Nat
deriving DecidableEq, Repr

/-- A node: a terminal carrying `t`, or a non-terminal with header id and children
(/repo/bddcore/src/nodes.rs, /repo/mddcore/src/nodes.rs, `enum Node`). -/
inductive Node (T : Type) where
  | term (t : T)
  | nt (h : Nat) (ch : List Nat)
deriving DecidableEq, Repr

/-- The engine state without caches. -/
structure Arena (T : Type) where
  headers : List Header
  nodes : List (Node T)
  utable : AMap (Node T) Nat
  free : List Nat
deriving Repr

/-- Slots of the terminals allocated by the constructor: `Zero = 0, One = 1, Undet = 2`
for BDD/ZDD/MDD, `Undet = 0` for MTMDD/ZMDD. Other terminals are hash-consed. -/
class Fixed (T : Type) where
  fix : T → Option Nat
  /-- the slots in use for constructor terminals, in the order `gc` marks them -/
  slots : List Nat
  slots_iff : ∀ i, i ∈ slots ↔ ∃ t, fix t = some i

export Fixed (fix slots slots_iff)

namespace Arena

variable {T : Type} [DecidableEq T] [Fixed T]

/-! ## Model -/

/-- `DDForest::get_node`, e.g. /repo/bddcore/src/bdd.rs:71-73. -/
def node? (m : Arena T) (i : Nat) : Option (Node T) := m.nodes[i]?

/-- `DDForest::level`, e.g. /repo/bddcore/src/bdd.rs:80-85. -/
def level? (m : Arena T) (i : Nat) : Option Nat :=
  match m.nodes[i]? with
  | some (.nt h _) => (m.headers[h]?).map (·.level)
  | _ => none

/-- `DDForest::label`, e.g. /repo/bddcore/src/bdd.rs:87-92. -/
def label? (m : Arena T) (i : Nat) : Option String :=
  match m.nodes[i]? with
  | some (.nt h _) => (m.headers[h]?).map (·.label)
  | _ => none

/-- `create_header`, e.g. /repo/bddcore/src/bdd.rs:225-231, /repo/mddcore/src/mtmdd.rs:200-206. -/
def createHeader (m : Arena T) (level : Nat) (label : String) (edgeNum : Nat) : Nat × Arena T :=
  (m.headers.length, { m with headers := m.headers ++ [⟨level, label, edgeNum⟩] })

/-- Slot allocation: recycle a free slot or push, e.g. /repo/bddcore/src/bdd.rs:136-150,
/repo/mddcore/src/mtmdd.rs:135-147.  `none` = index panic. -/
def alloc (m : Arena T) (n : Node T) : Option (Nat × Arena T) :=
  match m.free with
  | s :: fs =>
    if s < m.nodes.length then some (s, { m with nodes := m.nodes.set s n, free := fs }) else none
  | [] => some (m.nodes.length, { m with nodes := m.nodes ++ [n] })

/-- Table lookup, else allocate and insert: the part of `create_node`/`value` after the reduction
test, e.g. /repo/bddcore/src/bdd.rs:237-243, /repo/mddcore/src/mtmdd.rs:208-215, 223-229. -/
def mkNode (m : Arena T) (k : Node T) : Option (Nat × Arena T) :=
  match m.utable.get k with
  | some i => some (i, m)
  | none =>
    match m.alloc k with
    | none => none
    | some (i, m') => some (i, { m' with utable := m'.utable.insert k i })

/-- `create_node` with the "all children equal" reduction:
/repo/bddcore/src/bdd.rs:233-244 (two children), /repo/mddcore/src/mdd.rs:191-204,
/repo/mddcore/src/mtmdd.rs:217-230. -/
def createFull (m : Arena T) (h : Nat) (ch : List Nat) : Option (Nat × Arena T) :=
  match ch with
  | [] => m.mkNode (.nt h [])
  | c :: cs =>
    if (c :: cs).all (fun x => decide (c = x)) then some (c, m) else m.mkNode (.nt h (c :: cs))

/-- `live_node_count`, e.g. /repo/bddcore/src/bdd.rs:208-210. -/
def liveNodeCount (m : Arena T) : Nat := m.nodes.length - m.free.length

/-! ## Invariant -/

/-- A slot in use: in range and not on the free list. -/
def Live (m : Arena T) (i : Nat) : Prop := i < m.nodes.length ∧ i ∉ m.free

instance (m : Arena T) (i : Nat) : Decidable (m.Live i) := by unfold Live; infer_instance

/-- Height of a node: `0` for terminals, level + 1 for non-terminals. -/
def rank (m : Arena T) (i : Nat) : Nat :=
  match m.level? i with
  | some l => l + 1
  | none => 0

/-- Where the engine would find a node with content `k`. -/
def find (m : Arena T) (k : Node T) : Option Nat :=
  match k with
  | .term t => (fix t).or (m.utable.get k)
  | .nt _ _ => m.utable.get k

/-- Arena invariant; `R` is the engine's reduction rule on child lists. -/
structure WF (R : List Nat → Prop) (m : Arena T) : Prop where
  free_lt : ∀ i ∈ m.free, i < m.nodes.length
  free_nodup : m.free.Nodup
  ut_nodup : m.utable.NodupKeys
  ut_fixed : ∀ t i, fix t = some i → m.utable.get (.term t) = none
  find_iff : ∀ k i, m.find k = some i ↔ m.Live i ∧ m.nodes[i]? = some k
  hdr : ∀ i h ch, m.Live i → m.nodes[i]? = some (.nt h ch) →
    ∃ hd, m.headers[h]? = some hd ∧ ch.length = hd.edgeNum
  kid : ∀ i h ch, m.Live i → m.nodes[i]? = some (.nt h ch) →
    ∀ c ∈ ch, m.Live c ∧ m.rank c < m.rank i
  red : ∀ i h ch, m.Live i → m.nodes[i]? = some (.nt h ch) → R ch
  arity : ∀ hd ∈ m.headers, ∀ hd' ∈ m.headers, hd.level = hd'.level → hd.edgeNum = hd'.edgeNum
  pos : ∀ hd ∈ m.headers, 0 < hd.edgeNum

/-- `m'` contains all live nodes of `m`, unchanged. -/
structure Ext (m m' : Arena T) : Prop where
  hdr : ∀ (h : Nat) (hd : Header), m.headers[h]? = some hd → m'.headers[h]? = some hd
  keep : ∀ i : Nat, m.Live i → m'.Live i ∧ m'.nodes[i]? = m.nodes[i]?
  len : m.nodes.length ≤ m'.nodes.length

/-- `Ext` with the same headers. -/
structure Step (m m' : Arena T) : Prop extends Ext m m' where
  heq : m'.headers = m.headers

/-- Children acceptable for a node with header `h`. -/
def GoodKids (m : Arena T) (h : Nat) (ch : List Nat) : Prop :=
  ∃ hd, m.headers[h]? = some hd ∧ ch.length = hd.edgeNum ∧
    ∀ c ∈ ch, m.Live c ∧ m.rank c ≤ hd.level

/-! ## Lemmas -/

omit [DecidableEq T] [Fixed T] in
theorem Ext.refl (m : Arena T) : Ext m m := ⟨fun _ _ h => h, fun _ h => ⟨h, rfl⟩, Nat.le_refl _⟩

omit [DecidableEq T] [Fixed T] in
theorem Ext.trans {m m' m'' : Arena T} (h : Ext m m') (h' : Ext m' m'') : Ext m m'' where
  hdr i hd hi := h'.hdr i hd (h.hdr i hd hi)
  keep i hi := by
    obtain ⟨h1, h2⟩ := h.keep i hi
    obtain ⟨h3, h4⟩ := h'.keep i h1
    exact ⟨h3, h4.trans h2⟩
  len := Nat.le_trans h.len h'.len

omit [DecidableEq T] [Fixed T] in
theorem Step.refl (m : Arena T) : Step m m := ⟨Ext.refl m, rfl⟩

omit [DecidableEq T] [Fixed T] in
theorem Step.trans {m m' m'' : Arena T} (h : Step m m') (h' : Step m' m'') : Step m m'' :=
  ⟨h.toExt.trans h'.toExt, h'.heq.trans h.heq⟩

omit [DecidableEq T] [Fixed T] in
theorem level?_nt {m : Arena T} {i h : Nat} {ch : List Nat} {hd : Header}
    (hn : m.nodes[i]? = some (.nt h ch)) (hh : m.headers[h]? = some hd) :
    m.level? i = some hd.level := by
  simp [level?, hn, hh]

omit [DecidableEq T] [Fixed T] in
theorem level?_term {m : Arena T} {i : Nat} {t : T}
    (hn : m.nodes[i]? = some (.term t)) : m.level? i = none := by
  simp [level?, hn]

omit [DecidableEq T] [Fixed T] in
theorem rank_nt {m : Arena T} {i h : Nat} {ch : List Nat} {hd : Header}
    (hn : m.nodes[i]? = some (.nt h ch)) (hh : m.headers[h]? = some hd) :
    m.rank i = hd.level + 1 := by
  simp [rank, level?_nt hn hh]

omit [DecidableEq T] [Fixed T] in
theorem rank_term {m : Arena T} {i : Nat} {t : T}
    (hn : m.nodes[i]? = some (.term t)) : m.rank i = 0 := by
  simp [rank, level?_term hn]

omit [DecidableEq T] [Fixed T] in
theorem Live.node {m : Arena T} {i : Nat} (h : m.Live i) : ∃ n, m.nodes[i]? = some n :=
  ⟨_, List.getElem?_eq_getElem h.1⟩

namespace WF

variable {R : List Nat → Prop} {m : Arena T}

theorem uniq (wf : WF R m) {i j : Nat} {k : Node T} (hi : m.Live i) (hj : m.Live j)
    (h1 : m.nodes[i]? = some k) (h2 : m.nodes[j]? = some k) : i = j := by
  have a := (wf.find_iff k i).2 ⟨hi, h1⟩
  have b := (wf.find_iff k j).2 ⟨hj, h2⟩
  rw [a] at b
  exact Option.some.inj b

theorem fixed_live (wf : WF R m) {t : T} {i : Nat} (h : fix t = some i) :
    m.Live i ∧ m.nodes[i]? = some (.term t) := by
  apply (wf.find_iff _ _).1
  simp [find, h]

theorem ut_live (wf : WF R m) {k : Node T} {i : Nat} (h : m.utable.get k = some i) :
    m.Live i ∧ m.nodes[i]? = some k := by
  apply (wf.find_iff _ _).1
  cases k with
  | nt _ _ => exact h
  | term t =>
    cases hf : fix t with
    | none => simp [find, hf, h]
    | some j => rw [wf.ut_fixed t j hf] at h; cases h

/-- A live non-terminal, with everything known about it. -/
theorem nt (wf : WF R m) {i h : Nat} {ch : List Nat} (hi : m.Live i)
    (hn : m.nodes[i]? = some (.nt h ch)) :
    ∃ hd, m.headers[h]? = some hd ∧ ch.length = hd.edgeNum ∧ m.rank i = hd.level + 1 ∧
      m.level? i = some hd.level ∧ 0 < hd.edgeNum ∧
      ∀ c ∈ ch, m.Live c ∧ m.rank c ≤ hd.level := by
  obtain ⟨hd, hh, hl⟩ := wf.hdr i h ch hi hn
  have hr := rank_nt hn hh
  refine ⟨hd, hh, hl, hr, level?_nt hn hh, wf.pos hd (List.mem_of_getElem? hh), ?_⟩
  intro c hc
  obtain ⟨h1, h2⟩ := wf.kid i h ch hi hn c hc
  exact ⟨h1, by omega⟩

theorem rank_ext (wf : WF R m) {m' : Arena T} (e : Ext m m') {i : Nat} (hi : m.Live i) :
    m'.rank i = m.rank i := by
  obtain ⟨_, hn'⟩ := e.keep i hi
  obtain ⟨n, hn⟩ := hi.node
  rw [hn] at hn'
  cases n with
  | term t => rw [rank_term hn, rank_term hn']
  | nt h ch =>
    obtain ⟨hd, hh, -⟩ := wf.nt hi hn
    rw [rank_nt hn hh, rank_nt hn' (e.hdr _ _ hh)]

theorem level_ext (wf : WF R m) {m' : Arena T} (e : Ext m m') {i : Nat} (hi : m.Live i) :
    m'.level? i = m.level? i := by
  obtain ⟨_, hn'⟩ := e.keep i hi
  obtain ⟨n, hn⟩ := hi.node
  rw [hn] at hn'
  cases n with
  | term t => rw [level?_term hn, level?_term hn']
  | nt h ch =>
    obtain ⟨hd, hh, -⟩ := wf.nt hi hn
    rw [level?_nt hn hh, level?_nt hn' (e.hdr _ _ hh)]

theorem goodKids_ext (wf : WF R m) {m' : Arena T} (e : Ext m m') {h : Nat} {ch : List Nat}
    (g : GoodKids m h ch) : GoodKids m' h ch := by
  obtain ⟨hd, hh, hl, hc⟩ := g
  refine ⟨hd, e.hdr _ _ hh, hl, fun c hcm => ?_⟩
  obtain ⟨h1, h2⟩ := hc c hcm
  exact ⟨(e.keep c h1).1, by rw [wf.rank_ext e h1]; exact h2⟩

end WF

omit [DecidableEq T] [Fixed T] in
/-- What allocation does: the slot handed out was not live, everything else is untouched. -/
theorem alloc_spec {m : Arena T} (hlt : ∀ i ∈ m.free, i < m.nodes.length) (hnd : m.free.Nodup)
    (n : Node T) :
    ∃ i m', m.alloc n = some (i, m') ∧ ¬ m.Live i ∧ m'.Live i ∧ m'.nodes[i]? = some n ∧
      m'.headers = m.headers ∧ m'.utable = m.utable ∧
      (∀ j ∈ m'.free, j < m'.nodes.length) ∧ m'.free.Nodup ∧
      (∀ j, j ≠ i → (m'.Live j ↔ m.Live j) ∧ (m.Live j → m'.nodes[j]? = m.nodes[j]?)) := by
  unfold alloc
  cases hf : m.free with
  | nil =>
    refine ⟨_, _, rfl, ?_, ?_, ?_, rfl, rfl, ?_, ?_, ?_⟩
    · simp [Live]
    · simp [Live, hf]
    · simp
    · simp [hf]
    · simp [hf]
    · intro j hj
      constructor
      · simp only [Live, hf, List.length_append, List.length_singleton, List.not_mem_nil,
          not_false_eq_true, and_true]
        omega
      · intro hl
        exact List.getElem?_append_left hl.1
  | cons s fs =>
    have hs : s < m.nodes.length := hlt s (by rw [hf]; exact List.mem_cons_self)
    rw [hf] at hnd
    have hnd' := List.nodup_cons.1 hnd
    simp only [hs, if_true]
    refine ⟨_, _, rfl, ?_, ?_, ?_, rfl, rfl, ?_, hnd'.2, ?_⟩
    · simp [Live, hf]
    · simp only [Live, List.length_set]
      exact ⟨hs, hnd'.1⟩
    · simp [hs]
    · intro j hj
      rw [List.length_set]
      exact hlt j (by rw [hf]; exact List.mem_cons_of_mem _ hj)
    · intro j hj
      constructor
      · simp only [Live, List.length_set, hf, List.mem_cons, not_or]
        constructor
        · rintro ⟨h1, h2⟩; exact ⟨h1, hj, h2⟩
        · rintro ⟨h1, _, h2⟩; exact ⟨h1, h2⟩
      · intro _
        rw [List.getElem?_set_ne (Ne.symm hj)]

omit [DecidableEq T] [Fixed T] in
theorem alloc_len {m m' : Arena T} {n : Node T} {i : Nat} (h : m.alloc n = some (i, m')) :
    m.nodes.length ≤ m'.nodes.length := by
  unfold alloc at h
  split at h
  · split at h
    · cases h; simp
    · cases h
  · cases h; simp

/-- Content that may be stored: a value terminal without fixed slot, or a reduced non-terminal
with good children. -/
def Storable (R : List Nat → Prop) (m : Arena T) : Node T → Prop
  | .term t => fix t = none
  | .nt h ch => GoodKids m h ch ∧ R ch

theorem mkNode_spec {R : List Nat → Prop} {m : Arena T} (wf : WF R m) {k : Node T}
    (hk : Storable R m k) :
    ∃ i m', m.mkNode k = some (i, m') ∧ WF R m' ∧ Step m m' ∧ m'.Live i ∧
      m'.nodes[i]? = some k ∧ (m.Live i → m' = m) := by
  unfold mkNode
  cases hg : m.utable.get k with
  | some i =>
    obtain ⟨h1, h2⟩ := wf.ut_live hg
    exact ⟨i, m, rfl, wf, Step.refl m, h1, h2, fun _ => rfl⟩
  | none =>
    obtain ⟨i, m1, ha, hnl, hl1, hn1, hh1, hu1, hlt1, hnd1, hother⟩ :=
      alloc_spec wf.free_lt wf.free_nodup k
    simp only [ha]
    -- nobody live has this content yet
    have hfree : ∀ j, m.Live j → m.nodes[j]? ≠ some k := by
      intro j hj hjk
      have := (wf.find_iff k j).2 ⟨hj, hjk⟩
      cases k with
      | nt _ _ => rw [find, hg] at this; cases this
      | term t =>
        have hk' : fix t = none := hk
        rw [find, hk', hg] at this; cases this
    generalize hm' : ({ m1 with utable := m1.utable.insert k i } : Arena T) = m'
    have hnodes : m'.nodes = m1.nodes := by rw [← hm']
    have hheaders : m'.headers = m.headers := by rw [← hm']; exact hh1
    have hfr : m'.free = m1.free := by rw [← hm']
    have hut : m'.utable = m.utable.insert k i := by rw [← hm']; simp [hu1]
    have hlive : ∀ j, m'.Live j ↔ m1.Live j := by intro j; simp [Live, hnodes, hfr]
    have hL : ∀ j, m.Live j → j ≠ i := fun j hj he => hnl (he ▸ hj)
    have hkeep : ∀ j, m.Live j → m'.Live j ∧ m'.nodes[j]? = m.nodes[j]? := by
      intro j hj
      obtain ⟨h1, h2⟩ := hother j (hL j hj)
      exact ⟨(hlive j).2 (h1.2 hj), by rw [hnodes]; exact h2 hj⟩
    have hback : ∀ j, m'.Live j → j ≠ i → m.Live j := by
      intro j hj hne
      exact (hother j hne).1.1 ((hlive j).1 hj)
    have hext : Ext m m' := ⟨fun h hd hh => by rw [hheaders]; exact hh, hkeep, by rw [hnodes]; exact alloc_len ha⟩
    have hnode_i : m'.nodes[i]? = some k := by rw [hnodes]; exact hn1
    have hlive_i : m'.Live i := (hlive i).2 hl1
    have wf' : WF R m' := by
      refine
        { free_lt := by rw [hfr, hnodes]; exact hlt1
          free_nodup := by rw [hfr]; exact hnd1
          ut_nodup := by rw [hut]; exact AMap.nodup_insert wf.ut_nodup k i
          ut_fixed := ?_
          find_iff := ?_
          hdr := ?_
          kid := ?_
          red := ?_
          arity := by rw [hheaders]; exact wf.arity
          pos := by rw [hheaders]; exact wf.pos }
      · intro t j ht
        rw [hut, AMap.get_insert]
        split
        · rename_i he
          rw [he] at hk
          have hk' : fix t = none := hk
          rw [ht] at hk'; cases hk'
        · exact wf.ut_fixed t j ht
      · intro k' j
        by_cases hkk : k = k'
        · subst hkk
          have hfk : m'.find k = some i := by
            cases k with
            | nt _ _ => simp [find, hut]
            | term t =>
              have hk' : fix t = none := hk
              simp [find, hk', hut]
          rw [hfk]
          constructor
          · intro h
            cases h
            exact ⟨hlive_i, hnode_i⟩
          · rintro ⟨h1, h2⟩
            by_cases hji : j = i
            · rw [hji]
            · exfalso
              have hjl := hback j h1 hji
              have := (hkeep j hjl).2
              rw [h2] at this
              exact hfree j hjl this.symm
        · have hfk : m'.find k' = m.find k' := by
            cases k' with
            | nt _ _ => simp only [find, hut]; rw [AMap.get_insert_ne _ _ hkk]
            | term t => simp only [find, hut]; rw [AMap.get_insert_ne _ _ hkk]
          rw [hfk, wf.find_iff]
          constructor
          · rintro ⟨h1, h2⟩
            obtain ⟨h3, h4⟩ := hkeep j h1
            exact ⟨h3, h4.trans h2⟩
          · rintro ⟨h1, h2⟩
            have hji : j ≠ i := by
              intro he
              rw [he, hnode_i] at h2
              exact hkk (Option.some.inj h2)
            have hjl := hback j h1 hji
            exact ⟨hjl, by rw [← (hkeep j hjl).2]; exact h2⟩
      · intro j h ch hj hn
        by_cases hji : j = i
        · rw [hji, hnode_i] at hn
          have hkn := Option.some.inj hn
          rw [hkn] at hk
          obtain ⟨⟨hd, h1, h2, _⟩, _⟩ := hk
          exact ⟨hd, by rw [hheaders]; exact h1, h2⟩
        · have hjl := hback j hj hji
          rw [(hkeep j hjl).2] at hn
          rw [hheaders]
          exact wf.hdr j h ch hjl hn
      · intro j h ch hj hn c hc
        by_cases hji : j = i
        · rw [hji, hnode_i] at hn
          have hkn := Option.some.inj hn
          rw [hkn] at hk hnode_i
          obtain ⟨⟨hd, h1, h2, h3⟩, _⟩ := hk
          obtain ⟨hcl, hcr⟩ := h3 c hc
          refine ⟨(hkeep c hcl).1, ?_⟩
          rw [wf.rank_ext hext hcl, hji, rank_nt hnode_i (by rw [hheaders]; exact h1)]
          omega
        · have hjl := hback j hj hji
          rw [(hkeep j hjl).2] at hn
          obtain ⟨h1, h2⟩ := wf.kid j h ch hjl hn c hc
          refine ⟨(hkeep c h1).1, ?_⟩
          rw [wf.rank_ext hext h1, wf.rank_ext hext hjl]
          exact h2
      · intro j h ch hj hn
        by_cases hji : j = i
        · rw [hji, hnode_i] at hn
          have hkn := Option.some.inj hn
          rw [hkn] at hk
          exact hk.2
        · have hjl := hback j hj hji
          rw [(hkeep j hjl).2] at hn
          exact wf.red j h ch hjl hn
    exact ⟨i, m', by rw [← hm'], wf', ⟨hext, hheaders⟩, hlive_i, hnode_i,
      fun h => absurd h hnl⟩

/-- Adding a header keeps the invariant if its arity fits its level. -/
theorem createHeader_spec {R : List Nat → Prop} {m : Arena T} (wf : WF R m) (l : Nat)
    (lab : String) (e : Nat) (he : 0 < e)
    (har : ∀ hd ∈ m.headers, hd.level = l → hd.edgeNum = e) :
    let r := m.createHeader l lab e
    WF R r.2 ∧ Ext m r.2 ∧ r.2.headers[r.1]? = some ⟨l, lab, e⟩ ∧
      (∀ i, r.2.Live i ↔ m.Live i) ∧ r.2.nodes = m.nodes := by
  simp only [createHeader]
  generalize hm' : ({ m with headers := m.headers ++ [⟨l, lab, e⟩] } : Arena T) = m'
  have hh : m'.headers = m.headers ++ [⟨l, lab, e⟩] := by rw [← hm']
  have hn : m'.nodes = m.nodes := by rw [← hm']
  have hf : m'.free = m.free := by rw [← hm']
  have hu : m'.utable = m.utable := by rw [← hm']
  have hlive : ∀ i, m'.Live i ↔ m.Live i := by intro i; simp [Live, hn, hf]
  have hext : Ext m m' := by
    refine ⟨fun h hd hd' => ?_, fun i hi => ⟨(hlive i).2 hi, by rw [hn]⟩, Nat.le_of_eq (by rw [hn])⟩
    rw [hh]
    have : h < m.headers.length := (List.getElem?_eq_some_iff.1 hd').1
    rw [List.getElem?_append_left this]
    exact hd'
  refine ⟨?_, hext, by simp, hlive, trivial⟩
  exact
    { free_lt := by rw [hf, hn]; exact wf.free_lt
      free_nodup := by rw [hf]; exact wf.free_nodup
      ut_nodup := by rw [hu]; exact wf.ut_nodup
      ut_fixed := by rw [hu]; exact wf.ut_fixed
      find_iff := by
        intro k i
        have : m'.find k = m.find k := by cases k <;> simp [find, hu]
        rw [this, wf.find_iff, hlive, hn]
      hdr := by
        intro i h ch hi hnn
        rw [hn] at hnn
        obtain ⟨hd, h1, h2⟩ := wf.hdr i h ch ((hlive i).1 hi) hnn
        exact ⟨hd, hext.hdr _ _ h1, h2⟩
      kid := by
        intro i h ch hi hnn c hc
        rw [hn] at hnn
        obtain ⟨h1, h2⟩ := wf.kid i h ch ((hlive i).1 hi) hnn c hc
        refine ⟨(hlive c).2 h1, ?_⟩
        rw [wf.rank_ext hext h1, wf.rank_ext hext ((hlive i).1 hi)]
        exact h2
      red := by
        intro i h ch hi hnn
        rw [hn] at hnn
        exact wf.red i h ch ((hlive i).1 hi) hnn
      arity := by
        rw [hh]
        intro hd hd1 hd' hd2 hlev
        rw [List.mem_append, List.mem_singleton] at hd1 hd2
        rcases hd1 with h1 | rfl <;> rcases hd2 with h2 | rfl
        · exact wf.arity _ h1 _ h2 hlev
        · exact har _ h1 hlev
        · exact (har _ h2 hlev.symm).symm
        · rfl
      pos := by
        rw [hh]
        intro hd hd1
        rw [List.mem_append, List.mem_singleton] at hd1
        rcases hd1 with h1 | rfl
        · exact wf.pos _ h1
        · exact he }

end Arena
end DD
