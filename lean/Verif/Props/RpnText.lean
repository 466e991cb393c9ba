import Verif.Props.BddRpn
import Verif.Props.MssSession
import Verif.Mss.Text

/-!
# C58: how an expression text is read

The specification: a text is split into its words; a word that is a keyword, `save(…)`, `load(…)` or (MDD only) a decimal
`i32` is that token, any other word is a variable.  Both directions are proved, so a text has exactly the reading described.
-/

set_option autoImplicit false
set_option linter.unusedSectionVars false
set_option linter.unusedVariables false

namespace DD.Props

/-! ## Words -/

/-- The white space characters of Unicode. -/
def Space (c : Char) : Prop :=
  c.toNat ∈ [0x09, 0x0A, 0x0B, 0x0C, 0x0D, 0x20, 0x85, 0xA0, 0x1680, 0x2000, 0x2001, 0x2002, 0x2003, 0x2004, 0x2005, 0x2006,
    0x2007, 0x2008, 0x2009, 0x200A, 0x2028, 0x2029, 0x202F, 0x205F, 0x3000]

/-- `Words s ws`: the text `s` is the words `ws`, with white space around and at least one between two. -/
inductive Words : List Char → List (List Char) → Prop
  | none (gap : List Char) (hg : ∀ c ∈ gap, Space c) : Words gap []
  | last (gap word gap' : List Char) (hg : ∀ c ∈ gap, Space c) (hw : word ≠ []) (hn : ∀ c ∈ word, ¬ Space c)
      (hg' : ∀ c ∈ gap', Space c) : Words (gap ++ word ++ gap') [word]
  | more (gap word : List Char) (b : Char) (rest : List Char) (ws : List (List Char)) (hg : ∀ c ∈ gap, Space c)
      (hw : word ≠ []) (hn : ∀ c ∈ word, ¬ Space c) (hb : Space b) (hr : Words rest ws) :
      Words (gap ++ word ++ b :: rest) (word :: ws)

theorem isWs_iff (c : Char) : isWs c = true ↔ Space c := by
  unfold isWs Space
  simp only [Bool.or_eq_true, Bool.and_eq_true, decide_eq_true_eq, beq_iff_eq, List.mem_cons, List.not_mem_nil, or_false]
  omega

theorem isWs_false (c : Char) : isWs c = false ↔ ¬ Space c := by
  rw [← isWs_iff]; simp

theorem splitWs_gap : ∀ (gap rest : List Char), (∀ c ∈ gap, Space c) → splitWs (gap ++ rest) [] = splitWs rest [] := by
  intro gap
  induction gap with
  | nil => intro rest _; rfl
  | cons c l ih =>
    intro rest h
    have hc : isWs c = true := (isWs_iff c).2 (h c List.mem_cons_self)
    simp only [List.cons_append, splitWs, hc, if_true]
    exact ih rest fun d hd => h d (List.mem_cons_of_mem _ hd)

theorem splitWs_of_words {s : List Char} {ws : List (List Char)} (h : Words s ws) : splitWs s [] = ws := by
  induction h with
  | none gap hg => simpa [splitWs] using splitWs_gap gap [] hg
  | last gap word gap' hg hw hn hg' =>
    rw [List.append_assoc, splitWs_gap _ _ hg, splitWs_run _ _ _ (fun c hc => (isWs_false c).2 (hn c hc))]
    rw [List.append_nil]
    cases gap' with
    | nil => simp [splitWs, hw]
    | cons b g =>
      have hb : isWs b = true := (isWs_iff b).2 (hg' b List.mem_cons_self)
      have hgg := splitWs_gap g [] fun d hd => hg' d (List.mem_cons_of_mem _ hd)
      rw [List.append_nil] at hgg
      simp [splitWs, hb, hw, hgg]
  | more gap word b rest ws hg hw hn hb hr ih =>
    rw [List.append_assoc, splitWs_gap _ _ hg, splitWs_run _ _ _ (fun c hc => (isWs_false c).2 (hn c hc))]
    have hb : isWs b = true := (isWs_iff b).2 hb
    simp [splitWs, hb, hw, ih]

theorem words_pre {s : List Char} {ws : List (List Char)} (h : Words s ws) {c : Char} (hc : Space c) : Words (c :: s) ws := by
  have hg' : ∀ gap : List Char, (∀ d ∈ gap, Space d) → ∀ d ∈ c :: gap, Space d := by
    intro gap hg d hd
    rcases List.mem_cons.1 hd with rfl | hd
    · exact hc
    · exact hg d hd
  cases h with
  | none gap hg => exact .none (c :: s) (hg' _ hg)
  | last gap word gap' hg hw hn h => exact .last (c :: gap) word gap' (hg' _ hg) hw hn h
  | more gap word b rest ws hg hw hn hb hr => exact .more (c :: gap) word b rest ws (hg' _ hg) hw hn hb hr

/-- Each text has words. -/
theorem words_exist (s : List Char) : ∃ ws, Words s ws := by
  induction s with
  | nil => exact ⟨[], .none [] (by simp)⟩
  | cons c s ih =>
    obtain ⟨ws, h⟩ := ih
    by_cases hc : Space c
    · exact ⟨ws, words_pre h hc⟩
    · have one : ∀ d ∈ [c], ¬ Space d := by
        intro d hd; rw [List.mem_singleton.1 hd]; exact hc
      have nn : ∀ word : List Char, (∀ d ∈ word, ¬ Space d) → ∀ d ∈ c :: word, ¬ Space d := by
        intro word hg d hd
        rcases List.mem_cons.1 hd with rfl | hd
        · exact hc
        · exact hg d hd
      cases h with
      | none gap hg => exact ⟨_, .last [] [c] s (by simp) (by simp) one hg⟩
      | last gap word gap' hg hw hn h =>
        cases gap with
        | nil => exact ⟨_, .last [] (c :: word) gap' (by simp) (by simp) (nn _ hn) h⟩
        | cons b gap =>
          exact ⟨_, .more [] [c] b (gap ++ word ++ gap') _ (by simp) (by simp) one (hg b List.mem_cons_self)
            (.last gap word gap' (fun d hd => hg d (List.mem_cons_of_mem _ hd)) hw hn h)⟩
      | more gap word b rest ws hg hw hn hb hr =>
        cases gap with
        | nil => exact ⟨_, .more [] (c :: word) b rest ws (by simp) (by simp) (nn _ hn) hb hr⟩
        | cons b' gap =>
          exact ⟨_, .more [] [c] b' (gap ++ word ++ b :: rest) _ (by simp) (by simp) one (hg b' List.mem_cons_self)
            (.more gap word b rest ws (fun d hd => hg d (List.mem_cons_of_mem _ hd)) hw hn hb hr)⟩

theorem words_iff {s : List Char} {ws : List (List Char)} : splitWs s [] = ws ↔ Words s ws := by
  refine ⟨?_, splitWs_of_words⟩
  rintro rfl
  obtain ⟨ws, h⟩ := words_exist s
  rw [splitWs_of_words h]
  exact h

/-! ## BDD tokens -/

/-- The words with a meaning of their own in a BDD expression. -/
inductive Keyword : String → Tok → Prop
  | zero : Keyword "0" (.const false)
  | fls : Keyword "False" (.const false)
  | one : Keyword "1" (.const true)
  | tru : Keyword "True" (.const true)
  | and : Keyword "&" .and
  | or : Keyword "|" .or
  | xor : Keyword "^" .xor
  | not : Keyword "~" .not
  | ite : Keyword "?" .ite
  | save (id : String) : Keyword ("save(" ++ id ++ ")") (.save id)
  | load (id : String) : Keyword ("load(" ++ id ++ ")") (.load id)

/-- What a word of a BDD expression is. -/
def WordIs (t : String) (k : Tok) : Prop := Keyword t k ∨ (¬ ∃ k', Keyword t k') ∧ k = .var t

theorem call_iff {p : String} (hp : p.toList.length = 5) (hl : p.toList.getLast? ≠ some ')') (t : String) :
    (p.toList.isPrefixOf t.toList ∧ t.toList.getLast? = some ')') ↔ ∃ id : String, t = p ++ id ++ ")" := by
  constructor
  · rintro ⟨g1, g2⟩
    rw [List.isPrefixOf_iff_prefix] at g1
    obtain ⟨r, hr⟩ := g1
    rcases List.eq_nil_or_concat r with rfl | ⟨id, x, rfl⟩
    · rw [← hr, List.append_nil] at g2; exact absurd g2 hl
    · refine ⟨String.ofList id, ?_⟩
      apply String.toList_inj.1
      rw [← hr] at g2 ⊢
      simp at g2
      simp [g2]
  · rintro ⟨id, rfl⟩
    simp only [String.toList_append]
    refine ⟨?_, by simp⟩
    rw [List.isPrefixOf_iff_prefix, List.append_assoc]
    exact List.prefix_append _ _

theorem call_arg {p : String} (hp : p.toList.length = 5) (id : String) :
    String.ofList (((p ++ id ++ ")").toList.drop 5).dropLast) = id := by
  apply String.toList_inj.1
  simp only [String.toList_ofList, String.toList_append, List.append_assoc]
  rw [List.drop_append_of_le_length (by omega), List.drop_of_length_le (by omega)]
  simp

theorem Keyword.parse {t : String} {k : Tok} (h : Keyword t k) : parseTok t = k := by
  cases h with
  | save id =>
    have hne : ∀ s : String, s.toList.length ≤ 5 → "save(" ++ id ++ ")" ≠ s := by
      intro s hs e
      rw [← e] at hs
      simp [String.toList_append] at hs
    unfold parseTok
    rw [if_neg (by rintro (e | e) <;> exact hne _ (by decide) e),
      if_neg (by rintro (e | e) <;> exact hne _ (by decide) e),
      if_neg (hne _ (by decide)), if_neg (hne _ (by decide)), if_neg (hne _ (by decide)),
      if_neg (hne _ (by decide)), if_neg (hne _ (by decide)),
      if_pos ((call_iff (by decide) (by decide) _).2 ⟨id, rfl⟩), call_arg (by decide)]
  | load id =>
    have hne : ∀ s : String, s.toList.length ≤ 5 → "load(" ++ id ++ ")" ≠ s := by
      intro s hs e
      rw [← e] at hs
      simp [String.toList_append] at hs
    unfold parseTok
    rw [if_neg (by rintro (e | e) <;> exact hne _ (by decide) e),
      if_neg (by rintro (e | e) <;> exact hne _ (by decide) e),
      if_neg (hne _ (by decide)), if_neg (hne _ (by decide)), if_neg (hne _ (by decide)),
      if_neg (hne _ (by decide)), if_neg (hne _ (by decide)), if_neg,
      if_pos ((call_iff (by decide) (by decide) _).2 ⟨id, rfl⟩), call_arg (by decide)]
    rw [call_iff (by decide) (by decide)]
    rintro ⟨id', e⟩
    have := congrArg (fun s => s.toList.head?) e
    simp at this
  | _ => decide

/-- **C58.** Each word of a BDD expression is read as the specification says, and only so. -/
theorem C58_bdd_word (t : String) (k : Tok) : parseTok t = k ↔ WordIs t k := by
  have var : (¬ ∃ k', Keyword t k') → parseTok t = .var t := by
    intro h
    have ne : ∀ s k', Keyword s k' → t ≠ s := by rintro s k' hk rfl; exact h ⟨k', hk⟩
    unfold parseTok
    rw [if_neg (by rintro (e | e); exacts [ne _ _ .zero e, ne _ _ .fls e]),
      if_neg (by rintro (e | e); exacts [ne _ _ .one e, ne _ _ .tru e]),
      if_neg (ne _ _ .and), if_neg (ne _ _ .or), if_neg (ne _ _ .xor), if_neg (ne _ _ .not), if_neg (ne _ _ .ite),
      if_neg, if_neg]
    · rw [call_iff (by decide) (by decide)]; rintro ⟨id, e⟩; exact ne _ _ (.load id) e
    · rw [call_iff (by decide) (by decide)]; rintro ⟨id, e⟩; exact ne _ _ (.save id) e
  constructor
  · rintro rfl
    by_cases h : ∃ k', Keyword t k'
    · obtain ⟨k', hk⟩ := h
      rw [hk.parse]; exact .inl hk
    · exact .inr ⟨h, var h⟩
  · rintro (h | ⟨h, rfl⟩)
    · exact h.parse
    · exact var h

/-- **C58.** The tokens of a BDD expression text. -/
theorem C58_bdd_text (s : String) (ts : List Tok) :
    lex s = ts ↔ ∃ ws, Words s.toList ws ∧ List.Forall₂ (fun w k => WordIs (String.ofList w) k) ws ts := by
  have map : ∀ (ws : List (List Char)) (ts : List Tok), ws.map (fun cs => parseTok (String.ofList cs)) = ts ↔
      List.Forall₂ (fun w k => WordIs (String.ofList w) k) ws ts := by
    intro ws
    induction ws with
    | nil => intro ts; constructor; (rintro rfl; exact .nil); (rintro ⟨⟩; rfl)
    | cons w ws ih =>
      intro ts
      constructor
      · rintro rfl
        exact .cons ((C58_bdd_word _ _).1 rfl) ((ih _).1 rfl)
      · rintro (_ | ⟨h1, h2⟩)
        rw [List.map_cons, (ih _).2 h2, (C58_bdd_word _ _).2 h1]
  unfold lex
  rw [map]
  constructor
  · intro h; exact ⟨_, words_iff.1 rfl, h⟩
  · rintro ⟨ws, h1, h2⟩; rw [words_iff.2 h1]; exact h2

/-! ## MDD tokens -/

/-- Decimal digits. -/
def digit (d : Fin 10) : Char := ['0', '1', '2', '3', '4', '5', '6', '7', '8', '9'][d]

/-- The number written by digits, by place value. -/
def placeValue : List (Fin 10) → Nat
  | [] => 0
  | d :: ds => d * 10 ^ ds.length + placeValue ds

/-- The word `t` is a decimal `i32` of value `v`: an optional sign and at least one digit. -/
def IsI32 (t : String) (v : Int) : Prop :=
  ∃ ds : List (Fin 10), ds ≠ [] ∧ -2 ^ 31 ≤ v ∧ v < 2 ^ 31 ∧
    ((t.toList = ds.map digit ∧ v = placeValue ds) ∨ (t.toList = '+' :: ds.map digit ∧ v = placeValue ds) ∨
      (t.toList = '-' :: ds.map digit ∧ v = -(placeValue ds : Int)))

/-- The words with a meaning of their own in an MDD expression. -/
inductive MKeyword : String → MTok → Prop
  | add : MKeyword "+" (.bin .add)
  | sub : MKeyword "-" (.bin .sub)
  | mul : MKeyword "*" (.bin .mul)
  | div : MKeyword "/" (.bin .div)
  | min : MKeyword "min" (.bin .min)
  | max : MKeyword "max" (.bin .max)
  | eq : MKeyword "==" (.bin .eq)
  | neq : MKeyword "!=" (.bin .neq)
  | lt : MKeyword "<" (.bin .lt)
  | lte : MKeyword "<=" (.bin .lte)
  | gt : MKeyword ">" (.bin .gt)
  | gte : MKeyword ">=" (.bin .gte)
  | and : MKeyword "&&" (.bin .and)
  | or : MKeyword "||" (.bin .or)
  | not : MKeyword "!" .not
  | ite : MKeyword "?" .ite
  | tru : MKeyword "True" (.const true)
  | fls : MKeyword "False" (.const false)
  | save (id : String) : MKeyword ("save(" ++ id ++ ")") (.save id)
  | load (id : String) : MKeyword ("load(" ++ id ++ ")") (.load id)
  | int {t : String} {v : Int} (h : IsI32 t v) : MKeyword t (.int v)

/-- What a word of an MDD expression is. -/
def MWordIs (t : String) (k : MTok) : Prop := MKeyword t k ∨ (¬ ∃ k', MKeyword t k') ∧ k = .var t

theorem digit_range (d : Fin 10) : '0' ≤ digit d ∧ digit d ≤ '9' ∧ (digit d).toNat - 48 = d := by
  revert d; decide

theorem digit_surj {c : Char} (h : '0' ≤ c ∧ c ≤ '9') : ∃ d, digit d = c := by
  have h1 : 48 ≤ c.toNat := h.1
  have h2 : c.toNat ≤ 57 := h.2
  refine ⟨⟨c.toNat - 48, by omega⟩, ?_⟩
  have hd := (digit_range ⟨c.toNat - 48, by omega⟩)
  have a1 : 48 ≤ (digit ⟨c.toNat - 48, by omega⟩).toNat := hd.1
  have a2 := hd.2.2
  apply Char.ext
  apply UInt32.toNat_inj.1
  show (digit ⟨c.toNat - 48, by omega⟩).toNat = c.toNat
  simp only at a2
  omega

theorem parseDigits_digits : ∀ (ds : List (Fin 10)) (acc : Nat),
    parseDigits acc (ds.map digit) = some (acc * 10 ^ ds.length + placeValue ds) := by
  intro ds
  induction ds with
  | nil => intro acc; simp [parseDigits, placeValue]
  | cons d ds ih =>
    intro acc
    obtain ⟨h1, h2, h3⟩ := digit_range d
    simp only [List.map_cons, parseDigits, if_pos (And.intro h1 h2), ih, h3, placeValue, List.length_cons, Nat.pow_succ]
    have : acc * 10 * 10 ^ ds.length = acc * (10 ^ ds.length * 10) := by rw [Nat.mul_assoc, Nat.mul_comm 10]
    rw [Nat.add_mul, this, Nat.add_assoc]

theorem parseDigits_some : ∀ (cs : List Char) (acc n : Nat), parseDigits acc cs = some n → ∃ ds : List (Fin 10), cs = ds.map digit := by
  intro cs
  induction cs with
  | nil => intro acc n _; exact ⟨[], rfl⟩
  | cons c cs ih =>
    intro acc n h
    simp only [parseDigits] at h
    split at h
    · rename_i hc
      obtain ⟨ds, rfl⟩ := ih _ _ h
      obtain ⟨d, rfl⟩ := digit_surj hc
      exact ⟨d :: ds, rfl⟩
    · cases h

theorem signedI32_iff (neg : Bool) (cs : List Char) (v : Int) : signedI32 neg cs = some v ↔
    ∃ ds : List (Fin 10), ds ≠ [] ∧ cs = ds.map digit ∧ -2 ^ 31 ≤ v ∧ v < 2 ^ 31 ∧
      v = (if neg then -(placeValue ds : Int) else placeValue ds) := by
  unfold signedI32
  constructor
  · intro h
    split at h
    · cases h
    · rename_i hne
      split at h
      · cases h
      · rename_i n hn
        obtain ⟨ds, rfl⟩ := parseDigits_some _ _ _ hn
        rw [parseDigits_digits] at hn
        cases hn
        refine ⟨ds, by rintro rfl; exact hne rfl, rfl, ?_⟩
        simp only [Nat.zero_mul, Nat.zero_add] at h
        cases neg
        · rw [if_neg (by decide)] at h
          split at h
          · cases h; exact ⟨by omega, by omega, rfl⟩
          · cases h
        · rw [if_pos rfl] at h
          split at h
          · cases h; exact ⟨by omega, by omega, rfl⟩
          · cases h
  · rintro ⟨ds, hne, rfl, h1, h2, rfl⟩
    rw [if_neg (by simpa using hne), parseDigits_digits]
    simp only [Nat.zero_mul, Nat.zero_add]
    cases neg
    · rw [if_neg (by decide)] at h2
      rw [if_neg (by decide), if_pos (by omega)]; rfl
    · rw [if_pos rfl] at h1
      rw [if_pos rfl, if_pos (by omega)]; rfl

theorem digit_ne_sign (ds : List (Fin 10)) (cs : List Char) : ds.map digit ≠ '+' :: cs ∧ ds.map digit ≠ '-' :: cs := by
  have : ∀ d : Fin 10, digit d ≠ '+' ∧ digit d ≠ '-' := by decide
  cases ds with
  | nil => simp
  | cons d ds => simp [(this d).1, (this d).2]

theorem parseI32_iff (t : String) (v : Int) : parseI32 t = some v ↔ IsI32 t v := by
  unfold parseI32 IsI32
  generalize t.toList = cs
  have nd := digit_ne_sign
  split
  · rename_i cs
    rw [signedI32_iff true]
    constructor
    · rintro ⟨ds, h1, rfl, h2, h3, rfl⟩; exact ⟨ds, h1, h2, h3, .inr (.inr ⟨rfl, rfl⟩)⟩
    · rintro ⟨ds, h1, h2, h3, (⟨e, _⟩ | ⟨e, _⟩ | ⟨e, e'⟩)⟩
      · exact absurd e.symm (nd ds cs).2
      · cases e
      · cases e; exact ⟨ds, h1, rfl, h2, h3, e'⟩
  · rename_i cs
    rw [signedI32_iff false]
    constructor
    · rintro ⟨ds, h1, rfl, h2, h3, rfl⟩; exact ⟨ds, h1, h2, h3, .inr (.inl ⟨rfl, rfl⟩)⟩
    · rintro ⟨ds, h1, h2, h3, (⟨e, _⟩ | ⟨e, e'⟩ | ⟨e, _⟩)⟩
      · exact absurd e.symm (nd ds cs).1
      · cases e; exact ⟨ds, h1, rfl, h2, h3, e'⟩
      · cases e
  · rename_i g1 g2
    rw [signedI32_iff false]
    constructor
    · rintro ⟨ds, h1, rfl, h2, h3, rfl⟩; exact ⟨ds, h1, h2, h3, .inl ⟨rfl, rfl⟩⟩
    · rintro ⟨ds, h1, h2, h3, (⟨e, e'⟩ | ⟨e, _⟩ | ⟨e, _⟩)⟩
      · exact ⟨ds, h1, e, h2, h3, e'⟩
      · exact absurd e (g2 _)
      · exact absurd e (g1 _)

/-- A number is none of the other keywords. -/
theorem IsI32.head {t : String} {v : Int} (h : IsI32 t v) :
    ∃ (c : Char) (cs : List Char) (d : Fin 10), t.toList = c :: cs ∧ (t.toList.getLast? = some (digit d)) ∧
      (c = '+' ∨ c = '-' ∨ ∃ d, c = digit d) := by
  obtain ⟨ds, hne, _, _, h⟩ := h
  have hl : ∃ d, (ds.map digit).getLast? = some (digit d) := by
    rw [List.getLast?_map, List.getLast?_eq_some_getLast hne]
    exact ⟨_, rfl⟩
  obtain ⟨d, hd⟩ := hl
  have hc : ∀ c : Char, (c :: ds.map digit).getLast? = some (digit d) := by
    intro c
    have : ds.map digit ≠ [] := by simpa using hne
    rw [List.getLast?_cons, hd]; rfl
  rcases h with ⟨e, _⟩ | ⟨e, _⟩ | ⟨e, _⟩
  · cases ds with
    | nil => exact absurd rfl hne
    | cons x ds => exact ⟨_, _, d, by rw [e]; rfl, by rw [e, hd], .inr (.inr ⟨x, rfl⟩)⟩
  · exact ⟨_, _, d, e, by rw [e, hc], .inl rfl⟩
  · exact ⟨_, _, d, e, by rw [e, hc], .inr (.inl rfl)⟩

theorem IsI32.last {t : String} {v : Int} (h : IsI32 t v) : ∃ d : Fin 10, t.toList.getLast? = some (digit d) := by
  obtain ⟨_, _, d, _, h, _⟩ := h.head
  exact ⟨d, h⟩

theorem IsI32.ne {t : String} {v : Int} (h : IsI32 t v) (s : String) (hs : ∀ d : Fin 10, s.toList.getLast? ≠ some (digit d)) :
    t ≠ s := by
  rintro rfl
  obtain ⟨d, hd⟩ := h.last
  exact hs d hd

theorem MKeyword.parse {t : String} {k : MTok} (h : MKeyword t k) : parseMTok t = k := by
  cases h with
  | save id =>
    have hne : ∀ s : String, s.toList.length ≤ 5 → "save(" ++ id ++ ")" ≠ s := by
      intro s hs e
      rw [← e] at hs
      simp [String.toList_append] at hs
    unfold parseMTok
    iterate 18 rw [if_neg (hne _ (by decide))]
    rw [if_pos ((call_iff (by decide) (by decide) _).2 ⟨id, rfl⟩), call_arg (by decide)]
  | load id =>
    have hne : ∀ s : String, s.toList.length ≤ 5 → "load(" ++ id ++ ")" ≠ s := by
      intro s hs e
      rw [← e] at hs
      simp [String.toList_append] at hs
    unfold parseMTok
    iterate 18 rw [if_neg (hne _ (by decide))]
    rw [if_neg, if_pos ((call_iff (by decide) (by decide) _).2 ⟨id, rfl⟩), call_arg (by decide)]
    rw [call_iff (by decide) (by decide)]
    rintro ⟨id', e⟩
    have := congrArg (fun s => s.toList.head?) e
    simp at this
  | int h =>
    have close : ∀ d : Fin 10, digit d ≠ ')' := by decide
    obtain ⟨d, hd⟩ := h.last
    unfold parseMTok
    iterate 18 rw [if_neg (h.ne _ (by decide))]
    rw [if_neg (by rintro ⟨_, e⟩; rw [hd] at e; exact close d (Option.some.inj e)),
      if_neg (by rintro ⟨_, e⟩; rw [hd] at e; exact close d (Option.some.inj e)), (parseI32_iff _ _).2 h]
  | _ => decide

/-- **C58.** Each word of an MDD expression is read as the specification says, and only so. -/
theorem C58_mdd_word (t : String) (k : MTok) : parseMTok t = k ↔ MWordIs t k := by
  have var : (¬ ∃ k', MKeyword t k') → parseMTok t = .var t := by
    intro h
    have ne : ∀ s k', MKeyword s k' → t ≠ s := by rintro s k' hk rfl; exact h ⟨k', hk⟩
    unfold parseMTok
    rw [if_neg (ne _ _ .add), if_neg (ne _ _ .sub), if_neg (ne _ _ .mul), if_neg (ne _ _ .div), if_neg (ne _ _ .min),
      if_neg (ne _ _ .max), if_neg (ne _ _ .eq), if_neg (ne _ _ .neq), if_neg (ne _ _ .lt), if_neg (ne _ _ .lte),
      if_neg (ne _ _ .gt), if_neg (ne _ _ .gte), if_neg (ne _ _ .and), if_neg (ne _ _ .or), if_neg (ne _ _ .not),
      if_neg (ne _ _ .ite), if_neg (ne _ _ .tru), if_neg (ne _ _ .fls), if_neg, if_neg]
    · cases hi : parseI32 t with
      | none => rfl
      | some v => exact absurd ⟨_, .int ((parseI32_iff _ _).1 hi)⟩ h
    · rw [call_iff (by decide) (by decide)]; rintro ⟨id, e⟩; exact ne _ _ (.load id) e
    · rw [call_iff (by decide) (by decide)]; rintro ⟨id, e⟩; exact ne _ _ (.save id) e
  constructor
  · rintro rfl
    by_cases h : ∃ k', MKeyword t k'
    · obtain ⟨k', hk⟩ := h
      rw [hk.parse]; exact .inl hk
    · exact .inr ⟨h, var h⟩
  · rintro (h | ⟨h, rfl⟩)
    · exact h.parse
    · exact var h

/-- **C58.** The tokens of an MDD expression text. -/
theorem C58_mdd_text (s : String) (ts : List MTok) :
    mlex s = ts ↔ ∃ ws, Words s.toList ws ∧ List.Forall₂ (fun w k => MWordIs (String.ofList w) k) ws ts := by
  have map : ∀ (ws : List (List Char)) (ts : List MTok), ws.map (fun cs => parseMTok (String.ofList cs)) = ts ↔
      List.Forall₂ (fun w k => MWordIs (String.ofList w) k) ws ts := by
    intro ws
    induction ws with
    | nil => intro ts; constructor; (rintro rfl; exact .nil); (rintro ⟨⟩; rfl)
    | cons w ws ih =>
      intro ts
      constructor
      · rintro rfl
        exact .cons ((C58_mdd_word _ _).1 rfl) ((ih _).1 rfl)
      · rintro (_ | ⟨h1, h2⟩)
        rw [List.map_cons, (ih _).2 h2, (C58_mdd_word _ _).2 h1]
  unfold mlex
  rw [map]
  constructor
  · intro h; exact ⟨_, words_iff.1 rfl, h⟩
  · rintro ⟨ws, h1, h2⟩; rw [words_iff.2 h1]; exact h2

/-! ## Concrete cases -/

example : mlex "  x -12 *\t+7 <=  save(f)\n2147483648 -2147483648 load(f) &&" =
    [.var "x", .int (-12), .bin .mul, .int 7, .bin .lte, .save "f", .var "2147483648", .int (-2147483648), .load "f",
      .bin .and] := by decide +kernel

example : IsI32 "-007" (-7) := ⟨[0, 0, 7], by decide, by decide, by decide, .inr (.inr (by decide))⟩

example : MWordIs "-" (.bin .sub) ∧ MWordIs "1x" (.var "1x") ∧ MWordIs "save()" (.save "") ∧ WordIs "save(" (.var "save(") :=
  ⟨(C58_mdd_word _ _).1 (by decide +kernel), (C58_mdd_word _ _).1 (by decide +kernel),
    (C58_mdd_word _ _).1 (by decide +kernel), (C58_bdd_word _ _).1 (by decide +kernel)⟩

end DD.Props
