import Verif.Core.Dot

/-!
# The text determines the statements

for labels without quotation marks.
-/

set_option autoImplicit false
set_option linter.unusedSectionVars false
set_option linter.unusedVariables false

namespace DD

/-- No quotation mark. -/
def Plain (s : String) : Prop := '"' ∉ s.toList

theorem split_quote : ∀ {l l' r r' : List Char}, '"' ∉ l → '"' ∉ l' → l ++ '"' :: r = l' ++ '"' :: r' → l = l' ∧ r = r' := by
  intro l
  induction l with
  | nil =>
    intro l' r r' _ h' e
    cases l' with
    | nil => simp at e; exact ⟨rfl, e⟩
    | cons c l' =>
      simp at e
      exact absurd (by rw [← e.1]; exact List.mem_cons_self) h'
  | cons c l ih =>
    intro l' r r' h h' e
    cases l' with
    | nil =>
      simp at e
      exact absurd (by rw [e.1]; exact List.mem_cons_self) h
    | cons c' l' =>
      simp only [List.cons_append, List.cons.injEq] at e
      obtain ⟨rfl, e⟩ := e
      obtain ⟨rfl, rfl⟩ := ih (fun hm => h (List.mem_cons_of_mem _ hm)) (fun hm => h' (List.mem_cons_of_mem _ hm)) e
      exact ⟨rfl, rfl⟩

theorem nat_digits (n : Nat) : (toString n).toList = Nat.toDigits 10 n := by
  simp [toString]

theorem nat_plain (n : Nat) : Plain (toString n) := by
  unfold Plain
  rw [nat_digits]
  intro h
  have := Nat.isDigit_of_mem_toDigits (by decide) (by decide) h
  exact absurd this (by decide)

theorem nat_toString_inj {n k : Nat} (h : toString n = toString k) : n = k := by
  have h' : (toString n).toList = (toString k).toList := by rw [h]
  rw [nat_digits, nat_digits] at h'
  rw [← Nat.ofDigitChars_ten_toDigits (n := n), h', Nat.ofDigitChars_ten_toDigits]

theorem int_toString (v : Int) : toString v = match v with | .ofNat n => toString n | .negSucc n => "-" ++ toString (n + 1) := by
  cases v <;> rfl

theorem nat_head (n : Nat) : ∃ c cs, (toString n).toList = c :: cs ∧ c.isDigit = true := by
  rw [nat_digits]
  have : Nat.toDigits 10 n ≠ [] := by
    intro h
    have h2 := Nat.ofDigitChars_ten_toDigits (n := n)
    have := Nat.length_toDigits_pos (b := 10) (n := n)
    rw [h] at this
    simp at this
  obtain ⟨c, cs, e⟩ := List.exists_cons_of_ne_nil this
  exact ⟨c, cs, e, Nat.isDigit_of_mem_toDigits (b := 10) (n := n) (by decide) (by decide) (by rw [e]; exact List.mem_cons_self)⟩

theorem int_toString_inj {v u : Int} (h : toString v = toString u) : v = u := by
  rw [int_toString, int_toString] at h
  cases v with
  | ofNat n =>
    cases u with
    | ofNat k => rw [nat_toString_inj h]
    | negSucc k =>
      exfalso
      obtain ⟨c, cs, e, hc⟩ := nat_head n
      have h' : (toString n).toList = ("-" ++ toString (k + 1)).toList := congrArg String.toList h
      rw [e] at h'
      simp at h'
      rw [h'.1] at hc
      exact absurd hc (by decide)
  | negSucc n =>
    cases u with
    | ofNat k =>
      exfalso
      obtain ⟨c, cs, e, hc⟩ := nat_head k
      have h' : ("-" ++ toString (n + 1)).toList = (toString k).toList := congrArg String.toList h
      rw [e] at h'
      simp at h'
      rw [← h'.1] at hc
      exact absurd hc (by decide)
    | negSucc k =>
      have h' : ("-" ++ toString (n + 1)).toList = ("-" ++ toString (k + 1)).toList := congrArg String.toList h
      simp only [String.toList_append, List.append_cancel_left_eq] at h'
      have := nat_toString_inj (String.toList_inj.1 h')
      have : n = k := by omega
      rw [this]

theorem int_plain (v : Int) : Plain (toString v) := by
  rw [int_toString]
  cases v with
  | ofNat n => exact nat_plain n
  | negSucc n =>
    unfold Plain
    simp only [String.toList_append, List.mem_append, not_or]
    exact ⟨by decide, nat_plain (n + 1)⟩

theorem int_ne_undet (v : Int) : toString v ≠ "Undet" := by
  intro h
  rw [int_toString] at h
  cases v with
  | ofNat n =>
    obtain ⟨c, cs, e, hc⟩ := nat_head n
    have h' : (toString n).toList = "Undet".toList := by rw [← h]
    rw [e] at h'
    simp at h'
    rw [h'.1] at hc
    exact absurd hc (by decide)
  | negSucc n =>
    have h' : ("-" ++ toString (n + 1)).toList = "Undet".toList := by rw [← h]
    simp at h'

namespace DotLine

/-- The label has no quotation mark. -/
def PlainL : DotLine → Prop
  | .node _ _ l => Plain l
  | .edge _ _ _ => True

theorem text_split {x y : DotLine} (hx : x.PlainL) (hy : y.PlainL) {r r' : List Char}
    (h : x.text.toList ++ r = y.text.toList ++ r') : x = y ∧ r = r' := by
  have e1 : ∀ (id : Nat) (round : Bool) (l : String) (r : List Char), (DotLine.node id round l).text.toList ++ r =
      ['"', 'o', 'b', 'j'] ++ ((toString id).toList ++ '"' :: ([' ', '[', 's', 'h', 'a', 'p', 'e', '='] ++
        ((if round then "circle" else "square").toList ++ ([',', ' ', 'l', 'a', 'b', 'e', 'l', '='] ++ '"' :: (l.toList ++ '"' :: ([']', ';', '\n'] ++ r)))))) := by
    intro id round l r
    cases round <;> simp [text, String.toList_append]
  have e2 : ∀ (i j k : Nat) (r : List Char), (DotLine.edge i j k).text.toList ++ r =
      ['"', 'o', 'b', 'j'] ++ ((toString i).toList ++ '"' :: ([' ', '-', '>', ' ', '"', 'o', 'b', 'j'] ++
        ((toString j).toList ++ '"' :: ([' ', '[', 'l', 'a', 'b', 'e', 'l', '=', '"'] ++ ((toString k).toList ++ '"' :: ([']', ';', '\n'] ++ r)))))) := by
    intro i j k r
    simp [text, String.toList_append]
  cases x with
  | node id round l =>
    cases y with
    | node id' round' l' =>
      rw [e1, e1, List.append_cancel_left_eq] at h
      obtain ⟨h1, h⟩ := split_quote (nat_plain id) (nat_plain id') h
      rw [List.append_cancel_left_eq] at h
      have hr : round = round' := by
        cases round <;> cases round' <;> simp at h <;> rfl
      subst hr
      rw [List.append_cancel_left_eq, List.append_cancel_left_eq, List.cons.injEq] at h
      obtain ⟨h2, h⟩ := split_quote hx hy h.2
      rw [List.append_cancel_left_eq] at h
      rw [nat_toString_inj (String.toList_inj.1 h1), String.toList_inj.1 h2]
      exact ⟨rfl, h⟩
    | edge i j k =>
      exfalso
      rw [e1, e2, List.append_cancel_left_eq] at h
      obtain ⟨h1, h⟩ := split_quote (nat_plain id) (nat_plain i) h
      simp at h
  | edge i j k =>
    cases y with
    | node id round l =>
      exfalso
      rw [e1, e2, List.append_cancel_left_eq] at h
      obtain ⟨h1, h⟩ := split_quote (nat_plain i) (nat_plain id) h
      simp at h
    | edge i' j' k' =>
      rw [e2, e2, List.append_cancel_left_eq] at h
      obtain ⟨h1, h⟩ := split_quote (nat_plain i) (nat_plain i') h
      rw [List.append_cancel_left_eq] at h
      obtain ⟨h2, h⟩ := split_quote (nat_plain j) (nat_plain j') h
      rw [List.append_cancel_left_eq] at h
      obtain ⟨h3, h⟩ := split_quote (nat_plain k) (nat_plain k') h
      rw [List.append_cancel_left_eq] at h
      rw [nat_toString_inj (String.toList_inj.1 h1), nat_toString_inj (String.toList_inj.1 h2),
        nat_toString_inj (String.toList_inj.1 h3)]
      exact ⟨rfl, h⟩

theorem text_quote (x : DotLine) : ∃ r, x.text.toList = '"' :: r := by
  cases x with
  | node id round l => exact ⟨_, by simp only [text, String.toList_append]; rfl⟩
  | edge i j k => exact ⟨_, by simp only [text, String.toList_append]; rfl⟩

end DotLine

theorem join_toList : ∀ (ls : List String), (String.join ls).toList = (ls.map String.toList).flatten := by
  intro ls
  simp [List.flatMap]

theorem dotText_toList (ls : List DotLine) : (dotText ls).toList =
    dotHead.toList ++
      ((ls.map (fun x => x.text.toList)).flatten ++ ['}', '\n']) := by
  have e : "}\n".toList = ['}', '\n'] := by decide
  rw [dotText, String.toList_append, String.toList_append, join_toList, List.map_map, List.append_assoc, e]
  rfl

/-- The text gives back the statements. -/
theorem dotText_inj {ls ls' : List DotLine} (h : ∀ x ∈ ls, x.PlainL) (h' : ∀ x ∈ ls', x.PlainL)
    (e : dotText ls = dotText ls') : ls = ls' := by
  replace e : (dotText ls).toList = (dotText ls').toList := by rw [e]
  rw [dotText_toList, dotText_toList, List.append_cancel_left_eq] at e
  induction ls generalizing ls' with
  | nil =>
    cases ls' with
    | nil => rfl
    | cons y ys =>
      obtain ⟨r, hr⟩ := y.text_quote
      simp [hr] at e
  | cons x xs ih =>
    cases ls' with
    | nil =>
      obtain ⟨r, hr⟩ := x.text_quote
      simp [hr] at e
    | cons y ys =>
      simp only [List.map_cons, List.flatten_cons, List.append_assoc] at e
      obtain ⟨rfl, e'⟩ := DotLine.text_split (h x List.mem_cons_self) (h' y List.mem_cons_self) e
      rw [ih (fun z hz => h z (List.mem_cons_of_mem _ hz)) (fun z hz => h' z (List.mem_cons_of_mem _ hz)) e']

end DD
