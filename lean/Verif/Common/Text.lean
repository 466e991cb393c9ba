/-!
# Text: `char::is_whitespace` and `str::split_whitespace`

The standard library functions used by `rpn`, /repo/bss/src/bdd.rs:267 and /repo/mss/src/mdd.rs:300. A text is its list of
characters.
-/

set_option autoImplicit false
set_option linter.unusedSectionVars false
set_option linter.unusedVariables false

namespace DD

/-- Unicode White_Space, as in Rust's `char::is_whitespace`. -/
def isWs (c : Char) : Bool :=
  let n := c.toNat
  (9 ≤ n && n ≤ 13) || n == 0x20 || n == 0x85 || n == 0xA0 || n == 0x1680 ||
    (0x2000 ≤ n && n ≤ 0x200A) || n == 0x2028 || n == 0x2029 || n == 0x202F || n == 0x205F ||
    n == 0x3000

/-- `str::split_whitespace`: maximal runs of non-whitespace characters. `cur` is the current run,
reversed. -/
def splitWs : List Char → List Char → List (List Char)
  | [], cur => if cur = [] then [] else [cur.reverse]
  | c :: cs, cur =>
    if isWs c then (if cur = [] then splitWs cs [] else cur.reverse :: splitWs cs [])
    else splitWs cs (c :: cur)

theorem splitWs_run : ∀ (l cur rest : List Char), (∀ c ∈ l, isWs c = false) →
    splitWs (l ++ rest) cur = splitWs rest (l.reverse ++ cur) := by
  intro l
  induction l with
  | nil => intro cur rest _; rfl
  | cons c l ih =>
    intro cur rest h
    have hc : isWs c = false := h c List.mem_cons_self
    simp only [List.cons_append, splitWs, hc]
    rw [if_neg (by simp), ih _ _ (fun d hd => h d (List.mem_cons_of_mem _ hd))]
    simp

end DD
