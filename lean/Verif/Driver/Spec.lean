import Verif.Driver.Model

/-
Independent specifications for C48-C51.
-/

namespace Smack.Driver

/-- `p` is a substring of `s`. -/
def Occurs (p s : List Char) : Prop := ∃ a b, s = a ++ p ++ b

/-- A positive decimal number without leading zeros. -/
def PosNum (n : List Char) : Prop := ∃ d ds, n = d :: ds ∧ isDig19 d = true ∧ ∀ c ∈ ds, isDig c = true

/-- Blank characters. -/
def Blank (c : Char) : Prop :=
  c ∈ [' ', '\t', '\n', '\x0b', '\x0c', '\r', '\x1c', '\x1d', '\x1e', '\x1f']

/-- Characters of file names: letters, digits and some signs. -/
def FileChar (c : Char) : Prop :=
  ('a' ≤ c ∧ c ≤ 'z') ∨ ('A' ≤ c ∧ c ≤ 'Z') ∨ ('0' ≤ c ∧ c ≤ '9') ∨ c ∈ "_#$~%./-".toList

/-! ### The verifier's report -/

/-- The output mentions a time-out. -/
def SaysTimeout (out : List Char) : Prop :=
  (∃ n, PosNum n ∧ Occurs (n ++ " time out".toList) out) ∨ Occurs "Z3 ran out of resources".toList out ∨
    Occurs "timed out".toList out ∨ Occurs "ERRORS_TIMEOUT".toList out

/-- The output mentions success: a positive number of procedures verified and no errors (Boogie), "no bugs"
(Corral), or Symbooglix's code. -/
def SaysSuccess (out : List Char) : Prop :=
  (∃ n, PosNum n ∧ Occurs (n ++ " verified, 0 error".toList) out) ∨ Occurs "no bugs".toList out ∨
    Occurs "NO_ERRORS_NO_TIMEOUT".toList out

/-- The output mentions a failure. -/
def SaysFailure (out : List Char) : Prop :=
  (∃ n, PosNum n ∧ Occurs (" verified, ".toList ++ n ++ " error".toList) out) ∨ Occurs "can fail".toList out ∨
    Occurs "ERRORS_NO_TIMEOUT".toList out

/-- Boogie's last line: `v` procedures verified, `e` errors. -/
def boogieSummary (v e : List Char) (plural : Bool) : List Char :=
  "Boogie program verifier finished with ".toList ++ v ++ " verified, ".toList ++ e ++ " error".toList ++
    (if plural then ['s'] else [])

/-- The value of a decimal numeral. -/
def decValue : List Char → Nat
  | [] => 0
  | c :: s => (c.toNat - 48) * 10 ^ s.length + decValue s

/-- After the last "Verifying program while tracking" some "Exhausted recursion bound of n" with `n ≥ k` is reported. -/
def ReachedBound (k : Nat) (out : List Char) : Prop :=
  ∃ pre post x n y,
    out = pre ++ ("Verifying program while tracking".toList ++ post) ∧
    (∀ u w, out = u ++ ("Verifying program while tracking".toList ++ w) → u.length ≤ pre.length) ∧
    "Verifying program while tracking".toList ++ post = x ++ ("Exhausted recursion bound of ".toList ++ (n ++ y)) ∧
    PosNum n ∧ (y = [] ∨ ∃ d r, y = d :: r ∧ isDig d = false) ∧ k ≤ decValue n

/-- The documented meaning of the assertion attributes (top.py:160-198): which error is reported. -/
def kindTable : List (List Char × VRes) :=
  [("valid_deref".toList, .invalidDeref), ("valid_free".toList, .invalidFree),
   ("valid_memtrack".toList, .invalidMemtrack), ("overflow".toList, .overflow),
   ("rust_panic".toList, .rustPanic)]

/-- `a` has kind `r`: by the table, any other attribute is an assertion failure. -/
def HasKind (a : List Char) (r : VRes) : Prop :=
  (a, r) ∈ kindTable ∨ (a ∉ kindTable.map Prod.fst ∧ r = .assertionFailure)

/-! ### Assertions of the Boogie program -/

/-- An `assert` statement on its line. -/
structure AssertLine where
  indent : List Char
  attr : Option (List Char)
  expr : List Char
  /-- what follows the semicolon, up to the end of the line -/
  tail : List Char
  /-- the line terminator, empty on a last line without one -/
  eol : List Char

/-- The text of the line. -/
def AssertLine.text (l : AssertLine) : List Char :=
  l.indent ++ "assert ".toList ++
    (match l.attr with
     | some a => "{:".toList ++ a ++ "} ".toList
     | none => []) ++ l.expr ++ ";".toList ++ l.tail ++ l.eol

/-- The shape SMACK prints: blanks before the keyword, a one-line expression without closing braces, nothing but
the line end and possibly a comment behind the semicolon. -/
structure AssertLine.Wf (l : AssertLine) : Prop where
  indent : ∀ c ∈ l.indent, Blank c
  attr : ∀ a, l.attr = some a → a ≠ [] ∧ '\n' ∉ a ∧ '}' ∉ a
  expr_ne : ∃ c r, l.expr = c :: r ∧ ¬Blank c ∧ c ≠ '{'
  expr : '\n' ∉ l.expr ∧ '}' ∉ l.expr
  tail : '\n' ∉ l.tail ∧ '}' ∉ l.tail ∧ ';' ∉ l.tail
  eol : l.eol = [] ∨ l.eol = ['\n']

/-- The assertion belongs to property `p`: no attribute for user assertions, the property's attribute for the others. -/
def AssertLine.belongs (l : AssertLine) (p : Prp) : Prop := l.attr = p.attr

/-- The statement with condition `true`. -/
def AssertLine.disabled (l : AssertLine) : AssertLine := { l with attr := none, expr := "true".toList }

/-! ### Merged traces -/

/-- Non-empty descriptions, separated by ", ". -/
def joined (g : List Step) : List Char :=
  ", ".toList.intercalate ((g.map Step.description).filter (fun d => !d.isEmpty))

/-- What a maximal group of steps at one position should become. -/
def groupStep : List Step → Option Step
  | [] => none
  | s :: g => some { s with description := joined (s :: g) }

/-- All neighbours are related. -/
def Adjacent {α : Type} (R : α → α → Prop) : List α → Prop
  | [] => True
  | [_] => True
  | a :: b :: l => R a b ∧ Adjacent R (b :: l)

end Smack.Driver
