import Verif.BTrace.Model
/-!
# Specification: places in the source for places in the Boogie program
-/
namespace Smack.BTrace.Spec

open Smack.BTrace

/-- The text of an annotation from its brace on, and the rest of the line. -/
def locText (p : Place) (t : Str) : Str :=
  ['{', ':', 's', 'o', 'u', 'r', 'c', 'e', 'l', 'o', 'c', ' ', '"'] ++ (p.file ++ '"' :: ([',', ' '] ++ (p.line ++ ',' :: ([' '] ++ (p.column ++ '}' :: t)))))

/-- Characters of names of files that are understood. -/
def FileChar (c : Char) : Prop := c.isAlphanum = true ∨ c ∈ ['_', '#', '$', '~', '%', '.', '/', '-']

/-- Names of files and numbers that are understood. -/
structure Ok (p : Place) : Prop where
  file : p.file ≠ [] ∧ ∀ c ∈ p.file, FileChar c
  line : p.line ≠ [] ∧ ∀ c ∈ p.line, c.isDigit = true
  column : p.column ≠ [] ∧ ∀ c ∈ p.column, c.isDigit = true

/-- The line says a place: its last annotation is for this place. -/
def Says (l : Str) (p : Place) : Prop :=
  Ok p ∧ ∃ pre t, l = pre ++ locText p t ∧ ∀ pre' q t', locText p t = pre' ++ locText q t' → Ok q → pre' = []

def Silent (l : Str) : Prop := ∀ p, ¬ Says l p

/-- The place for line `n` of a Boogie file (counted from 1): what the first of the ten lines after it says that says one. -/
def PlaceFor (ls : List Str) (n : Nat) (p : Place) : Prop :=
  ∃ k l, n ≤ k ∧ k < n + 10 ∧ ls[k]? = some l ∧ Says l p ∧ ∀ j m, n ≤ j → j < k → ls[j]? = some m → Silent m

/-- One list says what the other says, with repetitions. -/
inductive Repeats : List Place → List Place → Prop where
  | nil : Repeats [] []
  | cons (p : Place) (k : Nat) (ps qs : List Place) (h : ps.head? ≠ some p) (hr : Repeats ps qs) : Repeats (p :: ps) (List.replicate (k + 1) p ++ qs)

/-- The lines of a text. -/
inductive Lines : Str → List Str → Prop where
  | last (l : Str) (h : '\n' ∉ l) : Lines l [l]
  | more (l s : Str) (ls : List Str) (h : '\n' ∉ l) (hs : Lines s ls) : Lines (l ++ '\n' :: s) (l :: ls)

end Smack.BTrace.Spec
