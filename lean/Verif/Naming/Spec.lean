/-
Specification: what Boogie accepts as an identifier ("This is Boogie 2", section 1), what distinguishes two values.
-/
namespace Smack.Naming.Spec

/-- Characters that may occur in a Boogie identifier (after the first). -/
def LegalChar (c : Char) : Prop :=
  ('a' ≤ c ∧ c ≤ 'z') ∨ ('A' ≤ c ∧ c ≤ 'Z') ∨ ('0' ≤ c ∧ c ≤ '9') ∨ c ∈ ['_', '.', '$', '#', '\'', '`', '~', '^', '?']

/-- A legal identifier: not empty, legal characters, no digit at the start. -/
def LegalIdent (s : List Char) : Prop :=
  s ≠ [] ∧ (∀ c ∈ s, LegalChar c) ∧ ∀ c ∈ s.head?, ¬ ('0' ≤ c ∧ c ≤ '9')

/-- The reserved words of the language ("This is Boogie 2", and the words of Boogie's concurrent programs), without `extends`. -/
def reserved : List String :=
  ["assert", "assume", "async", "axiom", "bool", "break", "call", "complete", "const", "div", "else", "ensures", "exists", "false",
   "finite", "forall", "free", "function", "goto", "havoc", "if", "implementation", "int", "invariant", "lambda", "mod", "modifies",
   "old", "par", "procedure", "real", "requires", "return", "returns", "then", "true", "type", "unique", "var", "where", "while", "yield"]

/-- The characters that occur in names produced by the C front end and by SMACK itself. -/
def SourceChar (c : Char) : Prop :=
  ('a' ≤ c ∧ c ≤ 'z') ∨ ('A' ≤ c ∧ c ≤ 'Z') ∨ ('0' ≤ c ∧ c ≤ '9') ∨
  c ∈ ['_', '.', '$', '@', '\x01', '\\', ':', ' ', '(', ')', '[', ']', '{', '}', '<', '>', '|', '"', '-', ';']

end Smack.Naming.Spec
