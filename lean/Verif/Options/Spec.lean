import Verif.Driver.Spec
import Verif.Options.Model

/-
Independent specifications for C82 and C83.
-/

namespace Smack.Options

open Smack.Driver

/-! ### Requests -/

/-- The documented name of a property (the help text of `--check`). -/
def word : Prp → String
  | .assertions => "assertions"
  | .validDeref => "valid-deref"
  | .validFree => "valid-free"
  | .memleak => "memleak"
  | .integerOverflow => "integer-overflow"
  | .rustPanics => "rust-panics"

/-- Lower case, and a minus for an underscore. -/
def canon (c : Char) : Char :=
  if 'A' ≤ c ∧ c ≤ 'Z' then Char.ofNat (c.toNat + 32) else if c = '_' then '-' else c

/-- The argument is this word, up to case and up to the two separators. -/
def Spells (v : List Char) (w : String) : Prop := v.map canon = w.toList

/-- A property that `memory-safety` stands for. -/
def OfMemory (p : Prp) : Prop := p = .validDeref ∨ p = .validFree ∨ p = .memleak

/-- The argument asks for the property. -/
def Names (v : List Char) (p : Prp) : Prop := Spells v (word p) ∨ (Spells v "memory-safety" ∧ OfMemory p)

/-- Some argument asks for the property. -/
def Asked (occs : List (List (List Char))) (p : Prp) : Prop := ∃ o ∈ occs, ∃ v ∈ o, Names v p

/-- What the user wants checked: what is asked for, and the assertions if nothing is. -/
def Requested (occs : List (List (List Char))) (p : Prp) : Prop :=
  Asked occs p ∨ (p = .assertions ∧ ∀ q, ¬Asked occs q)

/-- The argument is a word of the help text; `memory-safety` and `none` only if `groups` is set. -/
def Known (groups : Bool) (v : List Char) : Prop :=
  (∃ p, Spells v (word p)) ∨ (groups = true ∧ (Spells v "memory-safety" ∨ Spells v "none"))

/-! ### Lines -/

/-- The pattern does not occur in the text. -/
def Free (pat s : List Char) : Prop := ¬Occurs pat s

/-- A line of the Boogie file for the annotation of procedures. -/
inductive Ln where
  /-- the keyword, if it occurs, is part of a longer identifier: no blank follows, nor the end of the line -/
  | other (s : List Char)
  /-- the head of a procedure with its attributes, as `ProcDecl::print` gives it -/
  | proc (attrs : List (List Char)) (name rest : List Char)

/-- The line. -/
def Ln.text : Ln → List Char
  | .other s => s
  | .proc attrs name rest =>
    "procedure ".toList ++ (attrs.map (fun a => "{:".toList ++ a ++ "} ".toList)).flatten ++ name ++ "(".toList ++ rest

/-- No declaration starts in the text. -/
def NoDecl (s : List Char) : Prop :=
  ∀ a b, s = a ++ "procedure".toList ++ b → ∃ c r, b = c :: r ∧ ¬Blank c

/-- The shape of the lines. -/
def Ln.Wf : Ln → Prop
  | .other s => NoDecl s
  | .proc attrs name rest =>
    (∀ a ∈ attrs, '(' ∉ a) ∧ name ≠ [] ∧ (∀ c ∈ name, ¬Blank c ∧ c ≠ '(') ∧
      NoDecl ((attrs.map (fun a => "{:".toList ++ a ++ "} ".toList)).flatten ++ name ++ "(".toList ++ rest)

/-- The file. -/
def fileText : List (List Char) → List Char
  | [] => []
  | l :: ls => l ++ '\n' :: fileText ls

/-- The line after the annotation with the given text. -/
def Ln.annotated (ann : List Char → List Char) : Ln → List Char
  | .proc [] name rest => "procedure ".toList ++ ann name ++ " ".toList ++ name ++ "(".toList ++ rest
  | l => l.text

/-- A line of the Boogie file for the competition mode. -/
inductive CLn where
  | other (s : List Char)
  /-- a call of the error function -/
  | error (indent rest : List Char)

/-- The line. -/
def CLn.text : CLn → List Char
  | .other s => s
  | .error i r => i ++ "call reach_error();".toList ++ r

def CLn.Wf : CLn → Prop
  | .other s => Free "call reach_error();".toList s
  | .error i r => (∀ c ∈ i, Blank c) ∧ Free "call reach_error();".toList r

/-- The line with a failing assertion before the call. -/
def CLn.failing : CLn → List Char
  | .other s => s
  | .error i r => i ++ "assert false; ".toList ++ "call reach_error();".toList ++ r

end Smack.Options
