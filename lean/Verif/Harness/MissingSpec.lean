/-
The output of a linker.
-/
import Verif.Harness.Missing
import Verif.Driver.Spec

namespace Smack.Harness.Spec

open Smack.Driver

/-- A line of the linker's output: a missing function, or something else. -/
inductive LLine where
  | undef (pre f post : List Char)
  | other (s : List Char)

def LLine.text : LLine → List Char
  | .undef pre f post => pre ++ "undefined reference to `".toList ++ f ++ '\'' :: post
  | .other s => s

def LLine.name? : LLine → Option (List Char)
  | .undef _ f _ => some f
  | .other _ => none

def LLine.Wf (l : LLine) : Prop :=
  '\n' ∉ l.text ∧ '\\' ∉ l.text ∧ ¬ Occurs "referenced from:".toList l.text ∧
  match l with
  | .undef pre _ post => '`' ∉ pre ∧ '\'' ∉ post
  | .other s => ¬ Occurs "undefined reference to `".toList s

/-- Lines as one text, without a newline at the end. -/
def linkerOut : List LLine → List Char
  | [] => []
  | [l] => l.text
  | l :: ls => l.text ++ '\n' :: linkerOut ls

end Smack.Harness.Spec
