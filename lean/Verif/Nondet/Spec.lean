/-
Specification for C56: the integer types of C by the words of their name, and the values representable in them.
-/

namespace Smack.Nondet

def isUnsigned (ty : List String) : Bool := ty.contains "unsigned"

/-- Width of the type; `L` is the width of `long`. -/
def width (L : Nat) (ty : List String) : Nat :=
  if ty.contains "char" then 8
  else if ty.contains "short" then 16
  else if ty.count "long" = 2 then 64
  else if ty.count "long" = 1 then L
  else 32

/-- `v` is representable in an integer type. -/
@[reducible] def Representable (unsigned : Bool) (w : Nat) (v : Int) : Prop :=
  if unsigned then 0 ≤ v ∧ v < 2 ^ w else -2 ^ (w - 1) ≤ v ∧ v < 2 ^ (w - 1)

end Smack.Nondet
