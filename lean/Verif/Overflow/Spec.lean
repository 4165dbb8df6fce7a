/-
The meaning of the overflow intrinsics (LLVM language reference), over the mathematical integers.
-/
import Verif.Overflow.Model

namespace Smack.Overflow

/-- An operand read as signed or unsigned number. -/
def number {w : Nat} (isSigned : Bool) (x : BitVec w) : Int := if isSigned then x.toInt else (x.toNat : Int)

/-- The mathematical result. -/
def Op.apply : Op → Int → Int → Int
  | .add, a, b => a + b
  | .sub, a, b => a - b
  | .mul, a, b => a * b

/-- `v` is representable in `w` bits. -/
def Fits (w : Nat) (isSigned : Bool) (v : Int) : Prop :=
  if isSigned then -(2:Int) ^ (w - 1) ≤ v ∧ v < 2 ^ (w - 1) else 0 ≤ v ∧ v < 2 ^ w

instance (w : Nat) (isSigned : Bool) (v : Int) : Decidable (Fits w isSigned v) := by
  unfold Fits; infer_instance

end Smack.Overflow
