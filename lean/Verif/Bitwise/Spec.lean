/-
LLVM semantics of the instructions involved (LLVM language reference). `none` is undefined behaviour or poison.
-/
import Verif.Bitwise.Model

namespace Smack.Bitwise

/-- `shl`, `lshr`, `ashr`: poison when the amount is not smaller than the width. -/
def Shift.eval {w : Nat} (s : Shift) (x amount : BitVec w) : Option (BitVec w) :=
  if amount.toNat < w then
    some (match s with
      | .shl => BitVec.ofNat w (x.toNat * 2 ^ amount.toNat)
      | .lshr => BitVec.ofNat w (x.toNat / 2 ^ amount.toNat)
      | .ashr => BitVec.ofInt w (x.toInt / 2 ^ amount.toNat))
  else none

/-- `mul`, `sdiv`, `urem` with the constant as second operand. -/
def Rewritten.eval {w : Nat} (r : Rewritten w) (x : BitVec w) : Option (BitVec w) :=
  match r with
  | .mul c => some (BitVec.ofNat w (x.toNat * c.toNat))
  | .sdiv c =>
      if c.toInt = 0 ∨ (x.toInt = -(2:Int)^(w-1) ∧ c.toInt = -1) then none
      else some (BitVec.ofInt w (x.toInt.tdiv c.toInt))
  | .urem c => if c.toNat = 0 then none else some (BitVec.ofNat w (x.toNat % c.toNat))

/-- Bit `i` of `x` that survives in `__SMACK_or32`: it is set and it is either the sign bit or not the lowest set bit. -/
def survives {w : Nat} (x : BitVec w) (i : Nat) : Prop :=
  x.getLsbD i = true ∧ (i = w - 1 ∨ ∃ j, j < i ∧ x.getLsbD j = true)

end Smack.Bitwise
