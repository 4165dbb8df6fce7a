/-
The replacement of `llvm.{s,u}{add,sub,mul}.with.overflow.iN` by lib/smack/IntegerOverflowChecker.cpp.
Instructions are expression trees of `IntOps`; the two operands of the intrinsic are the variables 0 and 1.
-/
import Verif.IntOps.Spec

namespace Smack.Overflow

open Smack.IntOps

/-- IntegerOverflowChecker.cpp:30-33 `INSTRUCTION_TABLE`. -/
inductive Op where
  | add | sub | mul
deriving DecidableEq, Repr

/-- IntegerOverflowChecker.cpp:35-40 `getMax` (decimal text of the value). -/
def getMax (bits : Nat) (isSigned : Bool) : Int :=
  if isSigned then 2 ^ (bits - 1) - 1 else 2 ^ bits - 1

/-- IntegerOverflowChecker.cpp:42-47 `getMin`. -/
def getMin (bits : Nat) (isSigned : Bool) : Int :=
  if isSigned then -(2 ^ (bits - 1)) else 0

/-- IntegerOverflowChecker.cpp:53-62 `extendBitWidth` on operand `n`. -/
def extend (bits : Nat) (isSigned : Bool) (n : Nat) : Expr (bits * 2) :=
  if isSigned then .sext (bits * 2) (.var bits n) else .zext (bits * 2) (.var bits n)

/-- IntegerOverflowChecker.cpp:166-174: the operation in double width (`ai`). -/
def wide (op : Op) (bits : Nat) (isSigned : Bool) : Expr (bits * 2) :=
  match op with
  | .add => .add (extend bits isSigned 0) (extend bits isSigned 1)
  | .sub => .sub (extend bits isSigned 0) (extend bits isSigned 1)
  | .mul => .mul (extend bits isSigned 0) (extend bits isSigned 1)

/-- IntegerOverflowChecker.cpp:68-83 `createFlag`. The constants are written in the context of a comparison
(SmackRep.cpp:973-978: signedness of the predicate, `isUnsignedInst = true`). -/
def flag (op : Op) (bits : Nat) (isSigned : Bool) : Expr 1 :=
  let ai := wide op bits isSigned
  let max : Expr (bits * 2) := .lit (!isSigned) true (BitVec.ofInt (bits * 2) (getMax bits isSigned))
  let min : Expr (bits * 2) := .lit (!isSigned) true (BitVec.ofInt (bits * 2) (getMin bits isSigned))
  .logic1 .or (.icmp (if isSigned then .sgt else .ugt) ai max) (.icmp (if isSigned then .slt else .ult) ai min)

/-- IntegerOverflowChecker.cpp:88-92 `createResult`. -/
def result (op : Op) (bits : Nat) (isSigned : Bool) : Expr bits := .trunc bits (wide op bits isSigned)

/-- IntegerOverflowChecker.cpp:98-103 `addCheck` with smack.c:1407-1410 `__SMACK_check_overflow`: the flag, zero-extended to
`int`, is compared with 0. -/
def check (op : Op) (bits : Nat) (isSigned : Bool) : Expr 1 :=
  .icmp .eq (.zext 32 (flag op bits isSigned)) (.lit false false 0#32)

end Smack.Overflow
