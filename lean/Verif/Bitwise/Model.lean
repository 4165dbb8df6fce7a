/-
The pass RewriteBitwiseOps (lib/smack/RewriteBitwiseOps.cpp) and the library functions it calls
(share/smack/lib/smack.c:57-1405).
-/

namespace Smack.Bitwise

inductive Shift where
  | shl | lshr | ashr
deriving DecidableEq, Repr

/-- The instructions the pass can substitute for a bitwise instruction of width `w` (one operand is a constant, or both
operands are passed to a library function). -/
inductive Rewritten (w : Nat) where
  | mul (rhs : BitVec w)
  | sdiv (rhs : BitVec w)
  | urem (rhs : BitVec w)
deriving DecidableEq

/-- RewriteBitwiseOps.cpp:54-81: `lhs <shift> amount` with a constant amount. `rhsVal <<= value` gives 0 when the amount is
at least the width (`APInt::operator<<=` with `getLimitedValue`). -/
def rewriteShift {w : Nat} (s : Shift) (amount : BitVec w) : Rewritten w :=
  let rhsVal := 1#w <<< amount.toNat
  match s with
  | .ashr | .lshr => .sdiv rhsVal
  | .shl => .mul rhsVal

/-- `APInt::isPowerOf2`: exactly one bit is set. -/
def isPowerOf2 {w : Nat} (x : BitVec w) : Bool := ((List.range w).filter (fun i => x.getLsbD i)).length == 1

/-- RewriteBitwiseOps.cpp:41-44 `isConstantInt` on a constant. -/
def isConstantInt {w : Nat} (c : BitVec w) : Bool := isPowerOf2 (c + 1#w)

/-- RewriteBitwiseOps.cpp:91-131: `and c x` with constant `c` as operand 0; `none` when the mask rule does not apply. -/
def rewriteAnd {w : Nat} (c : BitVec w) : Option (Rewritten w) :=
  if isConstantInt c then some (.urem (c + 1#w)) else none

/-- State of the unrolled loops of `__SMACK_and*`/`__SMACK_or*`: the C variables as mathematical integers. -/
structure St where
  a : Int
  b : Int
  c : Int
deriving DecidableEq, Repr

/-- One of the repeated statement groups of `__SMACK_and32` (smack.c:60-68), `__SMACK_and16` (772-780), `__SMACK_and8`
(954-962). `conv` is the conversion of a result to the type of the variables; `m` is the constant 2147483648, 32768, 128
(a `long`/`int` literal, so `%` is computed without conversion of `m`). -/
def andIter (conv : Int → Int) (m : Int) (s : St) : St :=
  let c := conv (s.c + s.c)
  let c := if s.a < 0 then (if s.b < 0 ∨ s.b > m - 1 then conv (c + 1) else c) else c
  let a := conv (s.a.tmod m)
  let a := conv (a + a)
  let b := conv (s.b.tmod m)
  let b := conv (b + b)
  ⟨a, b, c⟩

/-- One statement group of `__SMACK_or32` (smack.c:1048-1057). -/
def orIter (conv : Int → Int) (m : Int) (s : St) : St :=
  let c := conv (s.c + s.c)
  let c := if s.a < 0 then conv (c + 1) else if s.b < 0 then conv (c + 1) else c
  let a := conv (s.a + s.a)
  let a := conv (a.tmod m)
  let b := conv (s.b + s.b)
  let b := conv (b.tmod m)
  ⟨a, b, c⟩

/-- `n` groups one after the other. -/
def iter (f : St → St) : Nat → St → St
  | 0, s => s
  | n + 1, s => iter f n (f s)

/-- Conversion to a signed integer type of `w` bits, two's complement wrap-around. -/
def conv (w : Nat) (v : Int) : Int := v.bmod (2 ^ w)

/-- `__SMACK_and8` (smack.c:951-1043): 8 groups. -/
def and8 (cv : Nat → Int → Int) (a b : Int) : Int := (iter (andIter (cv 8) 128) 8 ⟨a, b, 0⟩).c
/-- `__SMACK_and16` (smack.c:769-949): 16 groups. -/
def and16 (cv : Nat → Int → Int) (a b : Int) : Int := (iter (andIter (cv 16) 32768) 16 ⟨a, b, 0⟩).c
/-- `__SMACK_and32` (smack.c:57-765): 64 groups. -/
def and32 (cv : Nat → Int → Int) (a b : Int) : Int := (iter (andIter (cv 32) 2147483648) 64 ⟨a, b, 0⟩).c
/-- `__SMACK_and64` (smack.c:767). -/
def and64 (cv : Nat → Int → Int) (a b : Int) : Int := cv 64 (and32 cv (cv 32 a) (cv 32 b))
/-- `__SMACK_or32` (smack.c:1045-1401): 32 groups. -/
def or32 (cv : Nat → Int → Int) (a b : Int) : Int := (iter (orIter (cv 32) 2147483648) 32 ⟨a, b, 0⟩).c
/-- `__SMACK_or64`, `__SMACK_or16`, `__SMACK_or8` (smack.c:1403-1405). -/
def or64 (cv : Nat → Int → Int) (a b : Int) : Int := cv 64 (or32 cv (cv 32 a) (cv 32 b))
def or16 (cv : Nat → Int → Int) (a b : Int) : Int := cv 16 (or32 cv (cv 32 a) (cv 32 b))
def or8 (cv : Nat → Int → Int) (a b : Int) : Int := cv 8 (or32 cv (cv 32 a) (cv 32 b))

end Smack.Bitwise
