/-
Integer functions of the generated Boogie prelude and the translation of integer
expressions (lib/smack/Prelude.cpp, lib/smack/SmackRep.cpp).

Boogie `int` is `Int`.  SMT-LIB `div` and `mod` are Euclidean for a non-zero divisor and
uninterpreted for divisor zero; the record `Smt` carries the arbitrary value at zero.
-/

namespace Smack.IntOps

/-- The three bitwise operations that keep their native LLVM form at width one. -/
inductive Logic where
  | and | or | xor
deriving DecidableEq, Repr

/-- Result of a bitwise operation on truth values. -/
def Logic.onBool : Logic → Bool → Bool → Bool
  | .and, a, b => a && b
  | .or, a, b => a || b
  | .xor, a, b => a != b

/-- An arbitrary interpretation of the parts of the prelude that are not fixed by definitions:
SMT-LIB `div`/`mod` at divisor zero, and the uninterpreted functions `$and.i1`, `$or.i1`, `$xor.i1`
(Prelude.cpp:507-509), constrained by exactly the axioms emitted in Prelude.cpp:550-570. -/
structure Smt where
  divZero : Int → Int
  modZero : Int → Int
  logic1 : Logic → Int → Int → Int
  logic1_ax : ∀ (op : Logic) (i j : Bool), logic1 op i.toInt j.toInt = (op.onBool i j).toInt

/-- One concrete interpretation: the axioms of Prelude.cpp:550-570 are consistent. -/
def Smt.std : Smt where
  divZero := fun _ => 0
  modZero := fun a => a
  logic1 := fun op a b => (op.onBool (a == 1) (b == 1)).toInt
  logic1_ax := by intro op i j; cases op <;> cases i <;> cases j <;> rfl

/-- `--integer-encoding` choices that use mathematical integers
(share/smack/top.py:441-448, SmackOptions::WrappedIntegerEncoding). -/
inductive Enc where
  | unbounded
  | wrapped
deriving DecidableEq, Repr

/-- Prelude.cpp:169-173 `getIntLimit`: 2^size. -/
def intLimit (size : Nat) : Int := 2 ^ size

/-- Prelude.cpp:489 `{"idiv", 2, intBuiltinOp, ..}`: SMT `div`. -/
def idiv (S : Smt) (a b : Int) : Int := if b = 0 then S.divZero a else a.ediv b

/-- Prelude.cpp:496 `{"smod", 2, intBuiltinOp, ..}`: `intAttrFunc` drops the leading `s`, so SMT `mod`. -/
def smod (S : Smt) (a b : Int) : Int := if b = 0 then S.modZero a else a.emod b

/-- Prelude.cpp:428-443 `tosExpr`. -/
def tos (S : Smt) (size : Nat) (i : Int) : Int :=
  if i ≥ -(intLimit (size - 1)) ∧ i < intLimit (size - 1) then i
  else smod S (i + intLimit (size - 1)) (intLimit size) - intLimit (size - 1)

/-- Prelude.cpp:447-455 `touExpr`. -/
def tou (S : Smt) (size : Nat) (i : Int) : Int :=
  if i ≥ 0 ∧ i < intLimit size then i else smod S i (intLimit size)

/-- Prelude.cpp:457-464 `wrappedExpr` (function name from Naming.cpp:293 `getIntWrapFunc`). -/
def wrapped (S : Smt) (enc : Enc) (size : Nat) (e : Int) (isUnsigned : Bool) : Int :=
  match enc with
  | .wrapped => if isUnsigned then tou S size e else tos S size e
  | .unbounded => e

/-- Prelude.cpp:483-494 `$add`, `$sub`, `$mul`: unbounded operations (no wrapping of the result). -/
def iadd (a b : Int) : Int := a + b
def isub (a b : Int) : Int := a - b
def imul (a b : Int) : Int := a * b

/-- Prelude.cpp:465-469 `divExpr<SIGN>`. -/
def sdiv (S : Smt) (enc : Enc) (size : Nat) (a b : Int) : Int :=
  idiv S (wrapped S enc size a false) (wrapped S enc size b false)
def udiv (S : Smt) (enc : Enc) (size : Nat) (a b : Int) : Int :=
  idiv S (wrapped S enc size a true) (wrapped S enc size b true)

/-- Prelude.cpp:417-424 `uremExpr`. -/
def urem (S : Smt) (enc : Enc) (size : Nat) (a b : Int) : Int :=
  smod S (wrapped S enc size a true) (wrapped S enc size b true)

/-- Integer predicates, Prelude.cpp:697-722 table order. -/
inductive Pred where
  | eq | ne | ule | ult | uge | ugt | sle | slt | sge | sgt
deriving DecidableEq, Repr

/-- The SIGN template argument of each row of the table (Prelude.cpp:696-716);
`eq` and `ne` use `SIGN = false`. -/
def Pred.signed : Pred → Bool
  | .sle | .slt | .sge | .sgt => true
  | _ => false

/-- The Boogie operator of each row of the table. -/
def Pred.op : Pred → Int → Int → Bool
  | .eq, a, b => a == b
  | .ne, a, b => a != b
  | .ule, a, b | .sle, a, b => decide (a ≤ b)
  | .ult, a, b | .slt, a, b => decide (a < b)
  | .uge, a, b | .sge, a, b => decide (a ≥ b)
  | .ugt, a, b | .sgt, a, b => decide (a > b)

/-- Prelude.cpp:653-690 `intPredExpr<OP,SIGN>`: the `.bool` form. -/
def predBool (S : Smt) (enc : Enc) (p : Pred) (size : Nat) (a b : Int) : Bool :=
  p.op (wrapped S enc size a (!p.signed)) (wrapped S enc size b (!p.signed))

/-- Prelude.cpp:598-604 `predFunc`: `if $p.iN.bool(i1,i2) then 1 else 0`. -/
def pred (S : Smt) (enc : Enc) (p : Pred) (size : Nat) (a b : Int) : Int :=
  if predBool S enc p size a b then 1 else 0

/-- Prelude.cpp:381-392 `intMinMaxExpr<MIN,SIGN>`. -/
def minMax (S : Smt) (enc : Enc) (isMin sign : Bool) (size : Nat) (a b : Int) : Int :=
  let p : Pred := match isMin, sign with
    | true, true => .slt | false, true => .sgt | true, false => .ult | false, false => .ugt
  if predBool S enc p size a b then a else b

/-- Prelude.cpp:395-413 `sremExpr`. -/
def srem (S : Smt) (enc : Enc) (size : Nat) (a b : Int) : Int :=
  let dividend := wrapped S enc size a false
  let divisor := wrapped S enc size b false
  let mod := smod S dividend divisor
  if predBool S enc .ne size mod 0 && predBool S enc .slt size dividend 0
  then isub mod (minMax S enc false true size divisor (isub 0 divisor))
  else mod

/-- Prelude.cpp:776-815 `intTruncExpr`. -/
def trunc (S : Smt) (enc : Enc) (_size1 size2 : Nat) (a : Int) : Int := wrapped S enc size2 a true
/-- Prelude.cpp:817-880 `intExtExpr<SIGN>`. -/
def zext (S : Smt) (enc : Enc) (size1 _size2 : Nat) (a : Int) : Int := wrapped S enc size1 a true
def sext (S : Smt) (enc : Enc) (size1 _size2 : Nat) (a : Int) : Int := wrapped S enc size1 a false

/-- `APInt::getSExtValue` (LLVM): asserts that the value fits in 64 bits; the assertion failure is `none`. -/
def getSExtValue {w : Nat} (c : BitVec w) : Option Int :=
  if -(2:Int)^63 ≤ c.toInt ∧ c.toInt < (2:Int)^63 then some c.toInt else none

/-- SmackRep.cpp:627-648 the variable `neg` of `SmackRep::lit` (C++ `&&` and `?:` are lazy). -/
def litNeg {w : Nat} (isUnsigned isUnsignedInst : Bool) (c : BitVec w) : Option Bool :=
  if w > 1 then
    if isUnsigned then
      if isUnsignedInst then some false
      else (getSExtValue c).map (fun v => v == -1)
    else some (c.msb)
  else some false

/-- `APInt::abs` followed by `toString(10,false)`: the unsigned value of the absolute value. -/
def apAbs {w : Nat} (c : BitVec w) : BitVec w := if c.msb then -c else c

/-- SmackRep.cpp:627-648 `SmackRep::lit` in integer mode: the value of the printed term,
`$sub.iN(0, abs)` or the plain numeral. `none` is the assertion failure inside `getSExtValue`. -/
def litInt {w : Nat} (isUnsigned isUnsignedInst : Bool) (c : BitVec w) : Option Int :=
  (litNeg isUnsigned isUnsignedInst c).map fun neg =>
    if neg then isub 0 ((apAbs c).toNat : Int) else (c.toNat : Int)

/-- The same in bit-vector mode: `$sub.bvN(0bvN, abs bvN)` (SMT `bvsub`) or `c bvN`. -/
def litBv {w : Nat} (isUnsigned isUnsignedInst : Bool) (c : BitVec w) : Option (BitVec w) :=
  (litNeg isUnsigned isUnsignedInst c).map fun neg =>
    if neg then BitVec.ofNat w 0 - BitVec.ofNat w (apAbs c).toNat else BitVec.ofNat w c.toNat

/-- SmackRep.cpp:612-625 `integerLit(long long, width)`, integer mode. `std::abs` of the most negative
`long long` is undefined behaviour: `none`. -/
def integerLitInt (v : Int) : Option Int :=
  if v ≥ 0 then some v
  else if v = -(2:Int)^63 then none else some (isub 0 (v.natAbs : Int))

/-- SmackRep.cpp:612-625 `integerLit(long long, width)`, bit-vector mode. -/
def integerLitBv (w : Nat) (v : Int) : Option (BitVec w) :=
  if v ≥ 0 then some (BitVec.ofNat w v.natAbs)
  else if v = -(2:Int)^63 then none
  else some (BitVec.ofNat w 0 - BitVec.ofNat w v.natAbs)

/-- Integer-typed LLVM expressions, indexed by width.  SSA values are flattened into trees: a variable
stands for any value computed elsewhere (arguments, loads, calls, phis). The signedness flags that
`bop`, `cmp` and `select` pass to `expr` only influence how constants are printed and are carried by
the `lit` node. -/
inductive Expr : Nat → Type where
  | var (w : Nat) (n : Nat) : Expr w
  | lit {w : Nat} (isUnsigned isUnsignedInst : Bool) (c : BitVec w) : Expr w
  | add {w : Nat} (a b : Expr w) : Expr w
  | sub {w : Nat} (a b : Expr w) : Expr w
  | mul {w : Nat} (a b : Expr w) : Expr w
  | udiv {w : Nat} (a b : Expr w) : Expr w
  | sdiv {w : Nat} (a b : Expr w) : Expr w
  | urem {w : Nat} (a b : Expr w) : Expr w
  | srem {w : Nat} (a b : Expr w) : Expr w
  | minMax {w : Nat} (isMin sign : Bool) (a b : Expr w) : Expr w
  | trunc {w : Nat} (w' : Nat) (a : Expr w) : Expr w'
  | zext {w : Nat} (w' : Nat) (a : Expr w) : Expr w'
  | sext {w : Nat} (w' : Nat) (a : Expr w) : Expr w'
  | icmp {w : Nat} (p : Pred) (a b : Expr w) : Expr 1
  | select {w : Nat} (c : Expr 1) (a b : Expr w) : Expr w
  | logic1 (op : Logic) (a b : Expr 1) : Expr 1

/-- Value of the Boogie term generated for an expression (SmackRep.cpp `expr` 796-868, `bop` 913-948,
`cast` 878-898, `cmp` 963-984, `select` 994-1004) when program variable `n` holds the integer `ρ n`.
`none` is a failed assertion of the translator. `select` compares the condition with the literal 1
by Boogie equality (line 1003), without normalisation. -/
def Expr.evalInt (S : Smt) (enc : Enc) (ρ : Nat → Int) : {w : Nat} → Expr w → Option Int
  | _, .var _ n => some (ρ n)
  | _, .lit u ui c => litInt u ui c
  | _, .add a b => do return iadd (← a.evalInt S enc ρ) (← b.evalInt S enc ρ)
  | _, .sub a b => do return isub (← a.evalInt S enc ρ) (← b.evalInt S enc ρ)
  | _, .mul a b => do return imul (← a.evalInt S enc ρ) (← b.evalInt S enc ρ)
  | w, .udiv a b => do return IntOps.udiv S enc w (← a.evalInt S enc ρ) (← b.evalInt S enc ρ)
  | w, .sdiv a b => do return IntOps.sdiv S enc w (← a.evalInt S enc ρ) (← b.evalInt S enc ρ)
  | w, .urem a b => do return IntOps.urem S enc w (← a.evalInt S enc ρ) (← b.evalInt S enc ρ)
  | w, .srem a b => do return IntOps.srem S enc w (← a.evalInt S enc ρ) (← b.evalInt S enc ρ)
  | w, .minMax m s a b => do
      return IntOps.minMax S enc m s w (← a.evalInt S enc ρ) (← b.evalInt S enc ρ)
  | w', .trunc (w := w) _ a => do return IntOps.trunc S enc w w' (← a.evalInt S enc ρ)
  | w', .zext (w := w) _ a => do return IntOps.zext S enc w w' (← a.evalInt S enc ρ)
  | w', .sext (w := w) _ a => do return IntOps.sext S enc w w' (← a.evalInt S enc ρ)
  | _, .icmp (w := w) p a b => do
      return pred S enc p w (← a.evalInt S enc ρ) (← b.evalInt S enc ρ)
  | _, .select c a b => do
      let cv ← c.evalInt S enc ρ
      let av ← a.evalInt S enc ρ
      let bv ← b.evalInt S enc ρ
      return if cv = 1 then av else bv
  | _, .logic1 op a b => do return S.logic1 op (← a.evalInt S enc ρ) (← b.evalInt S enc ρ)

end Smack.IntOps
