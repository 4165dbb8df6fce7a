/-
Floating-point literals: `SmackRep::lit` on `ConstantFP` with --float
(lib/smack/SmackRep.cpp:651-706) and `FPLit::print` (lib/smack/BoogieAst.cpp:454-461).
-/

namespace Smack.FloatLit

/-- The four supported LLVM types. -/
inductive FpType where
  | half | float | double | x86_fp80
deriving DecidableEq, Repr

/-- SmackRep.cpp:655-668 `expSize`. -/
def FpType.expSize : FpType → Nat
  | .half => 5 | .float => 8 | .double => 11 | .x86_fp80 => 15
/-- SmackRep.cpp:655-668 `sigSize`. -/
def FpType.sigSize : FpType → Nat
  | .half => 11 | .float => 24 | .double => 53 | .x86_fp80 => 65

/-- What `FPLit::print` receives: a special value, or sign, hexadecimal digits before and after the dot
(as numbers 0-15; the characters `0-9A-F` are abstracted), and the decimal exponent text (as an integer).
The trailing `f<sigSize>e<expSize>` is `ss`, `es`. -/
inductive FpLit where
  | nan (ss es : Nat)
  | inf (neg : Bool) (ss es : Nat)
  | num (neg : Bool) (left right : List Nat) (expo : Int) (ss es : Nat)
deriving DecidableEq, Repr

/-- `APInt::toString(16, unsigned)`: hexadecimal digits without leading zeros, most significant first. -/
def hexDigits (n : Nat) : List Nat :=
  if _h : n < 16 then [n] else hexDigits (n / 16) ++ [n % 16]
termination_by n
decreasing_by omega

/-- SmackRep.cpp:669-706, generic in the sizes. All `APInt` operations are bit-vector operations of the
stated width; `int`/`unsigned` arithmetic on sizes is `Nat` (the shift amount `rightSize - sigSize + moveDecAsInt + 1`
is computed modulo 2^32 in C++; its mathematical value is never negative, so the subtraction is done last here). -/
def lit (expSize sigSize : Nat) (API : BitVec (expSize + sigSize)) : FpLit :=
  let exp : BitVec expSize := (API >>> (sigSize - 1)).setWidth expSize
  let sig : BitVec sigSize := (API.setWidth (sigSize - 1)).setWidth sigSize
  if exp = BitVec.allOnes expSize then
    if sig ≠ 0#sigSize then .nan sigSize expSize
    else if API.msb then .inf true sigSize expSize
    else .inf false sigSize expSize
  else
    let sig := if exp ≠ 0#expSize then sig ||| (1#sigSize <<< (sigSize - 1)) else sig
    let bias : BitVec expSize := BitVec.ofNat expSize (2 ^ (expSize - 1) - 1)
    let bias := if exp = 0#expSize then bias - 1#expSize else bias
    let moveDec : BitVec expSize := (exp - bias) &&& BitVec.ofNat expSize 3
    let moveDecAsInt : Nat := moveDec.toNat
    let finalExp : BitVec expSize := ((exp - bias) - moveDec).sshiftRight 2
    let leftSize := 4 * (moveDecAsInt / 4 + 1)
    let rightSize := 4 * ((sigSize - moveDecAsInt - 2) / 4 + 1)
    let sigW := leftSize + rightSize + 4
    let sig : BitVec sigW := sig.setWidth sigW <<< (rightSize + moveDecAsInt + 1 - sigSize)
    let sig := sig ||| (1#sigW <<< (sigW - 1))
    let hexSig := (hexDigits sig.toNat).drop 1
    .num API.msb (hexSig.take (leftSize / 4)) (hexSig.drop (leftSize / 4)) finalExp.toInt sigSize expSize

/-- `SmackRep::lit` on a `ConstantFP` of type `t` with bit pattern `API`. -/
def litOf (t : FpType) (API : BitVec (t.expSize + t.sigSize)) : FpLit := lit t.expSize t.sigSize API

end Smack.FloatLit
