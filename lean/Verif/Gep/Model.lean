import Verif.IntOps.Model

/-
Address computations: merging of nested `getelementptr` (lib/utils/MergeGEP.cpp), their translation
(lib/smack/SmackRep.cpp:544-794) and pointer/integer conversions (SmackRep.cpp:571-597, Prelude.cpp:1007-1045,
1183-1202).
-/

set_option linter.constructorNameAsVariable false

namespace Smack.Gep

open IntOps (Smt Enc)

mutual
/-- Sized LLVM types with the sizes `DataLayout` gives them: `scalar store alloc` (integers, floats, pointers, vectors)
with `getTypeStoreSize` and `getTypeAllocSize`; `struct size fields` with the layout's offsets. -/
inductive Ty where
  | scalar (store alloc : Nat)
  | array (n : Nat) (elem : Ty)
  | struct (size : Nat) (fields : Fields)
inductive Fields where
  | nil
  | cons (off : Nat) (t : Ty) (rest : Fields)
end

deriving instance DecidableEq for Ty, Fields

def Fields.get? : Fields → Nat → Option (Nat × Ty)
  | .nil, _ => none
  | .cons o t _, 0 => some (o, t)
  | .cons _ _ r, i + 1 => r.get? i

/-- `DataLayout::getTypeAllocSize`. -/
def Ty.alloc : Ty → Nat
  | .scalar _ a => a
  | .array n e => n * e.alloc
  | .struct s _ => s

/-- `DataLayout::getTypeStoreSize`: differs from the alloc size for scalars only. -/
def Ty.store : Ty → Nat
  | .scalar s _ => s
  | .array n e => n * e.alloc
  | .struct s _ => s

/-- An index operand: a `ConstantInt`, or another value. `bits` is its LLVM value; `rep` is the Boogie integer
that stands for it when integers are encoded as mathematical integers. -/
structure Idx where
  w : Nat
  bits : BitVec w
  isConst : Bool
  rep : Int

/-! ### MergeGEP -/

/-- MergeGEP.cpp:93-97: is the last index of the source a sequential one? The first index always is. -/
def endsSeq : Ty → List Idx → Bool → Bool
  | _, [], b => b
  | .array _ e, _ :: is, _ => endsSeq e is true
  | .struct _ fs, i :: is, _ =>
    match fs.get? i.bits.toNat with
    | some (_, t) => endsSeq t is false
    | none => false
  | .scalar _ _, _ :: _, _ => false

def srcEndsSeq (t : Ty) : List Idx → Bool
  | [] => false
  | _ :: is => endsSeq t is true

/-- `V == Constant::getNullValue(V->getType())`. -/
def Idx.isNull (i : Idx) : Bool := i.isConst && i.bits == 0#i.w

/-- MergeGEP.cpp:104-123: the sum of two indices; `none` when the widths differ (nothing is changed). The new `add` is
an instruction even for two constants. Its Boogie integer is `$add` of the two, SmackRep.cpp:913. -/
def mergeSum (so go : Idx) : Option Idx :=
  if so.isNull then some go
  else if go.isNull then some so
  else if h : so.w = go.w then
    some { w := go.w, bits := so.bits.cast h + go.bits, isConst := false, rep := IntOps.iadd so.rep go.rep }
  else none

/-- MergeGEP.cpp:80-152 `simplifyGEP` applied to `gep (gep T, P, src...), idx...`: the index list of the merged
`getelementptr` on `T`, or `none` if nothing changes. Not modelled: the `inbounds` flag (ignored by the translation)
and the early return of lines 85-90, which only postpones the merge. -/
def merge (t : Ty) (src idx : List Idx) : Option (List Idx) :=
  match idx with
  | [] => none
  | go :: rest =>
    if srcEndsSeq t src then
      match src.getLast? with
      | none => none
      | some so =>
        match mergeSum so go with
        | some sum => some (src.dropLast ++ sum :: rest)
        | none => none
    else if go.isNull && src.length + 1 != 1 then some (src ++ rest)
    else none

/-! ### ptrArith -/

/-- One entry of `args` in SmackRep.cpp:742-758: a struct field or a sequential index with the element type. -/
inductive Arg where
  | field (off : Nat)
  | elem (i : Idx) (t : Ty)

/-- `gep_type_iterator` over the indices after the first. -/
def argsRest : Ty → List Idx → Option (List Arg)
  | _, [] => some []
  | .array _ e, i :: is => (argsRest e is).map (.elem i e :: ·)
  | .struct _ fs, i :: is =>
    match fs.get? i.bits.toNat with
    | some (o, t) => (argsRest t is).map (.field o :: ·)
    | none => none
  | .scalar _ _, _ :: _ => none

def args (t : Ty) : List Idx → Option (List Arg)
  | [] => some []
  | i :: is => (argsRest t is).map (.elem i t :: ·)

/-- SmackRep.cpp:248-250 `storageSize` and 256-258 `offset` return `unsigned`. -/
def storageSize (t : Ty) : Nat := t.store % 2^32
def fieldOffset (off : Nat) : Nat := off % 2^32

/-- SmackRep.cpp:776-783: the assertion that the product, computed by `APInt` at the width of the index, has at most 64
significant bits, and then `getSExtValue` (which asserts the same of the index). -/
def constIdx (i : Idx) (t : Ty) : Option Int :=
  let result := i.bits * BitVec.ofNat i.w (storageSize t)
  if -(2:Int)^63 ≤ result.toInt ∧ result.toInt < (2:Int)^63 then IntOps.getSExtValue i.bits else none

/-- SmackRep.cpp:544-553 `pa(base, long long, unsigned)`: the index as a pointer-sized literal, mathematical pointers.
`none` is a failed assertion or the undefined behaviour of `std::abs(LLONG_MIN)`. -/
def constIdxInt (i : Idx) (t : Ty) : Option Int :=
  match constIdx i t with
  | none => none
  | some v =>
    if v ≥ 0 then some v
    else if v = -(2:Int)^63 then none
    else some (IntOps.isub 0 (v.natAbs : Int))

/-- The same with bit-vector pointers. Literals too large for `P` bits, which Boogie would reject, are reduced. -/
def constIdxBv (P : Nat) (i : Idx) (t : Ty) : Option (BitVec P) :=
  match constIdx i t with
  | none => none
  | some v =>
    if v ≥ 0 then some (BitVec.ofNat P v.natAbs)
    else if v = -(2:Int)^63 then none
    else some (BitVec.ofNat P 0 - BitVec.ofNat P v.natAbs)

/-- How integers and pointers are encoded (SmackOptions `BitPrecise`, `BitPrecisePointers`,
`WrappedIntegerEncoding`). -/
inductive Mode where
  /-- integers and pointers are mathematical integers -/
  | int (enc : Enc)
  /-- bit-vector integers, mathematical pointers -/
  | bvInt
  /-- bit-vector pointers, mathematical integers -/
  | intBv (enc : Enc)
  /-- both bit vectors -/
  | bv
deriving DecidableEq, Repr

/-- Prelude.cpp:1011-1045 `$int2bv.P`, `$bv2uint.P`. -/
def int2bv (P : Nat) (i : Int) : BitVec P := BitVec.ofInt P i
def bv2uint {P : Nat} (b : BitVec P) : Int := b.toNat

/-- Prelude.cpp:1021-1028: the literal subtracted; other pointer widths are `llvm_unreachable`. -/
def bv2intOffset (P : Nat) : Option Int :=
  if P = 32 then some 4294967296
  else if P = 64 then some 18446744073709551616
  else none

/-- Prelude.cpp:1017-1044 `$bv2int.P`: with bit-vector integers and mathematical pointers the signed value, else SMT
`bv2nat`. -/
def bv2int {P : Nat} (m : Mode) (b : BitVec P) : Option Int :=
  match m with
  | .bvInt => (bv2intOffset P).map fun o => if b.slt 0#P then IntOps.isub (bv2uint b) o else bv2uint b
  | _ => some (bv2uint b)

/-- SmackRep.cpp:581-589 `integerToPointer` of an integer, before the bit conversion. -/
def widenInt (S : Smt) (enc : Enc) (P w : Nat) (e : Int) : Int :=
  if w < P then IntOps.zext S enc w P e else if w > P then IntOps.trunc S enc w P e else e

/-- The same on bit vectors: `$zext`, `$trunc` (`i[P:0]`), or nothing. -/
def widenBv (P : Nat) {w : Nat} (b : BitVec w) : BitVec P :=
  if w < P then b.zeroExtend P else if w > P then b.truncate P else b.setWidth P

/-- `integerToPointer` of a dynamic index when pointers are mathematical. -/
def idxInt (S : Smt) (m : Mode) (P : Nat) (i : Idx) : Option Int :=
  match m with
  | .int enc => some (widenInt S enc P i.w i.rep)
  | _ => bv2int m (widenBv P i.bits)

/-- `integerToPointer` of a dynamic index when pointers are bit vectors. -/
def idxBv (S : Smt) (m : Mode) (P : Nat) (i : Idx) : BitVec P :=
  match m with
  | .intBv enc => int2bv P (widenInt S enc P i.w i.rep)
  | _ => widenBv P i.bits

/-- SmackRep.cpp:760-794 `ptrArith`, mathematical pointers (`$add.ref`, `$mul.ref`, `$sub.ref` are the unbounded
operations, Prelude.cpp:1243-1260). -/
def ptrArithInt (S : Smt) (m : Mode) (P : Nat) : Int → List Arg → Option Int
  | e, [] => some e
  | e, .field off :: rest => ptrArithInt S m P (IntOps.iadd e (IntOps.imul (fieldOffset off : Int) 1)) rest
  | e, .elem i t :: rest =>
    match (if i.isConst then constIdxInt i t else idxInt S m P i) with
    | some v => ptrArithInt S m P (IntOps.iadd e (IntOps.imul v (storageSize t : Int))) rest
    | none => none

/-- The same with bit-vector pointers (`bvadd`, `bvmul`, `bvsub`). -/
def ptrArithBv (S : Smt) (m : Mode) (P : Nat) : BitVec P → List Arg → Option (BitVec P)
  | e, [] => some e
  | e, .field off :: rest => ptrArithBv S m P (e + BitVec.ofNat P (fieldOffset off) * BitVec.ofNat P 1) rest
  | e, .elem i t :: rest =>
    match (if i.isConst then constIdxBv P i t else some (idxBv S m P i)) with
    | some v => ptrArithBv S m P (e + v * BitVec.ofNat P (storageSize t)) rest
    | none => none

/-! ### Pointer/integer conversions -/

/-- SmackRep.cpp:571-579 `pointerToInteger` to width `w`, mathematical pointers and integers. -/
def p2iInt (S : Smt) (enc : Enc) (P w : Nat) (p : Int) : Int :=
  if P < w then IntOps.zext S enc P w p else if P > w then IntOps.trunc S enc P w p else p

/-- SmackRep.cpp:571-579, both bit vectors (or after `bitConversion`). -/
def p2iBv {P : Nat} (w : Nat) (p : BitVec P) : BitVec w :=
  if P < w then p.zeroExtend w else if P > w then p.truncate w else p.setWidth w

/-- Bit-vector integers, mathematical pointers. -/
def p2iBvInt (P w : Nat) (p : Int) : BitVec w := p2iBv w (int2bv P p)
def i2pBvInt (P : Nat) {w : Nat} (b : BitVec w) : Option Int := bv2int .bvInt (widenBv P b)

/-- Mathematical integers, bit-vector pointers. -/
def p2iIntBv (S : Smt) (enc : Enc) {P : Nat} (w : Nat) (p : BitVec P) : Option Int :=
  (bv2int (.intBv enc) p).map (p2iInt S enc P w)
def i2pIntBv (S : Smt) (enc : Enc) (P w : Nat) (e : Int) : BitVec P := int2bv P (widenInt S enc P w e)

/-! ### Pointer predicates -/

/-- The ten predicates of Prelude.cpp:1204-1213. -/
inductive PPred where
  | eq | ne | ugt | uge | ult | ule | sgt | sge | slt | sle
deriving DecidableEq, Repr

/-- Prelude.cpp:1207-1228, mathematical pointers: the plain operator of the table. -/
def ptrPredInt : PPred → Int → Int → Bool
  | .eq, a, b => a == b
  | .ne, a, b => a != b
  | .ugt, a, b => decide (a > b)
  | .uge, a, b => decide (a ≥ b)
  | .ult, a, b => decide (a < b)
  | .ule, a, b => decide (a ≤ b)
  | .sgt, a, b => decide (a > b)
  | .sge, a, b => decide (a ≥ b)
  | .slt, a, b => decide (a < b)
  | .sle, a, b => decide (a ≤ b)

/-- Prelude.cpp:1207-1228, bit-vector pointers: the SMT-LIB predicate of the same name. -/
def ptrPredBv {P : Nat} : PPred → BitVec P → BitVec P → Bool
  | .eq, a, b => a == b
  | .ne, a, b => a != b
  | .ugt, a, b => b.ult a
  | .uge, a, b => b.ule a
  | .ult, a, b => a.ult b
  | .ule, a, b => a.ule b
  | .sgt, a, b => b.slt a
  | .sge, a, b => b.sle a
  | .slt, a, b => a.slt b
  | .sle, a, b => a.sle b

end Smack.Gep
