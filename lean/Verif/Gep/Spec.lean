import Verif.Gep.Model

namespace Smack.Gep

/-- The offset LLVM's language reference gives to a `getelementptr`: struct indices select fields, other indices are
signed and scaled by the size of the element type. `sz` is the notion of size; LLVM's is `Ty.alloc`. -/
def offRest (sz : Ty → Nat) : Ty → List Idx → Option (Int × Ty)
  | t, [] => some (0, t)
  | .array _ e, i :: is => (offRest sz e is).map fun (o, t') => (i.bits.toInt * sz e + o, t')
  | .struct _ fs, i :: is =>
    match fs.get? i.bits.toNat with
    | some (o, t) => (offRest sz t is).map fun (o', t') => ((o : Int) + o', t')
    | none => none
  | .scalar _ _, _ :: _ => none

def offset (sz : Ty → Nat) (t : Ty) : List Idx → Option (Int × Ty)
  | [] => some (0, t)
  | i :: is => (offRest sz t is).map fun (o, t') => (i.bits.toInt * sz t + o, t')

/-- LLVM's address with `P`-bit pointers. -/
def addr (P : Nat) (base : BitVec P) (o : Int) : BitVec P := base + BitVec.ofInt P o

/-- The Boogie integer stands for the LLVM value. -/
def Idx.RepOk (i : Idx) : Prop := BitVec.ofInt i.w i.rep = i.bits

/-- The sum of two indices does not overflow, or wraps at the pointer width. -/
def SumOk (P : Nat) (so go : Idx) : Prop :=
  so.isNull = true ∨ go.isNull = true ∨ P ≤ go.w ∨
    (-(2:Int)^(go.w - 1) ≤ so.bits.toInt + go.bits.toInt ∧ so.bits.toInt + go.bits.toInt < (2:Int)^(go.w - 1))

/-- The sizes SMACK uses along the path are LLVM's: no padding inside elements, nothing of 4 GiB or more. -/
def SizesOkRest : Ty → List Idx → Prop
  | _, [] => True
  | .array _ e, _ :: is => e.store = e.alloc ∧ e.alloc < 2^32 ∧ SizesOkRest e is
  | .struct _ fs, i :: is =>
    match fs.get? i.bits.toNat with
    | some (o, t) => o < 2^32 ∧ SizesOkRest t is
    | none => False
  | .scalar _ _, _ :: _ => False

def SizesOk (t : Ty) (is : List Idx) : Prop := t.store = t.alloc ∧ t.alloc < 2^32 ∧ SizesOkRest t is.tail

/-- A constant index the assertions accept, and whose absolute value exists. -/
def Idx.ConstOk (i : Idx) (t : Ty) : Prop :=
  -(2:Int)^63 < i.bits.toInt ∧ i.bits.toInt < (2:Int)^63 ∧
    (i.w ≤ 64 ∨ (-(2:Int)^63 ≤ i.bits.toInt * t.alloc ∧ i.bits.toInt * t.alloc < (2:Int)^63))

/-- When a dynamic index denotes its signed value as a mathematical pointer. -/
def Idx.DynInt (m : Mode) (P : Nat) (i : Idx) : Prop :=
  match m with
  | .int .unbounded => i.rep = i.bits.toInt
  | .int .wrapped => i.RepOk ∧ ((i.w = P ∧ i.rep = i.bits.toInt) ∨
      (i.w ≠ P ∧ 0 ≤ i.bits.toInt ∧ i.bits.toInt < (2:Int)^P))
  | .bvInt => (P = 32 ∨ P = 64) ∧ ((i.w < P ∧ 0 ≤ i.bits.toInt) ∨
      (P ≤ i.w ∧ -(2:Int)^(P-1) ≤ i.bits.toInt ∧ i.bits.toInt < (2:Int)^(P-1)))
  | _ => False

/-- When a dynamic index denotes its signed value as a bit-vector pointer. -/
def Idx.DynBv (m : Mode) (P : Nat) (i : Idx) : Prop :=
  match m with
  | .bv => P ≤ i.w ∨ 0 ≤ i.bits.toInt
  | .intBv .unbounded => i.RepOk ∧ (P ≤ i.w ∨ i.rep = i.bits.toInt)
  | .intBv .wrapped => i.RepOk ∧ (P ≤ i.w ∨ 0 ≤ i.bits.toInt)
  | _ => False

/-- Every sequential index along the path satisfies `Q` with its element type. -/
def AllIdx (Q : Idx → Ty → Prop) : List Arg → Prop
  | [] => True
  | .field _ :: r => AllIdx Q r
  | .elem i t :: r => Q i t ∧ AllIdx Q r

/-- LLVM's `icmp` on `P`-bit addresses. -/
def icmpPtr {P : Nat} (c : PPred) (a b : BitVec P) : Prop :=
  match c with
  | .eq => a = b
  | .ne => a ≠ b
  | .ugt => b.toNat < a.toNat
  | .uge => b.toNat ≤ a.toNat
  | .ult => a.toNat < b.toNat
  | .ule => a.toNat ≤ b.toNat
  | .sgt => b.toInt < a.toInt
  | .sge => b.toInt ≤ a.toInt
  | .slt => a.toInt < b.toInt
  | .sle => a.toInt ≤ b.toInt

def PPred.isUnsigned : PPred → Bool
  | .ugt | .uge | .ult | .ule => true
  | _ => false

end Smack.Gep
