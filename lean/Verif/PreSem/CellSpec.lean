/-
What memory is to contain: cells of any type, and the bytes of pointers and floating-point values.
-/
import Verif.PreSem.InstrSpec

namespace Smack.PreSem
open PreludeTy FloatLit

variable {U : Type}

/-- Width, number of exponent bits, and precision of the floating-point formats of LLVM. -/
def format : FK → Nat × Nat × Nat
  | .half => (16, 5, 11)
  | .single => (32, 8, 24)
  | .double => (64, 11, 53)
  | .longdouble => (80, 15, 65)

/-- The type of the values of an LLVM type. -/
def valTy (m : Mode) : Emit.LTy → Ty
  | .int n => if m.bp then .bv n else .int
  | .ptr | .agg => if m.bpp then .bv m.ptr else .int
  | .fp k => if m.flt then .fp (format k).2.2 (format k).2.1 else .opaque .ufloat

/-- The type of pointers as indices of memory maps. -/
def keyTy (m : Mode) : Ty := if m.bpp then .bv m.ptr else .int

/-- A region all whose accesses have type `t`: one value, or one value at each address. -/
def Typed (m : Mode) (r : Emit.Reg) (t : Emit.LTy) (V : Val U) : Prop :=
  V.Is (if r.singleton then valTy m t else .map (keyTy m) (valTy m t))

/-- The region is accessed byte by byte. -/
def Bytewise (m : Mode) (r : Emit.Reg) (V : Val U) : Prop :=
  r.singleton = false ∧ r.bytewise = true ∧ ∃ f, V = .map f ∧ ∀ z, ∃ b, f (key m z) = .bv 8 b

/-- The bytes from address `z`, the least significant first, are those of `a`. -/
def Bytes (m : Mode) {w : Nat} (V : Val U) (z : Int) (a : BitVec w) : Prop :=
  ∃ f, V = .map f ∧ ∀ i < w / 8, f (key m (z + i)) = .bv 8 (a.extractLsb' (8 * i) 8)

/-- The floating-point value with a bit pattern. -/
def decoded (k : FK) (a : BitVec (format k).1) : Val U := .fp (format k).2.2 (format k).2.1 (ieee (format k).2.1 (format k).2.2 (a.setWidth _))

end Smack.PreSem
