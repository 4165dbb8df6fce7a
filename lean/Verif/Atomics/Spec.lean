/-
The LLVM language reference for `atomicrmw` and `cmpxchg` on machine words. Nothing here refers to the Boogie functions.
-/
import Verif.Atomics.Model

namespace Smack.Atomics

/-- `z` is the value an integer `atomicrmw` stores for the old value `x` and the operand `y`. -/
def Op.Spec {w : Nat} : Op → BitVec w → BitVec w → BitVec w → Prop
  | .xchg, _, y, z => z = y
  | .add, x, y, z => z = BitVec.ofInt w (x.toInt + y.toInt)
  | .sub, x, y, z => z = BitVec.ofInt w (x.toInt - y.toInt)
  | .and, x, y, z => ∀ i < w, z.getLsbD i = (x.getLsbD i && y.getLsbD i)
  | .nand, x, y, z => ∀ i < w, z.getLsbD i = !(x.getLsbD i && y.getLsbD i)
  | .or, x, y, z => ∀ i < w, z.getLsbD i = (x.getLsbD i || y.getLsbD i)
  | .xor, x, y, z => ∀ i < w, z.getLsbD i = (x.getLsbD i != y.getLsbD i)
  | .max, x, y, z => (z = x ∨ z = y) ∧ x.toInt ≤ z.toInt ∧ y.toInt ≤ z.toInt
  | .min, x, y, z => (z = x ∨ z = y) ∧ z.toInt ≤ x.toInt ∧ z.toInt ≤ y.toInt
  | .umax, x, y, z => (z = x ∨ z = y) ∧ x.toNat ≤ z.toNat ∧ y.toNat ≤ z.toNat
  | .umin, x, y, z => (z = x ∨ z = y) ∧ z.toNat ≤ x.toNat ∧ z.toNat ≤ y.toNat
  | .fadd, _, _, _ | .fsub, _, _, _ => False

/-- The integer operations. -/
def Op.isInt : Op → Prop
  | .fadd | .fsub => False
  | _ => True

/-- The operations on the bits. -/
def Op.bitwise : Op → Prop
  | .and | .nand | .or | .xor => True
  | _ => False

/-- In unbounded mode, both values are in the range the operation compares in. -/
def Op.InRange (w : Nat) (a b : Int) : Op → Prop
  | .max | .min => (-(2:Int)^(w-1) ≤ a ∧ a < 2^(w-1)) ∧ (-(2:Int)^(w-1) ≤ b ∧ b < 2^(w-1))
  | .umax | .umin => (0 ≤ a ∧ a < 2^w) ∧ (0 ≤ b ∧ b < 2^w)
  | _ => True

/-- The value `cmpxchg` leaves in memory. -/
def cmpxchgNew {w : Nat} (old cmp swp : BitVec w) : BitVec w := if old = cmp then swp else old

/-- Reading and writing a region behaves like memory. -/
structure Lawful {M A V : Type} (R : Region M A V) (p : A) : Prop where
  same : ∀ m v, R.ld (R.st m p v) p = v
  other : ∀ m v q, R.Apart p q → R.ld (R.st m p v) q = R.ld m q

/-- An operand does not mention variable `r`: an instruction does not use its own result. -/
def Indep {V B : Type} (r : Nat) (f : (Nat → V) → B) : Prop := ∀ ρ v, f (upd ρ r v) = f ρ

/-- The observable effect: the result variable holds the old value, memory at `p` holds `new`, everything else is
unchanged. -/
structure Effect {M A V : Type} (R : Region M A V) (s s' : State M V) (res : Nat) (p : A) (new : V) : Prop where
  result : s'.regs res = R.ld s.mem p
  others : ∀ r, r ≠ res → s'.regs r = s.regs r
  stored : R.ld s'.mem p = new
  frame : ∀ q, R.Apart p q → R.ld s'.mem q = R.ld s.mem q

end Smack.Atomics
