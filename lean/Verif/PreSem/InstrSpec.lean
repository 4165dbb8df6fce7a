/-
The meaning of the statements emitted for instructions, and what LLVM's instructions do, in bit-vector mode. Nothing here refers to
the prelude.
-/
import Verif.PreSem.Spec
import Verif.PreSem.TextSpec
import Verif.Intrinsics.Spec

namespace Smack.PreSem
open PreludeTy

variable {U : Type}

/-! ## Statements -/

/-- The state with a new value for a variable. -/
def set (ρ : String → Val U) (x : String) (a : Val U) : String → Val U := fun y => if y = x then a else ρ y

/-- The executions of a statement. An assumption that does not hold blocks; `havoc` gives any value. (The call of `$alloc` is not
among them, see `Alloc`.) -/
inductive Step (I : Interp U) : (String → Val U) → Emit.St → (String → Val U) → Prop
  | assign {ρ x e} : Step I ρ (.assign x e) (set ρ x (eval I ρ e))
  | assume {ρ e} : eval I ρ e = .bool true → Step I ρ (.assume e) ρ
  | havoc {ρ x} (v : Val U) : Step I ρ (.havoc x) (set ρ x v)

inductive Steps (I : Interp U) : (String → Val U) → List Emit.St → (String → Val U) → Prop
  | nil {ρ} : Steps I ρ [] ρ
  | cons {ρ s ρ₁ ss ρ'} : Step I ρ s ρ₁ → Steps I ρ₁ ss ρ' → Steps I ρ (s :: ss) ρ'

/-! ## Instructions with an integer result -/

/-- The operations of `atomicrmw` on machine words. -/
def Rmw {w : Nat} (x y z : BitVec w) : Emit.RmwOp → Prop
  | .add => z = BitVec.ofInt w (x.toInt + y.toInt)
  | .sub => z = BitVec.ofInt w (x.toInt - y.toInt)
  | .and => ∀ i < w, z.getLsbD i = (x.getLsbD i && y.getLsbD i)
  | .nand => ∀ i < w, z.getLsbD i = !(x.getLsbD i && y.getLsbD i)
  | .or => ∀ i < w, z.getLsbD i = (x.getLsbD i || y.getLsbD i)
  | .xor => ∀ i < w, z.getLsbD i = (x.getLsbD i != y.getLsbD i)
  | .max => (z = x ∨ z = y) ∧ x.toInt ≤ z.toInt ∧ y.toInt ≤ z.toInt
  | .min => (z = x ∨ z = y) ∧ z.toInt ≤ x.toInt ∧ z.toInt ≤ y.toInt
  | .umax => (z = x ∨ z = y) ∧ x.toNat ≤ z.toNat ∧ y.toNat ≤ z.toNat
  | .umin => (z = x ∨ z = y) ∧ z.toNat ≤ x.toNat ∧ z.toNat ≤ y.toNat

/-- The integer that `atomicrmw` writes; without an operation (`xchg`), the operand. -/
def RmwNew {w : Nat} (x y z : BitVec w) : Option Emit.RmwOp → Prop
  | none => z = y
  | some o => Rmw x y z o

/-- `Res μ i x w a`: LLVM gives the `w`-bit result `a` to the register `x` of instruction `i`. No result is given where LLVM's is
undefined, or poison because of `is_zero_undef`. -/
inductive Res (μ : String → Option ((w : Nat) × BitVec w)) : Emit.Instr → String → (w : Nat) → BitVec w → Prop
  | bin {x op nsw l r o w a b c} : intOp op = some o → Sem μ l w a → Sem μ r w b → E2EBv.llvmBin o a b = some c → Res μ (.bin x op nsw l r) x w c
  | cmp {x p l r q w a b c} : icmpOf p = some q → Sem μ l w a → Sem μ r w b → (c = 1#1 ↔ E2EBv.llvmPred q a b) → Res μ (.cmp x p l r) x 1 c
  | trunc {x v n a k} : Sem μ v n a → k < n → Res μ (.cast x .trunc v (.int k)) x k (BitVec.ofNat k a.toNat)
  | zext {x v n a k} : Sem μ v n a → n < k → Res μ (.cast x .zext v (.int k)) x k (BitVec.ofNat k a.toNat)
  | sext {x v n a k} : Sem μ v n a → n < k → Res μ (.cast x .sext v (.int k)) x k (BitVec.ofInt k a.toInt)
  | sel {x c p q w a b s} : Sem μ c 1 s → Sem μ p w a → Sem μ q w b → Res μ (.sel x c p q) x w (if s = 1#1 then a else b)
  | expect {x v w a} : Sem μ v w a → Res μ (.expect x v) x w a
  | bitreverse {x v w a b} : Sem μ v w a → Intrinsics.IsBitReverse a b → Res μ (.bitreverse x v) x w b
  | bswap {x v w a b} : Sem μ v w a → w % 16 = 0 → Intrinsics.IsByteSwap a b → Res μ (.bswap x v) x w b
  | ctlz {x v z w a u n} : Sem μ v w a → Sem μ z 1 u → ¬ (u = 1#1 ∧ a = 0#w) → Intrinsics.IsClz a n → Res μ (.ctlz x v z) x w (BitVec.ofNat w n)
  | cttz {x v z w a u n} : Sem μ v w a → Sem μ z 1 u → ¬ (u = 1#1 ∧ a = 0#w) → Intrinsics.IsCtz a n → Res μ (.cttz x v z) x w (BitVec.ofNat w n)
  | ctpop {x v w a} : Sem μ v w a → 1 < w → Res μ (.ctpop x v) x w (BitVec.ofNat w (Intrinsics.popcount a))

/-- The operands of an instruction. -/
def operands : Emit.Instr → List Emit.Val
  | .bin _ _ _ l r | .cmp _ _ l r | .ctlz _ l r | .cttz _ l r => [l, r]
  | .cast _ _ v _ | .expect _ v | .bitreverse _ v | .bswap _ v | .ctpop _ v | .llvmAssume v | .br v => [v]
  | .sel _ c a b => [c, a, b]
  | _ => []

/-! ## Memory -/

/-- An address as an index of a memory map. -/
def key (m : Mode) (z : Int) : Sc U := if m.bpp then .bv m.ptr (BitVec.ofInt m.ptr z) else .int z

/-- The contents of a region with elements of `w` bits: one element, a map of bytes, or a map of elements. -/
def Contents (m : Mode) (r : Emit.Reg) (w : Nat) (V : Val U) : Prop :=
  if r.singleton then ∃ a, V = .bv w a
  else ∃ f, V = .map f ∧ if r.bytewise then ∀ z, ∃ b, f (key m z) = .bv 8 b else ∀ z, ∃ b, f (key m z) = .bv w b

/-- The region contains the `w`-bit integer `a` at address `z`. In memory, the least significant byte comes first; an integer with less
than 8 bits is in the lower bits of a byte. -/
def Holds (m : Mode) (r : Emit.Reg) (w : Nat) (V : Val U) (z : Int) (a : BitVec w) : Prop :=
  if r.singleton then V = .bv w a
  else ∃ f, V = .map f ∧
    if r.bytewise then
      if w < 8 then ∃ b, f (key m z) = .bv 8 b ∧ ∀ i < w, b.getLsbD i = a.getLsbD i
      else ∀ i < w / 8, f (key m (z + i)) = .bv 8 (a.extractLsb' (8 * i) 8)
    else f (key m z) = .bv w a

/-- Nothing has changed except at the `n` addresses from `z`. -/
def Frame (m : Mode) (V V' : Val U) (z : Int) (n : Nat) : Prop :=
  ∃ f f', V = .map f ∧ V' = .map f' ∧ ∀ y, (∀ i < n, key (U := U) m y ≠ key m (z + i)) → f' (key m y) = f (key m y)

/-- The number of addresses taken by an integer of `w` bits. -/
def span (r : Emit.Reg) (w : Nat) : Nat := if r.bytewise then (w + 7) / 8 else 1

/-- The state agrees with the registers that the operands use: `μ` gives the integers, `α` the addresses. (As in LLVM, a register is not
an operand of the instruction that defines it, so `μ` and `α` need not have a value for the register of the result.) -/
structure Agree (m : Mode) (I : Interp U) (μ : String → Option ((w : Nat) × BitVec w)) (α : String → Option Int) (ρ : String → Val U) : Prop where
  int : ∀ x w a, μ x = some ⟨w, a⟩ → ρ x = .bv w a
  ptr : ∀ x z, α x = some z → ρ x = .sc (key m z)
  null : ρ "$0.ref" = I.const "$0.ref"

/-- An access to a `w`-bit integer at address `z`: a region accessed by bytes has integers of whole bytes or less than one. -/
structure At (m : Mode) (μ : String → Option ((w : Nat) × BitVec w)) (α : String → Option Int) (ρ : String → Val U) (a : Emit.Acc)
    (w : Nat) (z : Int) : Prop where
  ty : a.ty = .int w
  width : w ∈ Emit.widths
  bytes : a.reg.bytewise = true → w % 8 = 0 ∨ w < 8
  adr : Adr μ α m.ptr a.ptr z
  sup : a.ptr.All Emit.Val.sup
  contents : Contents m a.reg w (ρ a.mem)

end Smack.PreSem
