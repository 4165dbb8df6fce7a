/-
Model of the pass RewriteBitwiseOps on a whole function (lib/smack/RewriteBitwiseOps.cpp:46-158 `runOnModule`).

Functions are those of `Cfg`: blocks with abstract operations. A table says what each operation number is: a shift, a bitwise
logical operation, or anything else. The constant operand the pass asks for (the amount of a shift, the first operand of an `and`)
is part of the operation; all other operands are operands of the instruction. Every instruction the pass replaces is replaced by
one instruction with the same result; operation `16 * k + j` of the result is the new instruction in role `j` made for operation
`k`, and `16 * k` is the operation `k` itself.
-/
import Verif.Cfg.Model
import Verif.Bitwise.Model

namespace Smack.BwPass

open Smack.Cfg Smack.Bitwise

/-- Values: integers and all other values. -/
inductive Val where
  | word (w : Nat) (b : BitVec w)
  | other (n : Nat)
deriving DecidableEq

/-- What an operation number stands for. -/
inductive Op where
  /-- `shl`, `lshr`, `ashr` of integers; the amount if it is a `ConstantInt` -/
  | shift (s : Shift) (w : Nat) (amount : Option (BitVec w))
  /-- `and` of integers; the first operand if it is a `ConstantInt` -/
  | and (w : Nat) (left : Option (BitVec w))
  /-- `or` of integers -/
  | or (w : Nat)
  /-- `and` or `or` of vectors -/
  | vector
  /-- everything else: `xor`, shifts of vectors, and all instructions that are not bitwise -/
  | other

abbrev Table := Nat → Op

/-- The library functions that the pass looks up: `__SMACK_andN` and `__SMACK_orN`. -/
inductive Lib where
  | and (w : Nat)
  | or (w : Nat)
deriving DecidableEq

/-- The roles of new instructions. -/
def roleMul : Nat := 1
def roleSDiv : Nat := 2
def roleURem : Nat := 3
/-- RewriteBitwiseOps.cpp:105-116: the role of the call of `__SMACK_andN`, for the widths that have one. -/
def roleAnd (w : Nat) : Option Nat :=
  if w == 64 then some 7 else if w == 32 then some 6 else if w == 16 then some 5 else if w == 8 then some 4 else none

/-- RewriteBitwiseOps.cpp:132-143: the role of the call of `__SMACK_orN`. -/
def roleOr (w : Nat) : Option Nat :=
  if w == 64 then some 11 else if w == 32 then some 10 else if w == 16 then some 9 else if w == 8 then some 8 else none

/-- The new instruction for a replacement with a constant second operand. -/
def constInstr {w : Nat} (k : Nat) (dst : Option Var) (lhs : Opd Val) : Rewritten w → Instr Val
  | .mul c => ⟨dst, 16 * k + roleMul, [lhs, .const (.word w c)]⟩
  | .sdiv c => ⟨dst, 16 * k + roleSDiv, [lhs, .const (.word w c)]⟩
  | .urem c => ⟨dst, 16 * k + roleURem, [lhs, .const (.word w c)]⟩

/-- An instruction that the pass leaves alone. -/
def keep (i : Instr Val) : Instr Val := ⟨i.dst, 16 * i.op, i.args⟩

/-- RewriteBitwiseOps.cpp:117-122, 144-149: the call of the library function, if there is one for the width. `none`: the module does
not contain it (an assertion). -/
def libCall (present : Lib → Bool) (f : Lib) (role : Option Nat) (i : Instr Val) (args : List (Opd Val)) : Option (Instr Val) :=
  match role with
  | some j => if present f then some ⟨i.dst, 16 * i.op + j, args⟩ else none
  | none => some (keep i)

/-- One instruction (RewriteBitwiseOps.cpp:53-153). `none`: an assertion of the pass or of LLVM fails; for an `and` or `or` of
vectors it is the one in `cast<IntegerType>` (26-30 `getOpBitWidth`). -/
def rewrite (tab : Table) (present : Lib → Bool) (i : Instr Val) : Option (Instr Val) :=
  match tab i.op, i.args with
  | .shift s _ (some amount), [lhs] => some (constInstr i.op i.dst lhs (rewriteShift s amount))
  | .and w (some c), [rhs] =>
    match rewriteAnd c with
    | some r => some (constInstr i.op i.dst rhs r)
    | none => libCall present (.and w) (roleAnd w) i [.const (.word w c), rhs]
  | .and w none, [x, y] => libCall present (.and w) (roleAnd w) i [x, y]
  | .or w, [x, y] => libCall present (.or w) (roleOr w) i [x, y]
  | .vector, _ => none
  | _, _ => some (keep i)

def passBlock (tab : Table) (present : Lib → Bool) (b : Block Val) : Option (Block Val) := do
  return { b with body := ← b.body.mapM (rewrite tab present) }

/-- The pass on one function (RewriteBitwiseOps.cpp:50-158); functions with a SMACK name are left alone (51-52). -/
def pass (tab : Table) (present : Lib → Bool) (smackName : Bool) (fn : Fn Val) : Option (Fn Val) :=
  if smackName then some (fn.map fun b => { b with body := b.body.map keep })
  else fn.mapM (passBlock tab present)

end Smack.BwPass
