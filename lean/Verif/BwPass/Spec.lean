/-
Specification: what shifts and bitwise operations mean in LLVM, what the new instructions mean, and the instances at which the
two agree.
-/
import Verif.BwPass.Model
import Verif.Bitwise.Spec
import Verif.Cfg.Spec

namespace Smack.BwPass.Spec

open Smack.Cfg Smack.Cfg.Spec Smack.Bitwise

variable {M : Type}

/-- Operand values of an operation, with the constant put back in its place. -/
def operands {w : Nat} : Option (BitVec w) → Bool → List Val → Option (List Val)
  | some c, true, [v] => some [.word w c, v]
  | some c, false, [v] => some [v, .word w c]
  | none, _, vs => some vs
  | _, _, _ => none

/-- The result of a shift (LLVM language reference): a shift by the width or more has no defined value, any value is possible. -/
def ShiftResult (s : Shift) {w : Nat} (x a r : BitVec w) : Prop :=
  a.toNat < w → match s with
    | .shl => r = BitVec.ofNat w (x.toNat * 2 ^ a.toNat)
    | .lshr => r = BitVec.ofNat w (x.toNat / 2 ^ a.toNat)
    | .ashr => r = BitVec.ofInt w (x.toInt / 2 ^ a.toNat)

/-- The meaning of a function in LLVM (operations that are not bitwise, and those on vectors, as given by `P`). -/
def llvm (P : Params Val M) (tab : Table) : Params Val M :=
  { P with sem := fun k args m r => match tab k with
    | .shift s w a => ∃ x y v : BitVec w, operands a false args = some [.word w x, .word w y] ∧ ShiftResult s x y v ∧
        r = some (.word w v, m)
    | .and w c => ∃ x y : BitVec w, operands c true args = some [.word w x, .word w y] ∧ r = some (.word w (x &&& y), m)
    | .or w => ∃ x y : BitVec w, args = [.word w x, .word w y] ∧ r = some (.word w (x ||| y), m)
    | _ => P.sem k args m r }

/-- The library functions (share/smack/lib/smack.c:57-1405): the role of a call, the width of the type `char`, `short`, `int`,
`long` of the parameters and the result, and the function on machine integers. -/
inductive Library : Nat → Nat → (Int → Int → Int) → Prop where
  | and8 : Library 4 8 (and8 conv)
  | and16 : Library 5 16 (and16 conv)
  | and32 : Library 6 32 (and32 conv)
  | and64 : Library 7 64 (and64 conv)
  | or8 : Library 8 8 (or8 conv)
  | or16 : Library 9 16 (or16 conv)
  | or32 : Library 10 32 (or32 conv)
  | or64 : Library 11 64 (or64 conv)

/-- The meaning of the new instructions: multiplication, signed division and unsigned remainder (no execution continues after
undefined behaviour), and the calls of the library functions. -/
def newSem (role : Nat) (args : List Val) (v : Val) : Prop :=
  (∃ (w : Nat) (x c r : BitVec w), args = [.word w x, .word w c] ∧ v = .word w r ∧
    ((role = 1 ∧ (Rewritten.mul c).eval x = some r) ∨ (role = 2 ∧ (Rewritten.sdiv c).eval x = some r) ∨
     (role = 3 ∧ (Rewritten.urem c).eval x = some r))) ∨
  (∃ (w : Nat) (f : Int → Int → Int) (x y : BitVec w), Library role w f ∧ args = [.word w x, .word w y] ∧
    v = .word w (BitVec.ofInt w (f x.toInt y.toInt)))

/-- The meaning of a function after the pass. -/
def after (P : Params Val M) (tab : Table) : Params Val M :=
  { P with sem := fun n args m r =>
      if n % 16 = 0 then (llvm P tab).sem (n / 16) args m r
      else ∃ v, newSem (n % 16) args v ∧ r = some (v, m) }

/-- A bit of an operand that the library functions for `or` do not lose: bit 31, or a bit above another one that is set. -/
def Kept {w : Nat} (x : BitVec w) (i : Nat) : Prop := x.getLsbD i = true ∧ (i = 31 ∨ ∃ j, j < i ∧ x.getLsbD j = true)

/-- The instances at which the pass changes the value. -/
def Differs (tab : Table) (k : Nat) (args : List Val) : Prop :=
  match tab k with
  | .shift s w (some a) => ∃ x : BitVec w, args = [.word w x] ∧ (a.toNat < w → match s with
      | .shl => False
      | .lshr => x.toInt < 0 ∧ a.toNat ≠ 0 ∧ (a.toNat = w - 1 → x.toInt ≠ -(2:Int) ^ (w - 1))
      | .ashr => x.toInt < 0 ∧ (a.toNat < w - 1 → ¬ (2:Int) ^ a.toNat ∣ x.toInt))
  | .and w c => (w = 32 ∨ w = 64) ∧ (∀ b j, c = some b → j < w → b.toNat ≠ 2 ^ j - 1) ∧
      ∃ x y : BitVec w, operands c true args = some [.word w x, .word w y] ∧ x &&& y ≠ 0#w
  | .or w => (w = 8 ∨ w = 16 ∨ w = 32 ∨ w = 64) ∧ ∃ x y : BitVec w, args = [.word w x, .word w y] ∧
      ¬ ∀ i, i < w → ((x.getLsbD i = true ∨ y.getLsbD i = true) ↔ (Kept x (min i 31) ∨ Kept y (min i 31)))
  | _ => False

/-- The meaning of a function in LLVM that stops, as with a failure, at the first instance at which the pass changes the value. -/
def watched (P : Params Val M) (tab : Table) : Params Val M :=
  { P with sem := fun k args m r => (Differs tab k args ∧ r = none) ∨ (¬ Differs tab k args ∧ (llvm P tab).sem k args m r) }

/-- Failing operations keep their operands. -/
def renamed : Outcome Val M → Outcome Val M
  | .ret v m => .ret v m
  | .fail k args m => .fail (16 * k) args m

/-- What is assumed of a function: the operands of the bitwise instructions are as many as there are, and a shift by a constant is one of
more than one bit. -/
structure Shape (tab : Table) (fn : Fn Val) : Prop where
  shift : ∀ (b : Nat) blk i s w (a : Option (BitVec w)), fn[b]? = some blk → i ∈ blk.body → tab i.op = .shift s w a →
    a.isSome = true → 2 ≤ w ∧ i.args.length = 1
  and : ∀ (b : Nat) blk i w (c : Option (BitVec w)), fn[b]? = some blk → i ∈ blk.body → tab i.op = .and w c →
    1 ≤ w ∧ i.args.length = if c.isSome then 1 else 2
  or : ∀ (b : Nat) blk i w, fn[b]? = some blk → i ∈ blk.body → tab i.op = .or w → i.args.length = 2

/-- The pass can handle the function: there is no bitwise operation of vectors, and the module has the library functions. -/
structure Handled (tab : Table) (present : Lib → Bool) (fn : Fn Val) : Prop where
  vector : ∀ (b : Nat) blk i, fn[b]? = some blk → i ∈ blk.body → tab i.op ≠ .vector
  and : ∀ (b : Nat) blk i w (c : Option (BitVec w)), fn[b]? = some blk → i ∈ blk.body → tab i.op = .and w c →
    w ∈ [8, 16, 32, 64] → (∀ b j, c = some b → j < w → b.toNat ≠ 2 ^ j - 1) → present (.and w) = true
  or : ∀ (b : Nat) blk i w, fn[b]? = some blk → i ∈ blk.body → tab i.op = .or w → w ∈ [8, 16, 32, 64] → present (.or w) = true

/-- The instructions that stay as they are: shifts by an amount that is not constant, bitwise operations of a width without a library
function (except an `and` with a constant `2^j - 1` on the left), and everything that is not bitwise. -/
def Stays : Op → Prop
  | .shift _ _ a => a = none
  | .and w c => w ∉ [8, 16, 32, 64] ∧ ∀ b j, c = some b → j < w → b.toNat ≠ 2 ^ j - 1
  | .or w => w ∉ [8, 16, 32, 64]
  | _ => True

/-- An execution in LLVM reaches an instance at which the pass changes the value. -/
def Reaches (P : Params Val M) (tab : Table) (fn : Fn Val) (ρ : Env Val) (m : M) : Prop :=
  ∃ k args m₁, Differs tab k args ∧ Run (watched P tab) fn 0 ρ m (.fail k args m₁)

end Smack.BwPass.Spec
