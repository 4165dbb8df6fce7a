/-
Specification: what the overflow intrinsics, `extractvalue` and the UBSan handlers mean with and without overflow checking.
-/
import Verif.OvfPass.Model
import Verif.Overflow.Spec
import Verif.Cfg.Spec

namespace Smack.OvfPass.Spec

open Smack.Cfg Smack.Cfg.Spec Smack.Overflow

variable {M : Type}

/-- What an overflow intrinsic computes (LLVM language reference): the mathematical result reduced to the width, and whether it is
representable. -/
def Intrinsic (op : Overflow.Op) (s : Bool) (bits : Nat) (args : List Val) (fits : Bool) (r : Val) : Prop :=
  ∃ x y : BitVec bits, args = [.word bits x, .word bits y] ∧
    (fits = true ↔ Fits bits s (op.apply (number s x) (number s y))) ∧
    r = .pair bits (BitVec.ofInt bits (op.apply (number s x) (number s y))) (!fits)

/-- `extractvalue` on the pair. -/
def component : List Nat → Val → Option Val
  | [0], .pair w b _ => some (.word w b)
  | [1], .pair _ _ f => some (.word 1 (BitVec.ofBool f))
  | _, _ => none

/-- The meaning of a function in LLVM (UBSan handlers and all other operations as given by `P`). -/
def llvm (P : Params Val M) (tab : Table) : Params Val M :=
  { P with sem := fun k args m r => match tab k with
    | .ovf op s bits => ∃ fits v, Intrinsic op s bits args fits v ∧ r = some (v, m)
    | .extract idx => match args with
      | [a] => match component idx a with
        | some v => r = some (v, m)
        | none => P.sem k args m r
      | _ => P.sem k args m r
    | _ => P.sem k args m r }

/-- The meaning that is to be verified. With checking, an intrinsic whose result is not representable is an error; a call of a
UBSan handler is an error in a checked function and, when overflow checking is on, ends the path in every other function. -/
def required (P : Params Val M) (tab : Table) (overflow checked : Bool) : Params Val M :=
  { P with sem := fun k args m r => match tab k with
    | .ovf op s bits => ∃ fits v, Intrinsic op s bits args fits v ∧
        r = if overflow && checked && !fits then none else some (v, m)
    | .ubsan => if overflow then checked = true ∧ r = none else P.sem k args m r
    | _ => (llvm P tab).sem k args m r }

/-- The meaning of the function after the pass: operation `16 * k` is operation `k`, the others are the new instructions. -/
def after (P : Params Val M) (tab : Table) : Params Val M :=
  { P with sem := fun n args m r =>
      if n % 16 = 0 then (llvm P tab).sem (n / 16) args m r
      else ∃ v, newStep (tab (n / 16)) (n % 16) args = some v ∧ r = v.map (fun v => (v, m)) }

/-- Outcomes that correspond: the same return value and memory, the same failing operation, or, for an error found by a check, the
failure of the call of `__SMACK_check_overflow` with argument 1 that was made for the operation. -/
inductive SameOutcome (tab : Table) (overflow : Bool) : Outcome Val M → Outcome Val M → Prop where
  | ret (v m) : SameOutcome tab overflow (.ret v m) (.ret v m)
  | fail (k args m) : (∀ op s bits, tab k ≠ .ovf op s bits) → (tab k = .ubsan → overflow = false) →
      SameOutcome tab overflow (.fail k args m) (.fail (16 * k) args m)
  | check (k args m) : overflow = true → ((∃ op s bits, tab k = .ovf op s bits) ∨ tab k = .ubsan) →
      SameOutcome tab overflow (.fail k args m) (.fail (16 * k + 8) [.word 32 1#32] m)

/-- What is assumed of a function besides SSA form. -/
structure Shape (tab : Table) (base : Nat) (fn : Fn Val) : Prop where
  /-- calls of intrinsics have a destination and two operands, their width is not 0 -/
  ovf : ∀ (b : Nat) blk i op s bits, fn[b]? = some blk → i ∈ blk.body → tab i.op = .ovf op s bits →
    (∃ d x y, i.dst = some d ∧ i.args = [x, y]) ∧ 1 ≤ bits
  /-- calls of UBSan handlers and `extractvalue`s have a number -/
  numbered : ∀ (b : Nat) blk i, fn[b]? = some blk → i ∈ blk.body → (tab i.op = .ubsan ∨ ∃ idx, tab i.op = .extract idx) →
    ∃ d, i.dst = some d
  /-- the numbers from `base` on are not in use -/
  dstLt : ∀ x d, DefIn fn x d → x < base
  argLt : ∀ (b : Nat) blk i, fn[b]? = some blk → i ∈ blk.body → ∀ o ∈ i.args, OpdIs (· < base) o
  termLt : ∀ (b : Nat) blk, fn[b]? = some blk → ∀ o ∈ Term.uses blk.term, OpdIs (· < base) o
  phiLt : ∀ (b : Nat) blk, fn[b]? = some blk → ∀ p ∈ blk.phis, ∀ q ∈ p.inc, OpdIs (· < base) q.2

/-- The pass can handle the function: the result of an intrinsic is used by `extractvalue` instructions with the index 0 or the
index 1 only. -/
structure Handled (tab : Table) (fn : Fn Val) : Prop where
  body : ∀ (b : Nat) blk i, fn[b]? = some blk → i ∈ blk.body → ∀ d, Opd.var d ∈ i.args →
    (∃ (b' : Nat) (blk' : Block Val) (j : Instr Val), fn[b']? = some blk' ∧ j ∈ blk'.body ∧ j.dst = some d ∧
      ∃ op s bits, tab j.op = .ovf op s bits) → (tab i.op = .extract [0] ∨ tab i.op = .extract [1]) ∧ i.args = [.var d]
  phi : ∀ (b : Nat) blk, fn[b]? = some blk → ∀ p ∈ blk.phis, ∀ q ∈ p.inc, ∀ d, q.2 = .var d →
    ∀ (b' : Nat) (blk' : Block Val) (j : Instr Val), fn[b']? = some blk' → j ∈ blk'.body → j.dst = some d →
      ∀ op s bits, tab j.op ≠ .ovf op s bits
  term : ∀ (b : Nat) blk, fn[b]? = some blk → ∀ d, Opd.var d ∈ Term.uses blk.term →
    ∀ (b' : Nat) (blk' : Block Val) (j : Instr Val), fn[b']? = some blk' → j ∈ blk'.body → j.dst = some d →
      ∀ op s bits, tab j.op ≠ .ovf op s bits

end Smack.OvfPass.Spec
