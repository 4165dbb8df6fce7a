/-
LLVM semantics of integer expressions on machine words (LLVM language reference), used to state
the properties of the integer encodings. Nothing here refers to the Boogie functions of the model.
-/
import Verif.IntOps.Model

namespace Smack.IntOps

/-- LLVM `icmp`. -/
def icmp {w : Nat} (p : Pred) (a b : BitVec w) : Bool :=
  match p with
  | .eq => a == b
  | .ne => a != b
  | .ule => decide (a.toNat ≤ b.toNat)
  | .ult => decide (a.toNat < b.toNat)
  | .uge => decide (b.toNat ≤ a.toNat)
  | .ugt => decide (b.toNat < a.toNat)
  | .sle => decide (a.toInt ≤ b.toInt)
  | .slt => decide (a.toInt < b.toInt)
  | .sge => decide (b.toInt ≤ a.toInt)
  | .sgt => decide (b.toInt < a.toInt)

/-- LLVM value of an expression; `none` is undefined behaviour (division by zero, signed division overflow)
in any evaluated subexpression. Program variable `n` used at width `w` holds `m n w`. -/
def Expr.evalBv (m : Nat → (w : Nat) → BitVec w) : {w : Nat} → Expr w → Option (BitVec w)
  | _, .var w n => some (m n w)
  | _, .lit _ _ c => some c
  | _, .add a b => do return (← a.evalBv m) + (← b.evalBv m)
  | _, .sub a b => do return (← a.evalBv m) - (← b.evalBv m)
  | _, .mul a b => do return (← a.evalBv m) * (← b.evalBv m)
  | w, .udiv a b => do
      let x ← a.evalBv m; let y ← b.evalBv m
      if y.toNat = 0 then none else return BitVec.ofNat w (x.toNat / y.toNat)
  | w, .sdiv a b => do
      let x ← a.evalBv m; let y ← b.evalBv m
      if y.toInt = 0 ∨ (x.toInt = -(2:Int)^(w-1) ∧ y.toInt = -1) then none
      else return BitVec.ofInt w (x.toInt.tdiv y.toInt)
  | w, .urem a b => do
      let x ← a.evalBv m; let y ← b.evalBv m
      if y.toNat = 0 then none else return BitVec.ofNat w (x.toNat % y.toNat)
  | w, .srem a b => do
      let x ← a.evalBv m; let y ← b.evalBv m
      if y.toInt = 0 ∨ (x.toInt = -(2:Int)^(w-1) ∧ y.toInt = -1) then none
      else return BitVec.ofInt w (x.toInt.tmod y.toInt)
  | _, .minMax isMin sign a b => do
      let x ← a.evalBv m; let y ← b.evalBv m
      let less : Bool := if sign then decide (x.toInt < y.toInt) else decide (x.toNat < y.toNat)
      return if isMin then (if less then x else y) else (if less then y else x)
  | w', .trunc _ a => do return BitVec.ofNat w' (← a.evalBv m).toNat
  | w', .zext _ a => do return BitVec.ofNat w' (← a.evalBv m).toNat
  | w', .sext _ a => do return BitVec.ofInt w' (← a.evalBv m).toInt
  | _, .icmp p a b => do return BitVec.ofBool (IntOps.icmp p (← a.evalBv m) (← b.evalBv m))
  | _, .select c a b => do
      let cv ← c.evalBv m
      let av ← a.evalBv m
      let bv ← b.evalBv m
      return if cv = 1#1 then av else bv
  | _, .logic1 op a b => do
      let x ← a.evalBv m; let y ← b.evalBv m
      return match op with
        | .and => x &&& y
        | .or => x ||| y
        | .xor => x ^^^ y

/-- All widths occurring in the expression are at least one (LLVM has no `i0`), truncations narrow and
extensions widen (LLVM verifier rules). -/
def Expr.WellTyped : {w : Nat} → Expr w → Prop
  | w, .var _ _ => 1 ≤ w
  | w, .lit _ _ _ => 1 ≤ w
  | _, .add a b | _, .sub a b | _, .mul a b | _, .udiv a b | _, .sdiv a b | _, .urem a b
  | _, .srem a b | _, .minMax _ _ a b => a.WellTyped ∧ b.WellTyped
  | w', .trunc (w := w) _ a => 1 ≤ w' ∧ w' < w ∧ a.WellTyped
  | w', .zext (w := w) _ a => w < w' ∧ a.WellTyped
  | w', .sext (w := w) _ a => w < w' ∧ a.WellTyped
  | _, .icmp _ a b => a.WellTyped ∧ b.WellTyped
  | _, .select c a b => c.WellTyped ∧ a.WellTyped ∧ b.WellTyped
  | _, .logic1 _ a b => a.WellTyped ∧ b.WellTyped

/-- The expression is a truth value in the integer encoding: a comparison, a truncation, a constant,
a variable that holds 0 or 1, or a choice between or a logical combination of such expressions. -/
def Expr.Truth (ρ : Nat → Int) : {w : Nat} → Expr w → Prop
  | _, .icmp _ _ _ => True
  | w, .trunc _ _ => w = 1
  | w, .lit _ _ _ => w = 1
  | w, .var _ n => w = 1 ∧ (ρ n = 0 ∨ ρ n = 1)
  | w, .minMax _ _ a b => w = 1 ∧ a.Truth ρ ∧ b.Truth ρ
  | w, .select _ a b => w = 1 ∧ a.Truth ρ ∧ b.Truth ρ
  | _, .logic1 _ a b => a.Truth ρ ∧ b.Truth ρ
  | _, _ => False

/-- Every `select` condition and every operand of a logical operation is a truth value. -/
def Expr.NormalCond (ρ : Nat → Int) : {w : Nat} → Expr w → Prop
  | _, .var _ _ => True
  | _, .lit _ _ _ => True
  | _, .add a b | _, .sub a b | _, .mul a b | _, .udiv a b | _, .sdiv a b | _, .urem a b
  | _, .srem a b | _, .minMax _ _ a b => a.NormalCond ρ ∧ b.NormalCond ρ
  | _, .trunc _ a => a.NormalCond ρ
  | _, .zext _ a => a.NormalCond ρ
  | _, .sext _ a => a.NormalCond ρ
  | _, .icmp _ a b => a.NormalCond ρ ∧ b.NormalCond ρ
  | _, .select c a b => c.NormalCond ρ ∧ a.NormalCond ρ ∧ b.NormalCond ρ ∧ c.Truth ρ
  | _, .logic1 _ a b => a.NormalCond ρ ∧ b.NormalCond ρ ∧ a.Truth ρ ∧ b.Truth ρ

/-- Every signed division in the expression has a non-negative dividend or is exact. -/
def Expr.SdivExact (m : Nat → (w : Nat) → BitVec w) : {w : Nat} → Expr w → Prop
  | _, .var _ _ => True
  | _, .lit _ _ _ => True
  | _, .add a b | _, .sub a b | _, .mul a b | _, .udiv a b | _, .urem a b
  | _, .srem a b | _, .minMax _ _ a b => a.SdivExact m ∧ b.SdivExact m
  | _, .sdiv a b => a.SdivExact m ∧ b.SdivExact m ∧
      ∀ x y, a.evalBv m = some x → b.evalBv m = some y → 0 ≤ x.toInt ∨ y.toInt ∣ x.toInt
  | _, .trunc _ a => a.SdivExact m
  | _, .zext _ a => a.SdivExact m
  | _, .sext _ a => a.SdivExact m
  | _, .icmp _ a b => a.SdivExact m ∧ b.SdivExact m
  | _, .select c a b => c.SdivExact m ∧ a.SdivExact m ∧ b.SdivExact m
  | _, .logic1 _ a b => a.SdivExact m ∧ b.SdivExact m

/-- The natural reading of a machine word as an integer: truth values (`i1`) are 0/1, everything else is signed. -/
def reading {w : Nat} (x : BitVec w) : Int := if w = 1 then (x.toNat : Int) else x.toInt

/-- `v` is a legal natural reading at width `w`. -/
def InRange (w : Nat) (v : Int) : Prop :=
  if w = 1 then 0 ≤ v ∧ v ≤ 1 else -(2:Int)^(w-1) ≤ v ∧ v < (2:Int)^(w-1)

instance (w : Nat) (v : Int) : Decidable (InRange w v) := by
  unfold InRange; infer_instance

/-- Evaluation over the mathematical integers that stops (`none`) as soon as an intermediate result
leaves the range of its type, an unsigned operation sees a negative number, a signed division is inexact
on a negative dividend, a negative constant is used in an unsigned context, or a set truth value is sign-extended.
An expression for which it yields a value is "free of overflow". -/
def Expr.exact (m : Nat → (w : Nat) → BitVec w) : {w : Nat} → Expr w → Option Int
  | w, .var _ n => some (reading (m n w))
  | _, .lit isUnsigned _ c =>
      if 0 ≤ reading c ∨ isUnsigned = false then some (reading c) else none
  | w, .add a b => do
      let x ← a.exact m; let y ← b.exact m
      if InRange w (x + y) then return x + y else none
  | w, .sub a b => do
      let x ← a.exact m; let y ← b.exact m
      if InRange w (x - y) then return x - y else none
  | w, .mul a b => do
      let x ← a.exact m; let y ← b.exact m
      if InRange w (x * y) then return x * y else none
  | _, .udiv a b => do
      let x ← a.exact m; let y ← b.exact m
      if 0 ≤ x ∧ 0 < y then return x / y else none
  | w, .sdiv a b => do
      let x ← a.exact m; let y ← b.exact m
      if w ≠ 1 ∧ y ≠ 0 ∧ (0 ≤ x ∨ y ∣ x) ∧ InRange w (x.tdiv y) then return x.tdiv y else none
  | _, .urem a b => do
      let x ← a.exact m; let y ← b.exact m
      if 0 ≤ x ∧ 0 < y then return x % y else none
  | w, .srem a b => do
      let x ← a.exact m; let y ← b.exact m
      if w ≠ 1 ∧ y ≠ 0 ∧ InRange w (x.tdiv y) then return x.tmod y else none
  | w, .minMax isMin sign a b => do
      let x ← a.exact m; let y ← b.exact m
      if (if sign then w ≠ 1 else 0 ≤ x ∧ 0 ≤ y) then
        return if isMin then min x y else max x y
      else none
  | w', .trunc _ a => do
      let x ← a.exact m
      if InRange w' x then return x else none
  | _, .zext _ a => do
      let x ← a.exact m
      if 0 ≤ x then return x else none
  | _, .sext (w := w) _ a => do
      let x ← a.exact m
      if w ≠ 1 ∨ x = 0 then return x else none
  | _, .icmp (w := w) p a b => do
      let x ← a.exact m; let y ← b.exact m
      match p with
      | .eq => return if x = y then 1 else 0
      | .ne => return if x ≠ y then 1 else 0
      | .ult => if 0 ≤ x ∧ 0 ≤ y then return if x < y then 1 else 0 else none
      | .ule => if 0 ≤ x ∧ 0 ≤ y then return if x ≤ y then 1 else 0 else none
      | .ugt => if 0 ≤ x ∧ 0 ≤ y then return if y < x then 1 else 0 else none
      | .uge => if 0 ≤ x ∧ 0 ≤ y then return if y ≤ x then 1 else 0 else none
      | .slt => if w ≠ 1 then return if x < y then 1 else 0 else none
      | .sle => if w ≠ 1 then return if x ≤ y then 1 else 0 else none
      | .sgt => if w ≠ 1 then return if y < x then 1 else 0 else none
      | .sge => if w ≠ 1 then return if y ≤ x then 1 else 0 else none
  | _, .select c a b => do
      let cv ← c.exact m
      let av ← a.exact m
      let bv ← b.exact m
      return if cv = 1 then av else bv
  | _, .logic1 op a b => do
      let x ← a.exact m; let y ← b.exact m
      return match op with
        | .and => if x = 1 ∧ y = 1 then 1 else 0
        | .or => if x = 1 ∨ y = 1 then 1 else 0
        | .xor => if x = y then 0 else 1

/-- Every variable occurrence holds the natural reading of the machine word. -/
def Expr.Reads (m : Nat → (w : Nat) → BitVec w) (ρ : Nat → Int) : {w : Nat} → Expr w → Prop
  | w, .var _ n => ρ n = reading (m n w)
  | _, .lit _ _ _ => True
  | _, .add a b | _, .sub a b | _, .mul a b | _, .udiv a b | _, .sdiv a b | _, .urem a b
  | _, .srem a b | _, .minMax _ _ a b => a.Reads m ρ ∧ b.Reads m ρ
  | _, .trunc _ a => a.Reads m ρ
  | _, .zext _ a => a.Reads m ρ
  | _, .sext _ a => a.Reads m ρ
  | _, .icmp _ a b => a.Reads m ρ ∧ b.Reads m ρ
  | _, .select c a b => c.Reads m ρ ∧ a.Reads m ρ ∧ b.Reads m ρ
  | _, .logic1 _ a b => a.Reads m ρ ∧ b.Reads m ρ

/-- The constants of the expression are at most 64 bits wide. -/
def Expr.NarrowLits : {w : Nat} → Expr w → Prop
  | _, .var _ _ => True
  | w, .lit _ _ _ => w ≤ 64
  | _, .add a b | _, .sub a b | _, .mul a b | _, .udiv a b | _, .sdiv a b | _, .urem a b
  | _, .srem a b | _, .minMax _ _ a b => a.NarrowLits ∧ b.NarrowLits
  | _, .trunc _ a => a.NarrowLits
  | _, .zext _ a => a.NarrowLits
  | _, .sext _ a => a.NarrowLits
  | _, .icmp _ a b => a.NarrowLits ∧ b.NarrowLits
  | _, .select c a b => c.NarrowLits ∧ a.NarrowLits ∧ b.NarrowLits
  | _, .logic1 _ a b => a.NarrowLits ∧ b.NarrowLits

/-- The expression contains no signed division. -/
def Expr.NoSdiv : {w : Nat} → Expr w → Prop
  | _, .var _ _ => True
  | _, .lit _ _ _ => True
  | _, .add a b | _, .sub a b | _, .mul a b | _, .udiv a b | _, .urem a b
  | _, .srem a b | _, .minMax _ _ a b => a.NoSdiv ∧ b.NoSdiv
  | _, .sdiv _ _ => False
  | _, .trunc _ a => a.NoSdiv
  | _, .zext _ a => a.NoSdiv
  | _, .sext _ a => a.NoSdiv
  | _, .icmp _ a b => a.NoSdiv ∧ b.NoSdiv
  | _, .select c a b => c.NoSdiv ∧ a.NoSdiv ∧ b.NoSdiv
  | _, .logic1 _ a b => a.NoSdiv ∧ b.NoSdiv

end Smack.IntOps
