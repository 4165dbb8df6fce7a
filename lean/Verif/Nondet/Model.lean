import Verif.IntOps.Model

/-
Model of the `__VERIFIER_nondet_T` functions (share/smack/lib/smack.c:1415-1596) after translation. `__SMACK_nondet_T`
has no body: its value is any Boogie integer (any bit-vector in bit-precise mode). The conditions are those that clang -O0
(share/smack/frontend.py:111) emits for the C expressions: `char` and `short` operands are promoted to i32 by `sext` / `zext`
and compared as signed i32, the others are compared at their width. `__VERIFIER_assume` keeps the executions in which the
condition holds. Not modelled: LLVM simplifications between clang and the translation; the floating-point functions.
-/

namespace Smack.Nondet

open Smack.IntOps

/-- The form of a body. -/
inductive Shape where
  /-- smack.c:1415-1419: `x >= MIN && x <= MAX`, promoted -/
  | sPromoted (w : Nat)
  /-- smack.c:1427-1431: `x >= 0 && x <= MAX`, promoted -/
  | uPromoted (w : Nat)
  /-- smack.c:1468-1472: `x >= MIN && x <= MAX` -/
  | sDirect (w : Nat)
  /-- smack.c:1480-1487: `min == 0 && max >= MAX && max <= MAX`, then `x >= min && x <= max` -/
  | uDirect (w : Nat)
  /-- declared in smack.h, but without a body -/
  | undefined (w : Nat)
deriving DecidableEq, Repr

def Shape.width : Shape → Nat
  | .sPromoted w | .uPromoted w | .sDirect w | .uDirect w | .undefined w => w

/-- Can `x` be returned, with integers? The literals are printed by `SmackRep::cmp` with the signedness of the predicate
(SmackRep.cpp:973-984, `litInt`): `c` below is the value of the constant. -/
def returnsInt (S : Smt) (enc : Enc) : Shape → Int → Prop
  | .sPromoted w, x =>
    predBool S enc .sge 32 (sext S enc w 32 x) (-2 ^ (w - 1)) = true ∧
    predBool S enc .sle 32 (sext S enc w 32 x) (2 ^ (w - 1) - 1) = true
  | .uPromoted w, x =>
    predBool S enc .sge 32 (zext S enc w 32 x) 0 = true ∧
    predBool S enc .sle 32 (zext S enc w 32 x) (2 ^ w - 1) = true
  | .sDirect w, x =>
    predBool S enc .sge w x (-2 ^ (w - 1)) = true ∧ predBool S enc .sle w x (2 ^ (w - 1) - 1) = true
  | .uDirect w, x =>
    ∃ min max : Int, predBool S enc .eq w min 0 = true ∧ predBool S enc .uge w max (2 ^ w - 1) = true ∧
      predBool S enc .ule w max (2 ^ w - 1) = true ∧ predBool S enc .uge w x min = true ∧ predBool S enc .ule w x max = true
  | .undefined _, _ => True

/-- The bit-vector comparisons used (Prelude.cpp, `bvPred`: bvsge, bvsle, bvuge, bvule). -/
def returnsBv : (s : Shape) → BitVec s.width → Prop
  | .sPromoted w, x =>
    (BitVec.ofInt 32 (-2 ^ (w - 1))).sle (x.signExtend 32) = true ∧
    (x.signExtend 32).sle (BitVec.ofInt 32 (2 ^ (w - 1) - 1)) = true
  | .uPromoted w, x =>
    (0 : BitVec 32).sle (x.setWidth 32) = true ∧ (x.setWidth 32).sle (BitVec.ofInt 32 (2 ^ w - 1)) = true
  | .sDirect w, x =>
    (BitVec.ofInt w (-2 ^ (w - 1))).sle x = true ∧ x.sle (BitVec.ofInt w (2 ^ (w - 1) - 1)) = true
  | .uDirect w, x =>
    ∃ min max : BitVec w, min = 0 ∧ (BitVec.allOnes w).ule max = true ∧ max.ule (BitVec.allOnes w) = true ∧
      min.ule x = true ∧ x.ule max = true
  | .undefined _, _ => True

/-- The functions of smack.c:1415-1573 by the words of the type in their name; `L` is the width of `long`.
`__VERIFIER_nondet_short_int` is declared (smack.h:114) and never defined. -/
def table (L : Nat) : List (List String × Shape) :=
  [(["char"], .sPromoted 8), (["signed", "char"], .sPromoted 8), (["unsigned", "char"], .uPromoted 8),
   (["short"], .sPromoted 16), (["short", "int"], .undefined 16), (["signed", "short"], .sPromoted 16),
   (["signed", "short", "int"], .sPromoted 16), (["unsigned", "short"], .uPromoted 16),
   (["unsigned", "short", "int"], .uPromoted 16), (["int"], .sDirect 32), (["signed", "int"], .sDirect 32),
   (["unsigned"], .uDirect 32), (["unsigned", "int"], .uDirect 32), (["long"], .sDirect L), (["long", "int"], .sDirect L),
   (["signed", "long"], .sDirect L), (["signed", "long", "int"], .sDirect L), (["unsigned", "long"], .uDirect L),
   (["unsigned", "long", "int"], .uDirect L), (["long", "long"], .sDirect 64), (["long", "long", "int"], .sDirect 64),
   (["signed", "long", "long"], .sDirect 64), (["signed", "long", "long", "int"], .sDirect 64),
   (["unsigned", "long", "long"], .uDirect 64), (["unsigned", "long", "long", "int"], .uDirect 64)]

/-- `__VERIFIER_nondet_bool` (smack.c:1577-1581): `x = (_Bool)nondet_int()` is `icmp ne i32 y, 0`, stored through `zext` to i8;
the assumption compares `zext(trunc(x))` with 0 and 1; the result is `trunc` to i1. -/
def returnsBool (S : Smt) (enc : Enc) (r : Int) : Prop :=
  ∃ y, returnsInt S enc (.sDirect 32) y ∧
    ∃ b, b = trunc S enc 8 1 (zext S enc 1 8 (pred S enc .ne 32 y 0)) ∧
      (predBool S enc .eq 32 (zext S enc 1 32 b) 0 = true ∨ predBool S enc .eq 32 (zext S enc 1 32 b) 1 = true) ∧ r = b

/-- `__VERIFIER_nondet_i{w}` and `_u{w}` of share/smack/lib/smack-rust.c:18-30: out-of-range values reach `abort()`. The
comparisons are promoted for widths 8 and 16, and `ret < 0` is unsigned at widths 32 and 64. -/
def rustReturns (S : Smt) (enc : Enc) (signed : Bool) (w : Nat) (x : Int) : Prop :=
  let ext := fun (x : Int) => if w < 32 then (if signed then sext S enc w 32 x else zext S enc w 32 x) else x
  let lo : Int := if signed then -2 ^ (w - 1) else 0
  let hi : Int := if signed then 2 ^ (w - 1) - 1 else 2 ^ w - 1
  let (lt, gt) := if signed || w < 32 then (Pred.slt, Pred.sgt) else (Pred.ult, Pred.ugt)
  let W := if w < 32 then 32 else w
  ¬(predBool S enc lt W (ext x) lo = true ∨ predBool S enc gt W (ext x) hi = true)

end Smack.Nondet
