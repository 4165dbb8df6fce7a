import Verif.IntOps.Model

/-
The bit-level intrinsics (lib/smack/SmackInstGenerator.cpp:979-1112): `llvm.bitreverse`, `llvm.bswap`,
`llvm.ctlz`, `llvm.cttz`, `llvm.ctpop`.  Each generator builds a Boogie expression with a C++ loop; the
model builds the same expression as a tree and gives the tree the Boogie / SMT-LIB meaning.

Simplification: the generators' `conditionalModel` wrapper (Or/And of command line flags) is not part of
this file; when the flags are off the call is emitted to an uninterpreted procedure.  Widths are taken to be
among the widths for which the prelude declares `$add` and `$zext`.
-/

namespace Smack.Intrinsics

/-- A Boogie bit-vector value with its width. -/
abbrev Bv := (w : Nat) × BitVec w

mutual
/-- The Boogie bit-vector expressions built by the five generators. `arg` is `rep->expr(arg 0)`,
`undef` is `rep->expr(arg 1)` (the `is_zero_undef` flag, an `i1`), `res` is `rep->expr(ci)`. -/
inductive E where
  | arg | undef | res
  /-- `Expr::lit(v, w)`, printed `v bv w`. -/
  | lit (v w : Nat)
  /-- `Expr::bvExtract(e, hi, lo)`, printed `e[hi:lo]`: bits `lo .. hi-1`. -/
  | extract (e : E) (hi lo : Nat)
  /-- `Expr::bvConcat(a, b)`, printed `a ++ b`: `a` holds the high bits. -/
  | concat (a b : E)
  /-- `Expr::ifThenElse`. -/
  | ite (c : C) (t e : E)
  /-- `$add.bvN(a, b)`. -/
  | add (w : Nat) (a b : E)
  /-- `$zext.bv1.bvN(a)`. -/
  | zext (w : Nat) (a : E)
/-- Conditions: `Expr::eq`, `Expr::and_`. -/
inductive C where
  | eq (a b : E)
  | and (a b : C)
end

/-- Values of the three program variables that occur. -/
structure Env where
  arg : Bv
  undef : Bv
  res : Bv

mutual
/-- Boogie meaning; `none` is an expression that Boogie rejects: a slice outside the vector, a numeral that does
not fit, operands of different widths, or the use of a conversion that the prelude does not declare
(`$zext.bv1.bvN` is declared for N > 1 only, Prelude.cpp:898-905). -/
def E.eval (ρ : Env) : E → Option Bv
  | .arg => some ρ.arg
  | .undef => some ρ.undef
  | .res => some ρ.res
  | .lit v w => if v < 2 ^ w then some ⟨w, BitVec.ofNat w v⟩ else none
  | .extract e hi lo =>
    match e.eval ρ with
    | some x => if lo ≤ hi ∧ hi ≤ x.1 then some ⟨hi - lo, x.2.extractLsb' lo (hi - lo)⟩ else none
    | none => none
  | .concat a b =>
    match a.eval ρ, b.eval ρ with
    | some x, some y => some ⟨x.1 + y.1, x.2 ++ y.2⟩
    | _, _ => none
  | .ite c t e =>
    match c.eval ρ, t.eval ρ, e.eval ρ with
    | some c, some t, some e => if t.1 = e.1 then some (if c then t else e) else none
    | _, _, _ => none
  | .add w a b =>
    match a.eval ρ, b.eval ρ with
    | some x, some y =>
      if x.1 = w ∧ y.1 = w then some ⟨w, x.2.setWidth w + y.2.setWidth w⟩ else none
    | _, _ => none
  | .zext w a =>
    match a.eval ρ with
    | some x => if x.1 = 1 ∧ 1 < w then some ⟨w, x.2.setWidth w⟩ else none
    | none => none
def C.eval (ρ : Env) : C → Option Bool
  | .eq a b =>
    match a.eval ρ, b.eval ρ with
    | some x, some y => if x.1 = y.1 then some (x.2.toNat == y.2.toNat) else none
    | _, _ => none
  | .and a b =>
    match a.eval ρ, b.eval ρ with
    | some x, some y => some (x && y)
    | _, _ => none
end

/-- SmackInstGenerator.cpp:993-999: the loop `for (i = start; i < width / 2; ++i)` of `bitreverse`; `n` is the
number of iterations left. -/
def bitreverseLoop (width offset : Nat) : Nat → Nat → E → E
  | 0, _, body => body
  | n + 1, i, body =>
    bitreverseLoop width offset n (i + 1)
      (.concat (.concat (.extract .arg (width / 2 - i) (width / 2 - i - 1)) body)
        (.extract .arg (width / 2 + i + 1 + offset) (width / 2 + i + offset)))

/-- SmackInstGenerator.cpp:979-1001 `bitreverse`. -/
def bitreverse (width : Nat) : E :=
  let body :=
    if width % 2 = 0 then
      .concat (.extract .arg (width / 2) (width / 2 - 1)) (.extract .arg (width / 2 + 1) (width / 2))
    else .extract .arg (width / 2 + 1) (width / 2)
  let offset := width &&& 1
  let start := if width % 2 = 0 then 1 else 0
  bitreverseLoop width offset (width / 2 - start) start body

/-- SmackInstGenerator.cpp:1013-1018: the loop `for (i = 8; i < width / 2; i += 8)` of `bswap`; `n` bounds the
iterations (each adds 8 to `i`, so `width / 2` of them are enough). -/
def bswapLoop (width : Nat) : Nat → Nat → E → E
  | 0, _, body => body
  | n + 1, i, body =>
    if i < width / 2 then
      bswapLoop width n (i + 8)
        (.concat (.concat (.extract .arg (width / 2 - i) (width / 2 - i - 8)) body)
          (.extract .arg (width / 2 + i + 8) (width / 2 + i)))
    else body

/-- SmackInstGenerator.cpp:1003-1020 `bswap`. -/
def bswap (width : Nat) : E :=
  bswapLoop width (width / 2) 8
    (.concat (.extract .arg (width / 2) (width / 2 - 8)) (.extract .arg (width / 2 + 8) (width / 2)))

/-- SmackInstGenerator.cpp:1038-1046 and 1067-1075: the `is_zero_undef` wrapper. -/
def zeroUndef (width : Nat) (body : E) : E :=
  .ite (.and (.eq .undef (.lit 1 1)) (.eq .arg (.lit 0 width))) .res body

/-- SmackInstGenerator.cpp:1028-1034: `for (i = 0; i < width; ++i)` after `n` iterations. -/
def ctlzLoop (width : Nat) : Nat → E
  | 0 => .lit width width
  | i + 1 => .ite (.eq (.extract .arg (i + 1) i) (.lit 1 1)) (.lit (width - i - 1) width) (ctlzLoop width i)

/-- SmackInstGenerator.cpp:1023-1050 `ctlz`. -/
def ctlz (width : Nat) : E := zeroUndef width (ctlzLoop width width)

/-- SmackInstGenerator.cpp:1059-1064: `for (i = width; i > 0; --i)`; the argument counts the iterations done, so
`i = width - n`. -/
def cttzLoop (width : Nat) : Nat → E
  | 0 => .lit width width
  | n + 1 => .ite (.eq (.extract .arg (width - n) (width - n - 1)) (.lit 1 1)) (.lit (width - n - 1) width)
      (cttzLoop width n)

/-- SmackInstGenerator.cpp:1053-1079 `cttz`. -/
def cttz (width : Nat) : E := zeroUndef width (cttzLoop width width)

/-- SmackInstGenerator.cpp:1048-1049: `havoc r; r := body`. The havoc leaves any value `h` of the result's
width in `r`; the assignment then evaluates `body`, which may read `r`. -/
def havocAssign (arg undef : Bv) (h : Bv) (body : E) : Option Bv := body.eval ⟨arg, undef, h⟩

/-- SmackInstGenerator.cpp:1091-1097, bit-vector mode, after `n` iterations. -/
def ctpopBvLoop (width : Nat) : Nat → E
  | 0 => .lit 0 width
  | i + 1 => .add width (.zext width (.extract .arg (i + 1) i)) (ctpopBvLoop width i)

/-- SmackInstGenerator.cpp:1082-1112 `ctpop`, bit-vector mode. -/
def ctpopBv (width : Nat) : E := ctpopBvLoop width width

/-- The C++ expression `1ull << i`: undefined behaviour (`none`) from 64 on. -/
def ullShl (i : Nat) : Option Nat := if i < 64 then some (2 ^ i) else none

open IntOps in
/-- SmackInstGenerator.cpp:1098-1107, integer mode, after `n` iterations: the value of
`$add.iN($urem.iN($udiv.iN(v, 1 << i), 2), body)` with the prelude functions of IntOps. -/
def ctpopIntLoop (S : Smt) (enc : Enc) (width : Nat) (v : Int) : Nat → Option Int
  | 0 => some 0
  | i + 1 =>
    match ctpopIntLoop S enc width v i, ullShl i with
    | some body, some p => some (iadd (urem S enc width (udiv S enc width v (p : Int)) 2) body)
    | _, _ => none

open IntOps in
/-- SmackInstGenerator.cpp:1082-1112 `ctpop`, integer mode. -/
def ctpopInt (S : Smt) (enc : Enc) (width : Nat) (v : Int) : Option Int :=
  ctpopIntLoop S enc width v width

end Smack.Intrinsics
