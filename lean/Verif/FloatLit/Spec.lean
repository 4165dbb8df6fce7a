/-
What floating-point bit patterns and Boogie floating-point literals denote.
-/
import Verif.FloatLit.Model

namespace Smack.FloatLit

/-- A floating-point datum: NaN, a signed infinity, or a sign and a magnitude. -/
inductive Datum where
  | nan
  | inf (neg : Bool)
  | fin (neg : Bool) (magnitude : Rat)

/-- IEEE 754 interchange format with `e` exponent bits and precision `s` (hidden bit included):
sign, biased exponent `E`, trailing significand `F`. -/
def ieee (e s : Nat) (bits : BitVec (e + s)) : Datum :=
  let E : Nat := bits.toNat / 2 ^ (s - 1) % 2 ^ e
  let F : Nat := bits.toNat % 2 ^ (s - 1)
  let bias : Int := 2 ^ (e - 1) - 1
  if E = 2 ^ e - 1 then (if F = 0 then .inf bits.msb else .nan)
  else if E = 0 then .fin bits.msb ((F : Rat) * 2 ^ (1 - bias - ((s : Int) - 1)))
  else .fin bits.msb (((2 ^ (s - 1) + F : Nat) : Rat) * 2 ^ ((E : Int) - bias - ((s : Int) - 1)))

/-- x87 extended precision: 15 exponent bits and an explicit 64-bit significand (no hidden bit). -/
def x87 (bits : BitVec 80) : Datum :=
  let E : Nat := bits.toNat / 2 ^ 64 % 2 ^ 15
  let M : Nat := bits.toNat % 2 ^ 64
  if E = 2 ^ 15 - 1 then (if M % 2 ^ 63 = 0 then .inf bits.msb else .nan)
  else if E = 0 then .fin bits.msb ((M : Rat) * 2 ^ (1 - 16383 - 63 : Int))
  else .fin bits.msb ((M : Rat) * 2 ^ ((E : Int) - 16383 - 63))

/-- Value of a digit string in base 16. -/
def ofDigits (ds : List Nat) : Nat := ds.foldl (fun a d => 16 * a + d) 0

/-- Boogie literal `[-]0x<left>.<right>e<expo>f<ss>e<es>`: significand in hexadecimal, exponent in base 16. -/
def FpLit.denotes : FpLit → Datum
  | .nan _ _ => .nan
  | .inf neg _ _ => .inf neg
  | .num neg left right expo _ _ =>
      .fin neg ((ofDigits (left ++ right) : Rat) * 16 ^ (expo - (right.length : Int)))

/-- The format suffix of a literal. -/
def FpLit.format : FpLit → Nat × Nat
  | .nan ss es => (ss, es)
  | .inf _ ss es => (ss, es)
  | .num _ _ _ _ ss es => (ss, es)

end Smack.FloatLit
