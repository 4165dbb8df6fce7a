/-
The C standard (C17 7.12, annex F) on numbers counted in units of the smallest positive number.
-/
import Verif.Math.Model

namespace Smack.Math

/-- The finite numbers of a format. -/
def Rep (F : Fmt) (n : Nat) : Prop := ∃ c k, c < 2 ^ (F.m + 1) ∧ k ≤ 2 ^ F.e - 3 ∧ n = c * 2 ^ k

/-- The values of a format. -/
def Val.Ok (F : Fmt) : Val → Prop
  | .fin _ n => Rep F n
  | _ => True

/-- Formats as in IEEE 754: the exponents reach from below to above the integers that fit into the significand. -/
structure Fmt.Ok (F : Fmt) : Prop where
  e : 2 ≤ F.e
  m : F.m + 1 ≤ 2 ^ (F.e - 1)
  frac : 1 ≤ F.m

/-- How the additions round (IEEE 754 section 4.3, as far as used): numbers of the format are kept, others become a number or infinity of
the same sign. -/
structure Env.Ieee {F : Fmt} (E : Env F) : Prop where
  exact : ∀ rm s n, 0 < n → Rep F n → E.rnd rm s n = .fin s n
  sign : ∀ rm s n, 0 < n → E.rnd rm s n = .inf s ∨ ∃ k, 0 < k ∧ E.rnd rm s n = .fin s k

/-- The bit-vector encoding: numbers are decoded by the solver, and the bits of a stored number decode to that number
(SmackRep.cpp:1188-1221). -/
structure Env.Precise {F : Fmt} (E : Env F) : Prop where
  dec : ∀ b, E.unbits b = decode F b
  inv : ∀ v : Val, v.Ok F → E.unbits (E.bits v) = v

/-- Value in units. -/
def signed (s : Bool) (n : Nat) : Int := if s then -(n : Int) else n

/-- Whole numbers: multiples of 1. -/
def Integral (F : Fmt) (z : Int) : Prop := ((2 ^ (F.m + 2 ^ (F.e - 1) - 2) : Nat) : Int) ∣ z

def IsFloor (F : Fmt) (z w : Int) : Prop := Integral F w ∧ w ≤ z ∧ ∀ u, Integral F u → u ≤ z → u ≤ w

def IsCeil (F : Fmt) (z w : Int) : Prop := Integral F w ∧ z ≤ w ∧ ∀ u, Integral F u → z ≤ u → w ≤ u

def IsTrunc (F : Fmt) (z w : Int) : Prop := (0 ≤ z → IsFloor F z w) ∧ (z ≤ 0 → IsCeil F z w)

def IsNearest (F : Fmt) (z w : Int) : Prop := Integral F w ∧ ∀ u, Integral F u → (w - z).natAbs ≤ (u - z).natAbs

/-- Nearest, halfway cases away from zero. -/
def IsRound (F : Fmt) (z w : Int) : Prop :=
  IsNearest F z w ∧ ∀ u, Integral F u → (u - z).natAbs = (w - z).natAbs → u.natAbs ≤ w.natAbs

/-- Nearest, halfway cases to even. -/
def IsNearestEven (F : Fmt) (z w : Int) : Prop :=
  IsNearest F z w ∧ ∀ u, Integral F u → (u - z).natAbs = (w - z).natAbs → u ≠ w → ∃ v, Integral F v ∧ w = 2 * v

/-- Rounding to a whole number in a rounding mode. -/
def IsRint (F : Fmt) (rm : RMode) (z w : Int) : Prop :=
  match rm with
  | .rne => IsNearestEven F z w
  | .rna => IsRound F z w
  | .rtp => IsCeil F z w
  | .rtn => IsFloor F z w
  | .rtz => IsTrunc F z w

/-- A function on values that rounds as given, keeps the sign, and keeps infinities and NaNs. -/
def RoundsBy (F : Fmt) (f : Val → Val) (P : Int → Int → Prop) : Prop :=
  f .nan = .nan ∧ (∀ s, f (.inf s) = .inf s) ∧
  ∀ s n, Rep F n → ∃ k, f (.fin s n) = .fin s k ∧ Rep F k ∧ P (signed s n) (signed s k)

/-- Order of the values other than NaN. -/
def Below : Val → Val → Prop
  | .inf s, .inf t => s = true ∧ t = false
  | .inf s, .fin _ _ => s = true
  | .fin _ _, .inf t => t = false
  | .fin s a, .fin t b => signed s a < signed t b
  | _, _ => False

/-- The sign of a value; a NaN has none. -/
def SignIs : Val → Bool → Prop
  | .nan, _ => False
  | .inf s, b => s = b
  | .fin s _, b => s = b

/-! ## A fully specified floating-point unit

Shows that the assumptions above can be met. -/

/-- Exponent and fraction of a number. -/
def field (F : Fmt) (n : Nat) : Nat × Nat :=
  if n < 2 ^ F.m then (0, n) else (n.log2 - F.m + 1, n / 2 ^ (n.log2 - F.m) - 2 ^ F.m)

def pack (F : Fmt) (s : Bool) (e f : Nat) : F.Bits :=
  BitVec.ofNat _ ((if s then 2 ^ (F.e + F.m) else 0) + (e * 2 ^ F.m + f))

def encode (F : Fmt) : Val → F.Bits
  | .nan => pack F false (2 ^ F.e - 1) 1
  | .inf s => pack F s (2 ^ F.e - 1) 0
  | .fin s n => pack F s (field F n).1 (field F n).2

/-- IEEE rounding: to a multiple of the distance of neighbouring numbers; beyond the largest number, to infinity or to that number. -/
def ieeeRound (F : Fmt) (rm : RMode) (s : Bool) (n : Nat) : Val :=
  let g := 2 ^ (n.log2 - F.m)
  let r := (if rm.up s (n / g) (n % g) g then n / g + 1 else n / g) * g
  if r < 2 ^ (F.m + 1 + (2 ^ F.e - 3)) then .fin s r
  else match rm, s with
    | .rtz, _ => .fin s ((2 ^ (F.m + 1) - 1) * 2 ^ (2 ^ F.e - 3))
    | .rtp, true => .fin s ((2 ^ (F.m + 1) - 1) * 2 ^ (2 ^ F.e - 3))
    | .rtn, false => .fin s ((2 ^ (F.m + 1) - 1) * 2 ^ (2 ^ F.e - 3))
    | _, _ => .inf s

def Env.std (F : Fmt) (rm : RMode) : Env F where
  rm := rm
  rnd := ieeeRound F
  zmin _ _ := true
  zmax _ _ := false
  bits := encode F
  unbits := decode F
  sbv _ := -(2 ^ 63)

end Smack.Math
