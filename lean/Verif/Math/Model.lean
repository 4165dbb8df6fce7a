/-
The C mathematics library model (share/smack/lib/math.c, include/math.h) and the rounding-mode functions (lib/fenv.c, include/fenv.h), as
translated with `--float`.

math.c has each function three times, for `float`, `double` and `long double`, differing in the suffix of the names only; here they are
one function of the format. The functions reach the SMT-LIB floating-point theory through `__SMACK_code` (Prelude.cpp:1323-1392, 1415-1425,
1550-1709); the first half of this file gives that theory, as far as it is used, on numbers counted in units of the smallest positive
number of the format. Not modelled: `sqrt` (one call of `fp.sqrt`), floating-point exceptions and `errno`, the C front end.
-/

namespace Smack.Math

/-! ## Formats and values -/

/-- A binary format: exponent and fraction bits (Prelude.cpp:180-181 counts one more bit for the significand). -/
structure Fmt where
  e : Nat
  m : Nat
deriving DecidableEq, Repr

/-- Prelude.cpp:180-181, 1062-1066: `float24e8`, `float53e11`, `float65e15`. -/
def Fmt.float : Fmt := ⟨8, 23⟩
def Fmt.double : Fmt := ⟨11, 52⟩
def Fmt.longDouble : Fmt := ⟨15, 64⟩

namespace Fmt

variable (F : Fmt)

/-- Largest shift of a significand: the largest exponent field is `2 ^ e - 2`, and the fields 0 and 1 have shift 0. -/
def top : Nat := 2 ^ F.e - 3

/-- The number 1 has significand `2 ^ m` and exponent field `2 ^ (e - 1) - 1`. -/
def unit : Nat := F.m + (2 ^ (F.e - 1) - 2)

def one : Nat := 2 ^ F.unit

abbrev Bits := BitVec (F.e + F.m + 1)

end Fmt

/-- Floating-point values; `fin s n` is `n` units, negative if `s`. -/
inductive Val where
  | nan | inf (s : Bool) | fin (s : Bool) (n : Nat)
deriving DecidableEq, Repr

/-- SMT-LIB `(_ to_fp e (m + 1))` of a bit-vector. -/
def decode (F : Fmt) (b : F.Bits) : Val :=
  let s := b.getLsbD (F.e + F.m)
  let E := ((b >>> F.m).setWidth F.e).toNat
  let f := (b.setWidth F.m).toNat
  if E = 2 ^ F.e - 1 then (if f = 0 then .inf s else .nan)
  else if E = 0 then .fin s f
  else .fin s ((2 ^ F.m + f) * 2 ^ (E - 1))

inductive RMode where
  | rne | rna | rtp | rtn | rtz
deriving DecidableEq, Repr

/-- Whether the magnitude `q + r / d` is rounded up to `q + 1`. -/
def RMode.up (rm : RMode) (s : Bool) (q r d : Nat) : Bool :=
  match rm with
  | .rne => decide (d < 2 * r) || (decide (2 * r = d) && decide (q % 2 = 1))
  | .rna => decide (d ≤ 2 * r)
  | .rtp => decide (0 < r) && !s
  | .rtn => decide (0 < r) && s
  | .rtz => false

/-- What SMT-LIB or the prelude leave open: how inexact results are rounded, `fp.min` and `fp.max` of zeros of different sign, the bits of a
number (`$bitcast.bvfloat.bv32` is uninterpreted, Prelude.cpp:1680), numbers from bits (built in with `--integer-encoding=bit-vector`,
uninterpreted otherwise, Prelude.cpp:1619-1620), `fp.to_sbv` out of range. And the value of `$rmode`. -/
structure Env (F : Fmt) where
  rm : RMode
  rnd : RMode → Bool → Nat → Val
  zmin : Bool → Bool → Bool
  zmax : Bool → Bool → Bool
  bits : Val → F.Bits
  unbits : F.Bits → Val
  sbv : Val → Int

namespace Smt

variable {F : Fmt} (E : Env F)

def int : Bool → Nat → Int
  | false, n => n
  | true, n => -n

def abs : Val → Val
  | .nan => .nan
  | .inf _ => .inf false
  | .fin _ n => .fin false n

def neg : Val → Val
  | .nan => .nan
  | .inf s => .inf (!s)
  | .fin s n => .fin (!s) n

def add (rm : RMode) : Val → Val → Val
  | .nan, _ => .nan
  | _, .nan => .nan
  | .inf s, .inf t => if s = t then .inf s else .nan
  | .inf s, .fin _ _ => .inf s
  | .fin _ _, .inf t => .inf t
  | .fin s a, .fin t b =>
    let z := int s a + int t b
    if z = 0 then .fin (if s = t then s else rm == .rtn) 0 else E.rnd rm (decide (z < 0)) z.natAbs

def sub (rm : RMode) (x y : Val) : Val := add E rm x (neg y)

variable (F) in
def roundToIntegral (rm : RMode) : Val → Val
  | .fin s n => .fin s ((if rm.up s (n / F.one) (n % F.one) F.one then n / F.one + 1 else n / F.one) * F.one)
  | v => v

/-- IEEE remainder. -/
def rem : Val → Val → Val
  | .nan, _ => .nan
  | _, .nan => .nan
  | .inf _, _ => .nan
  | .fin s a, .inf _ => .fin s a
  | .fin s a, .fin _ b =>
    if b = 0 then .nan
    else if RMode.rne.up s (a / b) (a % b) b then .fin (!s) (b - a % b) else .fin s (a % b)

def lt : Val → Val → Bool
  | .nan, _ => false
  | _, .nan => false
  | .inf s, .inf t => s && !t
  | .inf s, .fin _ _ => s
  | .fin _ _, .inf t => !t
  | .fin s a, .fin t b => decide (int s a < int t b)

def isNaN : Val → Bool
  | .nan => true
  | _ => false

def isInfinite : Val → Bool
  | .inf _ => true
  | _ => false

def isZero : Val → Bool
  | .fin _ 0 => true
  | _ => false

variable (F) in
def isSubnormal : Val → Bool
  | .fin _ n => decide (0 < n) && decide (n < 2 ^ F.m)
  | _ => false

variable (F) in
def isNormal : Val → Bool
  | .fin _ n => decide (2 ^ F.m ≤ n)
  | _ => false

def max : Val → Val → Val
  | .nan, y => y
  | x, .nan => x
  | .fin s 0, .fin t 0 => if s = t then .fin s 0 else .fin (E.zmax s t) 0
  | x, y => if lt x y then y else x

def min : Val → Val → Val
  | .nan, y => y
  | x, .nan => x
  | .fin s 0, .fin t 0 => if s = t then .fin s 0 else .fin (E.zmin s t) 0
  | x, y => if lt x y then x else y

/-- `fp.to_sbv` to 64 bits, rounding toward zero. -/
def toSbv (x : Val) : Int :=
  match x with
  | .fin s n =>
    let z := int s (n / F.one)
    if -(2 ^ 63) ≤ z ∧ z < 2 ^ 63 then z else E.sbv x
  | _ => E.sbv x

end Smt

/-! ## math.c -/

variable {F : Fmt} (E : Env F)

/-- math.c:7-11, 177-181, 347-351. -/
def fabs (x : Val) : Val := Smt.abs x

/-- math.c:22-26, 192-196, 362-366. -/
def round (F : Fmt) (x : Val) : Val := Smt.roundToIntegral F .rna x

/-- math.c:30-34, 200-204, 370-374, and `nearbyint` 36-40, 206-210, 376-380. -/
def rint (x : Val) : Val := Smt.roundToIntegral F E.rm x

/-- math.c:44-48, 214-218, 384-388. -/
def floor (F : Fmt) (x : Val) : Val := Smt.roundToIntegral F .rtn x

/-- math.c:50-54, 220-224, 390-394. -/
def ceil (F : Fmt) (x : Val) : Val := Smt.roundToIntegral F .rtp x

/-- math.c:56-60, 226-230, 396-400. -/
def trunc (F : Fmt) (x : Val) : Val := Smt.roundToIntegral F .rtz x

/-- math.c:28, 198, 368: the conversion to `long` is `fptosi`, i.e. `fp.to_sbv` with RTZ (SmackRep.cpp:889-892). -/
def lround (x : Val) : Int := Smt.toSbv E (round F x)

/-- math.c:42, 212, 382. -/
def lrint (x : Val) : Int := Smt.toSbv E (rint E x)

/-- math.c:68-72, 238-242, 408-412. -/
def remainder (x y : Val) : Val := Smt.rem x y

/-- math.c:74-78, 244-248, 414-418. -/
def fmin (x y : Val) : Val := Smt.min E x y

/-- math.c:80-84, 250-254, 420-424. -/
def fmax (x y : Val) : Val := Smt.max E x y

/-- math.c:124, 294, 464: `0.0 / 0.0`. -/
def nan : Val := .nan

/-- math.c:126-155, 296-325, 466-497: `if $is… then $1 else $0`. -/
def isnormal (F : Fmt) (x : Val) : Nat := if Smt.isNormal F x then 1 else 0
def issubnormal (F : Fmt) (x : Val) : Nat := if Smt.isSubnormal F x then 1 else 0
def iszero (x : Val) : Nat := if Smt.isZero x then 1 else 0
def isinf (x : Val) : Nat := if Smt.isInfinite x then 1 else 0
def isnan (x : Val) : Nat := if Smt.isNaN x then 1 else 0

/-- math.c:157-161, 327-331, 499-503 with the unions of math.h:40-63: the sign is the highest bit of the number stored in the union. -/
def signbit (x : Val) : Nat := (E.bits x >>> (F.e + F.m)).toNat

/-- math.c:13-20, 183-190, 353-360. -/
def fdim (x y : Val) : Val :=
  if isnan x != 0 || isnan y != 0 then nan
  else fmax E (.fin false 0) (Smt.sub E E.rm x y)

/-- math.c:114-122, 284-292, 454-462. -/
def copysign (x y : Val) : Val :=
  if signbit E x != signbit E y then E.unbits (E.bits x ^^^ BitVec.twoPow _ (F.e + F.m)) else x

/-- math.c:86-97, 256-267, 426-437. -/
def fmod (x y : Val) : Val :=
  if isnan x != 0 || isnan y != 0 || isinf x != 0 || iszero y != 0 then nan
  else
    let y := fabs y
    let ret := remainder (fabs x) y
    let ret := if signbit E ret != 0 then Smt.add E E.rm ret y else ret
    copysign E ret x

/-- math.c:99-112, 269-282, 439-452: the fractional part and `*iPart`. -/
def modf (x : Val) : Val × Val :=
  let (iPart, fPart) :=
    if isinf x != 0 then (x, .fin false 0)
    else
      let iPart := trunc F x
      (iPart, Smt.sub E E.rm x iPart)
  let fPart := if iszero fPart != 0 then (if signbit E x != 0 then .fin true 0 else .fin false 0) else fPart
  (fPart, iPart)

/-- math.h:7-11. -/
def FP_NAN : Nat := 0
def FP_INFINITE : Nat := 1
def FP_ZERO : Nat := 2
def FP_SUBNORMAL : Nat := 3
def FP_NORMAL : Nat := 4

/-- math.c:163-173, 333-343, 505-515. -/
def fpclassify (F : Fmt) (x : Val) : Nat :=
  if isnan x != 0 then FP_NAN
  else if isinf x != 0 then FP_INFINITE
  else if iszero x != 0 then FP_ZERO
  else if issubnormal F x != 0 then FP_SUBNORMAL
  else FP_NORMAL

/-- math.c:175, 345, 517. -/
def finite (x : Val) : Nat := if isinf x == 0 && isnan x == 0 then 1 else 0

/-- The LLVM instruction `frem` is translated to `$frem` (Naming.cpp:128), i.e. `fp.rem` (Prelude.cpp:1334). -/
def frem (x y : Val) : Val := Smt.rem x y

/-! ## fenv.c -/

/-- fenv.h:7-10. -/
def FE_TONEAREST : Int := 0
def FE_DOWNWARD : Int := 0x400
def FE_UPWARD : Int := 0x800
def FE_TOWARDZERO : Int := 0xc00

/-- fenv.c:7-19; `ret` is any negative number. -/
def fegetround (ret : Int) (rm : RMode) : Int :=
  let ret := if rm = .rne then FE_TONEAREST else ret
  let ret := if rm = .rtn then FE_DOWNWARD else ret
  let ret := if rm = .rtp then FE_UPWARD else ret
  if rm = .rtz then FE_TOWARDZERO else ret

/-- fenv.c:21-39: the result and the new `$rmode`. -/
def fesetround (a : Int) (rm : RMode) : Int × RMode :=
  if a = FE_TONEAREST then (0, .rne)
  else if a = FE_DOWNWARD then (0, .rtn)
  else if a = FE_UPWARD then (0, .rtp)
  else if a = FE_TOWARDZERO then (0, .rtz)
  else (1, rm)

end Smack.Math
