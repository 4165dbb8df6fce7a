/-
Boogie's type checker (for the fragment used), the names of a program, the types of LLVM values, the Boogie type that represents
an LLVM type, and the signatures of SMT-LIB operators. Written without using the functions of the model.
-/
import Verif.PreludeTy.Model

namespace Smack.PreludeTy

/-! ## Boogie -/

/-- Boogie types after expanding synonyms; `opaque` is a type declared without a definition. -/
inductive Ty where
  | int | bool | rmode
  | bv (n : Nat)
  | fp (s e : Nat)
  | opaque (t : TName)
  | map (d r : Ty)
deriving DecidableEq, Repr

/-- The type a name stands for: built in, or declared as a synonym or without a definition. -/
inductive Resolves (ds : List (TName × Option TName)) : TName → Ty → Prop
  | int : Resolves ds .int .int
  | bool : Resolves ds .bool .bool
  | rmode : Resolves ds .rmode .rmode
  | bv n : Resolves ds (.bv n) (.bv n)
  | fp s e : Resolves ds (.fpB s e) (.fp s e)
  | syn {t u T} : (t, some u) ∈ ds → Resolves ds u T → Resolves ds t T
  | opq {t} : (t, none) ∈ ds → Resolves ds t (.opaque t)
  | map {t R T} : Resolves ds .ref R → Resolves ds t T → Resolves ds (.map t) (.map R T)

/-- The declarations a program is checked against. -/
structure Sig where
  types : List (TName × Option TName)
  funs : List Fun

inductive ResolvesAll (S : Sig) : List (String × TName) → List Ty → Prop
  | nil : ResolvesAll S [] []
  | cons {x t ps T Ts} : Resolves S.types t T → ResolvesAll S ps Ts → ResolvesAll S ((x, t) :: ps) (T :: Ts)

def Bin.isEq : Bin → Bool
  | .eq | .neq => true
  | _ => false

def Bin.isRel : Bin → Bool
  | .lt | .gt | .lte | .gte => true
  | _ => false

def Bin.isArith : Bin → Bool
  | .plus | .minus | .times => true
  | _ => false

def Bin.isBool : Bin → Bool
  | .and | .or => true
  | _ => false

mutual

/-- The type of an expression. `Γ` gives the declared type of a variable or constant. Comparison and arithmetic operators are
also defined on reals and floats in Boogie; these rules are not needed here. Functions are identified by their (structured) names;
`c71_unique_names` and `c71_names_injective` show that this is the same as by their printed names. -/
inductive HasTy (S : Sig) (Γ : String → Option TName) : Ex → Ty → Prop
  | var {x t T} : Γ x = some t → Resolves S.types t T → HasTy S Γ (.var x) T
  | int v : HasTy S Γ (.int v) .int
  | negInt v : HasTy S Γ (.negInt v) .int
  | bv v w : HasTy S Γ (.bv v w) (.bv w)
  | bool b : HasTy S Γ (.bool b) .bool
  | rm : HasTy S Γ .rm .rmode
  | fp s e : HasTy S Γ (.fp s e) (.fp s e)
  | fn {d f args Ts T} : d ∈ S.funs → d.sym = f → ResolvesAll S d.params Ts → HasTys S Γ args Ts →
      Resolves S.types d.ret T → HasTy S Γ (.fn f args) T
  | eq {op l r T} : op.isEq = true → HasTy S Γ l T → HasTy S Γ r T → HasTy S Γ (.bin op l r) .bool
  | rel {op l r} : op.isRel = true → HasTy S Γ l .int → HasTy S Γ r .int → HasTy S Γ (.bin op l r) .bool
  | arith {op l r} : op.isArith = true → HasTy S Γ l .int → HasTy S Γ r .int → HasTy S Γ (.bin op l r) .int
  | conn {op l r} : op.isBool = true → HasTy S Γ l .bool → HasTy S Γ r .bool → HasTy S Γ (.bin op l r) .bool
  | not {e} : HasTy S Γ e .bool → HasTy S Γ (.not e) .bool
  | ite {c a b T} : HasTy S Γ c .bool → HasTy S Γ a T → HasTy S Γ b T → HasTy S Γ (.ite c a b) T
  | sel {e i D R} : HasTy S Γ e (.map D R) → HasTy S Γ i D → HasTy S Γ (.sel e i) R
  | upd {e i x D R} : HasTy S Γ e (.map D R) → HasTy S Γ i D → HasTy S Γ x R → HasTy S Γ (.upd e i x) (.map D R)
  | extract {e n hi lo} : HasTy S Γ e (.bv n) → lo ≤ hi → hi ≤ n → HasTy S Γ (.extract e hi lo) (.bv (hi - lo))
  | concat {l r a b} : HasTy S Γ l (.bv a) → HasTy S Γ r (.bv b) → HasTy S Γ (.concat l r) (.bv (a + b))

inductive HasTys (S : Sig) (Γ : String → Option TName) : List Ex → List Ty → Prop
  | nil : HasTys S Γ [] []
  | cons {e es T Ts} : HasTy S Γ e T → HasTys S Γ es Ts → HasTys S Γ (e :: es) (T :: Ts)

end

/-- The types of variables in the body of a function: parameters, then global constants and variables. -/
def scope (ps : List (String × TName)) (Γ : String → Option TName) (x : String) : Option TName :=
  match ps.find? (fun p => p.1 == x) with
  | some p => some p.2
  | none => Γ x

/-- A function declaration is accepted: its parameters have different names, all types exist, and the body has the result type. -/
def FunOk (S : Sig) (Γ : String → Option TName) (d : Fun) : Prop :=
  (d.params.map (·.1)).Nodup ∧ (∃ Ts, ResolvesAll S d.params Ts) ∧
  ∃ T, Resolves S.types d.ret T ∧ ∀ b, d.body = some b → HasTy S (scope d.params Γ) b T

mutual

/-- The functions applied in an expression. -/
def Ex.calls : Ex → List Sym
  | .var _ | .int _ | .negInt _ | .bv _ _ | .bool _ | .rm | .fp _ _ => []
  | .fn f args => f :: callsAll args
  | .bin _ l r | .concat l r => l.calls ++ r.calls
  | .not e | .extract e _ _ => e.calls
  | .ite c a b | .upd c a b => c.calls ++ a.calls ++ b.calls
  | .sel a i => a.calls ++ i.calls

def callsAll : List Ex → List Sym
  | [] => []
  | e :: es => e.calls ++ callsAll es

end

/-! ## SMT-LIB -/

/-- Operators on two bit-vectors of the same width (theory FixedSizeBitVectors, logic QF_BV). -/
def bvBinary : List String :=
  ["bvadd", "bvsub", "bvmul", "bvudiv", "bvurem", "bvsdiv", "bvsrem", "bvsmod", "bvshl", "bvlshr", "bvashr", "bvand", "bvor",
    "bvxor", "bvnand", "bvnor", "bvxnor"]

def bvCompare : List String := ["bvult", "bvule", "bvugt", "bvuge", "bvslt", "bvsle", "bvsgt", "bvsge"]

/-- Signatures of the SMT-LIB operators (theories Ints, FixedSizeBitVectors, FloatingPoint). `int2bv` is the name Z3 and CVC use for
`nat2bv`. -/
inductive SmtSig : Smt → List Ty → Ty → Prop
  | bvBin {op n} : op ∈ bvBinary → 0 < n → SmtSig ⟨op, []⟩ [.bv n, .bv n] (.bv n)
  | bvNot {n} : 0 < n → SmtSig ⟨"bvnot", []⟩ [.bv n] (.bv n)
  | bvNeg {n} : 0 < n → SmtSig ⟨"bvneg", []⟩ [.bv n] (.bv n)
  | bvCmp {op n} : op ∈ bvCompare → 0 < n → SmtSig ⟨op, []⟩ [.bv n, .bv n] .bool
  | zext {n k} : 0 < n → SmtSig ⟨"zero_extend", [k]⟩ [.bv n] (.bv (n + k))
  | sext {n k} : 0 < n → SmtSig ⟨"sign_extend", [k]⟩ [.bv n] (.bv (n + k))
  | int2bv {n} : 0 < n → SmtSig ⟨"int2bv", [n]⟩ [.int] (.bv n)
  | bv2nat {n} : 0 < n → SmtSig ⟨"bv2nat", []⟩ [.bv n] .int
  | div : SmtSig ⟨"div", []⟩ [.int, .int] .int
  | mod : SmtSig ⟨"mod", []⟩ [.int, .int] .int
  | fpUn {op s e} : op ∈ ["fp.abs", "fp.neg"] → SmtSig ⟨op, []⟩ [.fp s e] (.fp s e)
  | fpUnRm {op s e} : op ∈ ["fp.sqrt", "fp.roundToIntegral"] → SmtSig ⟨op, []⟩ [.rmode, .fp s e] (.fp s e)
  | fpBinRm {op s e} : op ∈ ["fp.add", "fp.sub", "fp.mul", "fp.div"] → SmtSig ⟨op, []⟩ [.rmode, .fp s e, .fp s e] (.fp s e)
  | fpBin {op s e} : op ∈ ["fp.rem", "fp.min", "fp.max"] → SmtSig ⟨op, []⟩ [.fp s e, .fp s e] (.fp s e)
  | fma {s e} : SmtSig ⟨"fp.fma", []⟩ [.rmode, .fp s e, .fp s e, .fp s e] (.fp s e)
  | fpClass {op s e} : op ∈ ["fp.isNormal", "fp.isSubnormal", "fp.isZero", "fp.isInfinite", "fp.isNaN", "fp.isNegative",
      "fp.isPositive"] → SmtSig ⟨op, []⟩ [.fp s e] .bool
  | fpCmp {op s e} : op ∈ ["fp.eq", "fp.leq", "fp.lt", "fp.geq", "fp.gt"] → SmtSig ⟨op, []⟩ [.fp s e, .fp s e] .bool
  | toFpBits {s e} : SmtSig ⟨"to_fp", [e, s]⟩ [.bv (e + s)] (.fp s e)
  | toFpFp {s e s' e'} : SmtSig ⟨"to_fp", [e, s]⟩ [.rmode, .fp s' e'] (.fp s e)
  | toFpSigned {s e n} : 0 < n → SmtSig ⟨"to_fp", [e, s]⟩ [.rmode, .bv n] (.fp s e)
  | toFpUnsigned {s e n} : 0 < n → SmtSig ⟨"to_fp_unsigned", [e, s]⟩ [.rmode, .bv n] (.fp s e)
  | toUbv {s e n} : 0 < n → SmtSig ⟨"fp.to_ubv", [n]⟩ [.rmode, .fp s e] (.bv n)
  | toSbv {s e n} : 0 < n → SmtSig ⟨"fp.to_sbv", [n]⟩ [.rmode, .fp s e] (.bv n)

/-- The SMT-LIB operator that has the meaning of a prelude function, for those that are mapped to an operator. Division and remainder
of integers are Euclidean, as SMT-LIB's `div` and `mod` (the functions `$sdiv`, `$udiv`, … are defined from these, C01). `$frem` is
listed with the only remainder SMT-LIB has; `c73_frem_fails` shows that it is not LLVM's. -/
def meaning : List (String × String) :=
  [ ("$add", "bvadd"), ("$sub", "bvsub"), ("$mul", "bvmul"), ("$sdiv", "bvsdiv"), ("$udiv", "bvudiv"), ("$smod", "bvsmod"),
    ("$srem", "bvsrem"), ("$urem", "bvurem"), ("$shl", "bvshl"), ("$lshr", "bvlshr"), ("$ashr", "bvashr"), ("$and", "bvand"),
    ("$or", "bvor"), ("$xor", "bvxor"), ("$nand", "bvnand"), ("$not", "bvnot"), ("$idiv", "div"), ("$smod", "mod"),
    ("$ult", "bvult"), ("$ule", "bvule"), ("$ugt", "bvugt"), ("$uge", "bvuge"), ("$slt", "bvslt"), ("$sle", "bvsle"),
    ("$sgt", "bvsgt"), ("$sge", "bvsge"), ("$zext", "zero_extend"), ("$sext", "sign_extend"),
    ("$int2bv", "int2bv"), ("$bv2int", "bv2nat"), ("$bv2uint", "bv2nat"),
    ("$abs", "fp.abs"), ("$fneg", "fp.neg"), ("$round", "fp.roundToIntegral"), ("$sqrt", "fp.sqrt"), ("$fadd", "fp.add"),
    ("$fsub", "fp.sub"), ("$fmul", "fp.mul"), ("$fdiv", "fp.div"), ("$frem", "fp.rem"), ("$min", "fp.min"), ("$max", "fp.max"),
    ("$fma", "fp.fma"), ("$isnormal", "fp.isNormal"), ("$issubnormal", "fp.isSubnormal"), ("$iszero", "fp.isZero"),
    ("$isinfinite", "fp.isInfinite"), ("$isnan", "fp.isNaN"), ("$isnegative", "fp.isNegative"), ("$ispositive", "fp.isPositive"),
    ("$foeq", "fp.eq"), ("$fole", "fp.leq"), ("$folt", "fp.lt"), ("$foge", "fp.geq"), ("$fogt", "fp.gt"),
    ("$bitcast", "to_fp"), ("$si2fp", "to_fp"), ("$ui2fp", "to_fp_unsigned"), ("$fp2si", "fp.to_sbv"), ("$fp2ui", "fp.to_ubv"),
    ("$fpext", "to_fp"), ("$fptrunc", "to_fp") ]

/-- `r` is the IEEE 754 remainder of `x` by `y`, SMT-LIB's `fp.rem` (for integers `x`, `y` the result is exact): `x - y·n` for the
integer `n` nearest to `x / y`, the even one if there are two. -/
def IeeeRem (x y r : Int) : Prop := ∃ n : Int, r = x - y * n ∧ 2 * r.natAbs ≤ y.natAbs ∧ (2 * r.natAbs = y.natAbs → n % 2 = 0)

/-- `r` is LLVM's `frem`, C's `fmod`: the remainder has the sign of the dividend. -/
def Fmod (x y r : Int) : Prop := ∃ n : Int, r = x - y * n ∧ r.natAbs < y.natAbs ∧ (0 ≤ x → 0 ≤ r) ∧ (x ≤ 0 → r ≤ 0)

end Smack.PreludeTy
