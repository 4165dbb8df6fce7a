/-
The meaning of the Boogie prelude: values, the value of an expression, the SMT-LIB operators that the prelude refers to, and what
it means that an interpretation satisfies the prelude. Written from the definition of Boogie and SMT-LIB; the only things taken
from the model of the code are the declarations themselves.
-/
import Verif.PreludeTy.Spec
import Verif.FloatLit.Spec

namespace Smack.PreSem
open PreludeTy FloatLit

/-- Values that are no maps. `U` is the carrier of a type declared without definition. A floating-point value is a datum, so there
is one NaN and there are two zeros, as in SMT-LIB. -/
inductive Sc (U : Type) where
  | int (z : Int)
  | bool (b : Bool)
  | rm (r : Fin 5)
  | bv (w : Nat) (b : BitVec w)
  | fp (s e : Nat) (d : Datum)
  | opq (t : TName) (u : U)

/-- Values. The domain of a map is a type of pointers. -/
inductive Val (U : Type) where
  | sc (x : Sc U)
  | map (f : Sc U → Val U)

section
variable {U : Type}

@[match_pattern] abbrev Val.int (z : Int) : Val U := .sc (.int z)
@[match_pattern] abbrev Val.bool (b : Bool) : Val U := .sc (.bool b)
@[match_pattern] abbrev Val.bv (w : Nat) (b : BitVec w) : Val U := .sc (.bv w b)
@[match_pattern] abbrev Val.fp (s e : Nat) (d : Datum) : Val U := .sc (.fp s e d)

/-- The result of an operation on values of the wrong types; no well-typed expression gets there. -/
def junk : Val U := .bool false

/-- A scalar belongs to a type. The floating-point values with `e` exponent bits and precision `s` are those of the bit patterns. -/
def Sc.Is : Ty → Sc U → Prop
  | .int, .int _ => True
  | .bool, .bool _ => True
  | .rmode, .rm _ => True
  | .bv n, .bv w _ => w = n
  | .fp s e, .fp s' e' d => s' = s ∧ e' = e ∧ ∃ bits : BitVec (e + s), ieee e s bits = d
  | .opaque t, .opq t' _ => t' = t
  | _, _ => False

/-- A value belongs to a type. -/
def Val.Is : Ty → Val U → Prop
  | .map D R, .map f => (∀ D' R', D ≠ .map D' R') ∧ ∀ k, k.Is D → (f k).Is R
  | .map _ _, .sc _ => False
  | _, .map _ => False
  | .int, .sc x => x.Is .int
  | .bool, .sc x => x.Is .bool
  | .rmode, .sc x => x.Is .rmode
  | .bv n, .sc x => x.Is (.bv n)
  | .fp s e, .sc x => x.Is (.fp s e)
  | .opaque t, .sc x => x.Is (.opaque t)

/-- Values belong to the types, one by one. -/
inductive AllIs : List Ty → List (Val U) → Prop
  | nil : AllIs [] []
  | cons {T Ts x xs} : Val.Is T x → AllIs Ts xs → AllIs (T :: Ts) (x :: xs)

/-! ## Expressions -/

/-- An interpretation of the function names, the constants, and the literals whose value is not part of `Ex`. -/
structure Interp (U : Type) where
  fn : Sym → List (Val U) → Val U
  const : String → Val U
  rm : Fin 5
  fp : Nat → Nat → Datum

/-- Operators of Boogie. -/
noncomputable def evalBin (op : Bin) (l r : Val U) : Val U :=
  open Classical in
  match op with
  | .eq => .bool (decide (l = r))
  | .neq => .bool (decide (l ≠ r))
  | .lt => match l, r with | .int a, .int b => .bool (decide (a < b)) | _, _ => junk
  | .gt => match l, r with | .int a, .int b => .bool (decide (b < a)) | _, _ => junk
  | .lte => match l, r with | .int a, .int b => .bool (decide (a ≤ b)) | _, _ => junk
  | .gte => match l, r with | .int a, .int b => .bool (decide (b ≤ a)) | _, _ => junk
  | .plus => match l, r with | .int a, .int b => .int (a + b) | _, _ => junk
  | .minus => match l, r with | .int a, .int b => .int (a - b) | _, _ => junk
  | .times => match l, r with | .int a, .int b => .int (a * b) | _, _ => junk
  | .and => match l, r with | .bool a, .bool b => .bool (a && b) | _, _ => junk
  | .or => match l, r with | .bool a, .bool b => .bool (a || b) | _, _ => junk

def evalNot : Val U → Val U
  | .bool a => .bool (!a)
  | _ => junk

def evalIte : Val U → Val U → Val U → Val U
  | .bool c, a, b => if c then a else b
  | _, _, _ => junk

def evalSel : Val U → Val U → Val U
  | .map f, .sc k => f k
  | _, _ => junk

noncomputable def evalUpd : Val U → Val U → Val U → Val U
  | .map f, .sc k, x => .map fun j => open Classical in if j = k then x else f j
  | _, _, _ => junk

/-- `e[hi:lo]`: the bits from `lo` up to, not including, `hi`. -/
def evalExtract (hi lo : Nat) : Val U → Val U
  | .bv _ b => .bv (hi - lo) (b.extractLsb' lo (hi - lo))
  | _ => junk

def evalConcat : Val U → Val U → Val U
  | .bv w a, .bv w' b => .bv (w + w') (a ++ b)
  | _, _ => junk

mutual

/-- The value of an expression. -/
noncomputable def eval (I : Interp U) (ρ : String → Val U) : Ex → Val U
  | .var x => ρ x
  | .int v => .int v
  | .negInt v => .int (-v)
  | .bv v w => .bv w (BitVec.ofNat w v)
  | .bool b => .bool b
  | .rm => .sc (.rm I.rm)
  | .fp s e => .fp s e (I.fp s e)
  | .fn f args => I.fn f (evals I ρ args)
  | .bin op l r => evalBin op (eval I ρ l) (eval I ρ r)
  | .not e => evalNot (eval I ρ e)
  | .ite c a b => evalIte (eval I ρ c) (eval I ρ a) (eval I ρ b)
  | .sel m i => evalSel (eval I ρ m) (eval I ρ i)
  | .upd m i x => evalUpd (eval I ρ m) (eval I ρ i) (eval I ρ x)
  | .extract e hi lo => evalExtract hi lo (eval I ρ e)
  | .concat l r => evalConcat (eval I ρ l) (eval I ρ r)

noncomputable def evals (I : Interp U) (ρ : String → Val U) : List Ex → List (Val U)
  | [] => []
  | e :: es => eval I ρ e :: evals I ρ es

end

/-- The variables in the body of a function: parameters, then global constants. -/
def bind : List (String × TName) → List (Val U) → (String → Val U) → String → Val U
  | (x, _) :: ps, a :: as, ρ, y => if x = y then a else bind ps as ρ y
  | _, _, ρ, y => ρ y

/-! ## SMT-LIB -/

/-- What SMT-LIB leaves open (division by zero), and the operators that are not spelled out here: floating-point arithmetic and
conversions. -/
structure Arith (U : Type) where
  divZero : Int → Int
  modZero : Int → Int
  other : Smt → List (Val U) → Val U

/-- SMT-LIB's binary operations on bit-vectors. Division by zero gives all ones, the remainders the dividend. -/
def bvBin : String → Option ((w : Nat) → BitVec w → BitVec w → BitVec w)
  | "bvadd" => some fun _ a b => a + b
  | "bvsub" => some fun _ a b => a - b
  | "bvmul" => some fun _ a b => a * b
  | "bvudiv" => some fun _ a b => a.smtUDiv b
  | "bvsdiv" => some fun _ a b => a.smtSDiv b
  | "bvurem" => some fun _ a b => a.umod b
  | "bvsrem" => some fun _ a b => a.srem b
  | "bvsmod" => some fun _ a b => a.smod b
  | "bvshl" => some fun _ a b => a <<< b
  | "bvlshr" => some fun _ a b => a >>> b
  | "bvashr" => some fun _ a b => a.sshiftRight' b
  | "bvand" => some fun _ a b => a &&& b
  | "bvor" => some fun _ a b => a ||| b
  | "bvxor" => some fun _ a b => a ^^^ b
  | "bvnand" => some fun _ a b => ~~~(a &&& b)
  | _ => none

def bvCmp : String → Option ((w : Nat) → BitVec w → BitVec w → Bool)
  | "bvult" => some fun _ a b => a.ult b
  | "bvule" => some fun _ a b => a.ule b
  | "bvugt" => some fun _ a b => b.ult a
  | "bvuge" => some fun _ a b => b.ule a
  | "bvslt" => some fun _ a b => a.slt b
  | "bvsle" => some fun _ a b => a.sle b
  | "bvsgt" => some fun _ a b => b.slt a
  | "bvsge" => some fun _ a b => b.sle a
  | _ => none

/-- The value of an SMT-LIB operator on its arguments. -/
def smt (A : Arith U) (op : Smt) (args : List (Val U)) : Val U :=
  match op.idx, args with
  | [], [.int a, .int b] =>
    if op.op = "div" then .int (if b = 0 then A.divZero a else a.ediv b)
    else if op.op = "mod" then .int (if b = 0 then A.modZero a else a.emod b)
    else A.other op args
  | [], [.bv w a, .bv _ b] =>
    match bvBin op.op, bvCmp op.op with
    | some f, _ => .bv w (f w a (b.setWidth w))
    | _, some f => .bool (f w a (b.setWidth w))
    | _, _ => A.other op args
  | [], [.bv w a] =>
    if op.op = "bvnot" then .bv w (~~~a)
    else if op.op = "bv2nat" then .int a.toNat
    else A.other op args
  | [k], [.bv w a] =>
    if op.op = "zero_extend" then .bv (w + k) (a.setWidth (w + k))
    else if op.op = "sign_extend" then .bv (w + k) (a.signExtend (w + k))
    else A.other op args
  | [n], [.int a] =>
    if op.op = "int2bv" then .bv n (BitVec.ofInt n a) else A.other op args
  | [e, s], [.bv _ a] =>
    if op.op = "to_fp" then .fp s e (ieee e s (a.setWidth (e + s))) else A.other op args
  | _, _ => A.other op args

/-! ## Satisfying the prelude -/

/-- The interpretation agrees with the function declarations of mode `m`: declared functions map values of the parameter types to
values of the result type; a function with a body equals its body, one with an attribute the SMT-LIB operator. A declaration that
Boogie's type checker rejects has no meaning; it is only required to return a value of its type. -/
structure Defines (A : Arith U) (m : Mode) (I : Interp U) : Prop where
  typed : ∀ d ∈ decls m, ∀ Ts T, ResolvesAll ⟨typeDecls m, decls m⟩ d.params Ts → Resolves (typeDecls m) d.ret T →
    ∀ args, AllIs Ts args → Val.Is T (I.fn d.sym args)
  body : ∀ d ∈ decls m, FunOk ⟨typeDecls m, decls m⟩ (globals m) d → ∀ b, d.body = some b →
    ∀ Ts, ResolvesAll ⟨typeDecls m, decls m⟩ d.params Ts → ∀ args, AllIs Ts args →
    I.fn d.sym args = eval I (bind d.params args I.const) b
  attr : ∀ d ∈ decls m, ∀ s, d.attr = some s →
    ∀ Ts, ResolvesAll ⟨typeDecls m, decls m⟩ d.params Ts → ∀ args, AllIs Ts args → I.fn d.sym args = smt A s args

/-- The interpretation satisfies the prelude generated for mode `m` and the bounds `gl`, `ex` of the address space: function
declarations, types of the constants, and axioms. -/
structure Models (A : Arith U) (m : Mode) (gl ex : Int) (I : Interp U) : Prop extends Defines A m I where
  const : ∀ x t T, globals m x = some t → Resolves (typeDecls m) t T → Val.Is T (I.const x)
  axs : ∀ a ∈ axioms m gl ex, eval I I.const a = .bool true

/-- The operators that are not spelled out return values of the types that the declarations give them. -/
def Arith.Typed (A : Arith U) (m : Mode) : Prop :=
  ∀ d ∈ decls m, ∀ s, d.attr = some s → ∀ Ts T, ResolvesAll ⟨typeDecls m, decls m⟩ d.params Ts → Resolves (typeDecls m) d.ret T →
    ∀ args, AllIs Ts args → Val.Is T (A.other s args)

/-- A choice for the functions that have neither a body nor an attribute: values of the declared types that agree with the axioms
on one-bit integers and the axiom on `$and.i32` (Prelude.cpp:550-578). -/
structure Free (m : Mode) (J : Sym → List (Val U) → Val U) : Prop where
  typed : ∀ d ∈ decls m, d.body = none → d.attr = none → ∀ Ts T, ResolvesAll ⟨typeDecls m, decls m⟩ d.params Ts →
    Resolves (typeDecls m) d.ret T → ∀ args, AllIs Ts args → Val.Is T (J d.sym args)
  and1 : m.bp = false → ∀ a b : Bool, J ⟨"$and", [.ty (.i 1)]⟩ [.int a.toInt, .int b.toInt] = .int (a && b).toInt
  or1 : m.bp = false → ∀ a b : Bool, J ⟨"$or", [.ty (.i 1)]⟩ [.int a.toInt, .int b.toInt] = .int (a || b).toInt
  xor1 : m.bp = false → ∀ a b : Bool, J ⟨"$xor", [.ty (.i 1)]⟩ [.int a.toInt, .int b.toInt] = .int (a ^^ b).toInt
  and32 : m.bp = false → J ⟨"$and", [.ty (.i 32)]⟩ [.int 32, .int 16] = .int 0

end

end Smack.PreSem
