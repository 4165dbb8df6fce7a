/-
Devirtualisation of indirect calls (lib/utils/Devirt.cpp).

LLVM types are interned, so a pointer type is represented by the number of its pointee; `env n` is the function type
with number `n`. Vector types and address spaces are left out.
-/

namespace Smack.Devirt

/-- First-class types. -/
inductive Ty where
  | void
  | int (w : Nat)
  | flt (kind w : Nat)
  | ptr (pointee : Nat)
  | agg (n : Nat)
deriving DecidableEq, Repr

/-- `llvm::FunctionType`. -/
structure FnTy where
  ret : Ty
  params : List Ty
  vararg : Bool
deriving DecidableEq, Repr

/-- `llvm::Function`: identity and type. -/
structure Fn where
  id : Nat
  ty : FnTy
deriving DecidableEq, Repr

/-- `Type::getScalarSizeInBits`: zero for pointers, aggregates and void. -/
def Ty.scalarBits : Ty → Nat
  | .int w => w
  | .flt _ w => w
  | _ => 0

/-- `CastInst::castIsValid(ZExt, ..)`. -/
def zextValid : Ty → Ty → Bool
  | .int a, .int b => a < b
  | _, _ => false

/-- `CastInst::castIsValid(BitCast, ..)` and `CastInst::isBitCastable` (which agree on these types). -/
def bitcastValid : Ty → Ty → Bool
  | .int a, .int b => a == b
  | .int a, .flt _ b => a == b
  | .flt _ a, .int b => a == b
  | .flt _ a, .flt _ b => a == b
  | .ptr _, .ptr _ => true
  | _, _ => false

/-- Devirt.cpp:79-82 `isZExtOrBitCastable`. -/
def castable (a b : Ty) : Bool := zextValid a b || bitcastValid a b

/-- The bit pattern of a value. Pointers have 64 bits. -/
structure Val where
  w : Nat
  bits : BitVec w
deriving DecidableEq, Repr

/-- Width of the values of a type. -/
def Ty.width : Ty → Nat
  | .int w => w
  | .flt _ w => w
  | .ptr _ => 64
  | _ => 0

/-- Devirt.cpp:51-77 `castTo` with `CastInst::CreateZExtOrBitCast`: a bitcast if the scalar sizes agree, else a zero
extension. `none`: LLVM's assertion that the cast is valid fails. -/
def castTo (a b : Ty) (v : Val) : Option Val :=
  if a = b then some v
  else if a.scalarBits = b.scalarBits then
    if bitcastValid a b then some v else none
  else
    if zextValid a b then some ⟨b.width, v.bits.setWidth b.width⟩ else none

/-- A call site: result type, number of the function type the called operand points to, type of
`getCalledOperand()->stripPointerCastsAndAliases()`, argument types. -/
structure Site where
  ret : Ty
  callee : Nat
  stripped : Ty
  args : List Ty
deriving DecidableEq, Repr

/-- Devirt.cpp:84-108 `match`. -/
def match_ (s : Site) (f : Fn) : Bool :=
  (f.ty.ret == s.ret || bitcastValid f.ty.ret s.ret) &&
  !(decide (s.args.length < f.ty.params.length)) &&
  !(decide (s.args.length > f.ty.params.length) && !f.ty.vararg) &&
  (s.args.zip f.ty.params).all fun (a, p) => a == p || castable a p

/-- A call block of the bounce function (Devirt.cpp:239-263): the target and, per argument, the type of the bounce
parameter and of the target's parameter. -/
structure Block where
  target : Fn
  casts : List (Ty × Ty)
deriving DecidableEq, Repr

/-- The comparison blocks (Devirt.cpp:269-330). -/
inductive Node where
  /-- `fail` with `unreachable` -/
  | unreachable
  /-- `fail` with `ret void` -/
  | retVoid
  /-- `test.f`: branch to the call block if the pointer is the address of `f`, else to the next block. -/
  | test (f : Fn) (call : Block) (next : Node)
deriving Repr

/-- A bounce function: result type, number of the pointee of its first parameter, the other parameters, body. -/
structure Bounce where
  ret : Ty
  callee : Nat
  params : List Ty
  entry : Node
deriving Repr

/-- Devirt.cpp:251-258: the loop over parameters and formal types stops at the shorter one. -/
def block (params : List Ty) (f : Fn) : Block := { target := f, casts := params.zip f.ty.params }

/-- Devirt.cpp:193-338 `buildBounce`. -/
def buildBounce (s : Site) (targets : List Fn) : Bounce :=
  let fail := if targets.length = 0 then Node.retVoid else Node.unreachable
  { ret := s.ret, callee := s.callee, params := s.args,
    entry := targets.foldl (fun tail f => .test f (block s.args f) tail) fail }

/-- Devirt.cpp:110-126 `checkArgs`: one more parameter than arguments, and castable types. -/
def checkArgs (s : Site) (b : Bounce) : Bool :=
  (s.args.length + 1 == b.params.length + 1) &&
  (s.args.zip b.params).all fun (a, p) => a == p || castable a p

/-- Equality of `std::set`s. -/
def sameSet (a b : List Fn) : Bool := a.all (· ∈ b) && b.all (· ∈ a)

/-- Devirt.cpp:141-183: the test applied to one cache entry. -/
def usable (env : Nat → FnTy) (s : Site) (targets : List Fn) (e : Bounce × List Fn) : Bool :=
  s.ret == e.1.ret && s.stripped == Ty.ptr e.1.callee &&
  !((env e.1.callee).vararg && !checkArgs s e.1) &&
  sameSet targets e.2

/-- `bounceCache`. The map is keyed by pointers, so its iteration order is arbitrary; `insertAt` makes it a parameter. -/
abbrev Cache := List (Bounce × List Fn)

def findInCache (env : Nat → FnTy) (cache : Cache) (s : Site) (targets : List Fn) : Option Bounce :=
  (cache.find? (usable env s targets)).map (·.1)

def insertAt (k : Nat) (e : Bounce × List Fn) (c : Cache) : Cache := c.take k ++ e :: c.drop k

/-- Devirt.cpp:355-436 `makeDirectCall`: the new cache and the bounce function that is called. `candidates` is
what the call graph offers (or all address-taken functions); `k` is the place of a new entry. -/
def makeDirectCall (env : Nat → FnTy) (cache : Cache) (s : Site) (candidates : List Fn) (k : Nat) : Cache × Bounce :=
  let targets := candidates.filter (match_ s)
  match findInCache env cache s targets with
  | some b => (cache, b)
  | none => (insertAt k (buildBounce s targets, targets) cache, buildBounce s targets)

/-- Devirt.cpp:393-399: arguments of the new call, cast to the parameter types of the bounce function. -/
def callArgs (s : Site) (b : Bounce) (vs : List Val) : Option (List Val) :=
  ((s.args.zip b.params).zip vs).mapM fun ((a, p), v) => castTo a p v

/-- Result of running a bounce function up to the direct call. -/
inductive Outcome where
  | called (f : Fn) (args : List Val)
  | undefined
  | returned
  | invalid
deriving DecidableEq, Repr

def runBlock (b : Block) (vs : List Val) : Outcome :=
  match (b.casts.zip vs).mapM fun ((a, p), v) => castTo a p v with
  | some ws => .called b.target ws
  | none => .invalid

def Node.run (addr : Fn → Nat) (p : Nat) (vs : List Val) : Node → Outcome
  | .unreachable => .undefined
  | .retVoid => .returned
  | .test f b next => if addr f = p then runBlock b vs else next.run addr p vs

/-- The replaced call: cast the arguments, then run the bounce function with pointer `p`. -/
def runCall (addr : Fn → Nat) (s : Site) (b : Bounce) (p : Nat) (vs : List Val) : Outcome :=
  match callArgs s b vs with
  | some ws => b.entry.run addr p ws
  | none => .invalid

/-- The history of a module: a sequence of call sites with their candidates. -/
def history (env : Nat → FnTy) : List (Site × List Fn × Nat) → Cache
  | [] => []
  | (s, cands, k) :: rest => (makeDirectCall env (history env rest) s cands k).1

end Smack.Devirt
