/-
Procedure declarations and calls: lib/smack/SmackRep.cpp findCallers 23-50, vectorType 168-172, procName 199-214, type 216-244,
valueAnnotation 350-438 (names and arguments), returnValueAnnotation 440-451, procedure 1015-1094, call 1100-1122;
SmackModuleGenerator.cpp:50-66.

Statements inside the procedures, attributes and the expressions of the arguments (only their types) are not modelled. `naming->get` of a
function is a field of the function (C22 is about it). Floating-point types other than the four supported ones end the translator with
`llvm_unreachable` and are left out.
-/
import Verif.Naming.Model

namespace Smack.Calls

open Smack.Naming (Str dec)

/-- Kinds of floating-point types. -/
inductive Fp where
  | half | float | double | x86
deriving DecidableEq, Repr

/-- Types of scalars. -/
inductive Elem where
  | int (w : Nat)
  | fp (k : Fp)
  | ptr
deriving DecidableEq, Repr

/-- LLVM types; `other` are structures, arrays, labels and `void`. -/
inductive Ty where
  | elem (e : Elem)
  | vec (n : Nat) (e : Elem)
  | other
deriving DecidableEq, Repr

/-- SmackOptions::BitPrecise and FloatEnabled. -/
structure Mode where
  bitPrecise : Bool
  floatEnabled : Bool
deriving DecidableEq, Repr

/-- SmackRep.cpp:161-166; widths below `2^32 - 1`. -/
def intType (m : Mode) (w : Nat) : Str := (if m.bitPrecise then ['b', 'v'] else ['i']) ++ dec w

def ptrType : Str := ['r', 'e', 'f']

/-- SmackRep.cpp:216-244; the names are in Naming.cpp:15-21. -/
def elemType (m : Mode) : Elem → Str
  | .fp k =>
    if m.floatEnabled then
      match k with
      | .half => "bvhalf".toList
      | .float => "bvfloat".toList
      | .double => "bvdouble".toList
      | .x86 => "bvlongdouble".toList
    else "float".toList
  | .int w => intType m w
  | .ptr => ptrType

/-- SmackRep.cpp:216-244 and 168-172. -/
def type (m : Mode) : Ty → Str
  | .elem e => elemType m e
  | .vec n e => ['v', 'e', 'c'] ++ '.' :: (dec n ++ 'x' :: elemType m e)
  | .other => ptrType

/-- A function; `name` is `naming->get(F)` and `value` says that its LLVM name is `__SMACK_value`, `returnValue` that it is
`__SMACK_return_value`. `ret = none` is `void`. -/
structure Func where
  name : Str
  params : List (Str × Ty)
  ret : Option Ty
  varArg : Bool
  value : Bool
  returnValue : Bool
deriving DecidableEq, Repr

/-- A call or invoke instruction: the function after stripping pointer casts, whether `getCalledFunction()` finds it (no cast), the types of the
arguments and the result, and the return type of the enclosing function. -/
structure Site where
  callee : Nat
  direct : Bool
  invoke : Bool
  args : List Ty
  ret : Option Ty
  parentRet : Option Ty
deriving DecidableEq, Repr

/-- The values of a module: `users`; nodes that are call instructions and their sites. Function `k` is node `k`. -/
structure Module where
  mode : Mode
  funcs : List Func
  sites : List Site
  users : Nat → List Nat
  callAt : Nat → Option Nat
  size : Nat
  /-- `memoryMaps()`, SmackRep.cpp:280-286 -/
  memoryMaps : List (Str × Str)

/-! ### findCallers -/

structure Bfs where
  queue : List Nat
  covered : List Nat
  callers : List Nat

/-- SmackRep.cpp:42-46. -/
def push : List Nat → Bfs → Bfs
  | [], s => s
  | v :: vs, s => push vs (if s.covered.contains v then s else { s with queue := s.queue ++ [v], covered := v :: s.covered })

/-- SmackRep.cpp:34-46: one round of the loop. -/
def round (md : Module) (s : Bfs) : Bfs :=
  match s.queue with
  | [] => s
  | u :: q =>
    match md.callAt u with
    | some c => { s with queue := q, callers := s.callers ++ [c] }
    | none => push (md.users u) { s with queue := q }

def rounds (md : Module) : Nat → Bfs → Bfs
  | 0, s => s
  | n + 1, s => rounds md n (round md s)

/-- SmackRep.cpp:23-50. The loop ends after at most `size` rounds (`c68_terminates`). -/
def findCallers (md : Module) (f : Nat) : List Nat := (rounds md md.size ⟨[f], [f], []⟩).callers

/-! ### Names -/

/-- SmackRep.cpp:206-214. -/
def procName (m : Mode) (f : Func) (ts : List Ty) : Str :=
  f.name ++ if f.varArg then ts.flatMap (fun t => '.' :: type m t) else []

/-- SmackRep.cpp:199-204: the types of all operands but the last, which is the callee. The operands of an invoke before the callee end with the
two destinations. -/
def operandTypes (s : Site) : List Ty := if s.invoke then s.args ++ [.other, .other] else s.args

/-- `indexedName("p", {i})`. -/
def paramName (i : Nat) : Str := ['p', '.'] ++ dec i

/-! ### Declarations -/

structure Proc where
  name : Str
  params : List (Str × Str)
  rets : List Str
deriving DecidableEq, Repr

/-- SmackRep.cpp:1011-1013 with Naming::CONTRACT_EXPR. -/
def isContractExpr (n : Str) : Bool := "$expr".toList.isPrefixOf n

/-- SmackRep.cpp:1057-1060: the parameters for the arguments from position `i` on. -/
def extra (m : Mode) : Nat → List Ty → List (Str × Str)
  | _, [] => []
  | i, t :: ts => (paramName i, type m t) :: extra m (i + 1) ts

/-- SmackRep.cpp:1015-1067. -/
def procedure (md : Module) (f : Func) (ci : Option Site) : Proc :=
  let fixed := f.params.map fun p => (p.1, type md.mode p.2)
  let rets := (f.ret.map (type md.mode)).toList
  if f.name = "malloc".toList ∨ f.name = "free_".toList then ⟨f.name, fixed, rets⟩
  else if isContractExpr f.name then ⟨f.name, fixed ++ md.memoryMaps, rets⟩
  else match ci with
    | none => ⟨f.name, fixed, rets⟩
    | some c =>
      let ret := c.direct && match md.funcs[c.callee]? with | some g => g.returnValue | none => false
      if ret then
        let t := c.parentRet.getD .other
        ⟨procName md.mode f [t], fixed ++ [(paramName 0, type md.mode t)], rets⟩
      else
        ⟨procName md.mode f (operandTypes c), fixed ++ extra md.mode f.params.length (c.args.drop f.params.length), rets⟩

/-- SmackRep.cpp:1083-1090: one declaration for each name. -/
def dedup : List Str → List Proc → List Proc
  | _, [] => []
  | names, d :: ds => if names.contains d.name then dedup names ds else d :: dedup (d.name :: names) ds

/-- SmackRep.cpp:1069-1094. -/
def procedures (md : Module) (k : Nat) (f : Func) : List Proc :=
  let callers := findCallers md k ++
    if f.value then
      match md.funcs.findIdx? (·.returnValue) with
      | some r => findCallers md r
      | none => []
    else []
  if callers.isEmpty || !f.varArg then [procedure md f none]
  else dedup [] (callers.filterMap fun c => (md.sites[c]?).map fun s => procedure md f (some s))

/-- SmackModuleGenerator.cpp:50-66 without `DECLARATIONS_PROC`. -/
def declarations (md : Module) : List Proc := md.funcs.zipIdx.flatMap fun p => procedures md p.2 p.1

/-! ### Calls -/

structure Call where
  name : Str
  args : List Str
  rets : List Str
deriving DecidableEq, Repr

/-- SmackRep.cpp:1100-1122. -/
def call (md : Module) (f : Func) (s : Site) : Call :=
  ⟨procName md.mode f (operandTypes s), s.args.map (type md.mode), (s.ret.map (type md.mode)).toList⟩

/-- SmackRep.cpp:350-362, 390, 437: `valueAnnotation`; `none` is a failed assertion. Pointer casts around the argument do not change its
Boogie type. -/
def valueCall (md : Module) (s : Site) : Option Call :=
  match s.args with
  | [t] => some ⟨"__SMACK_value".toList ++ '.' :: type md.mode t, [type md.mode t], (s.ret.map (type md.mode)).toList⟩
  | [t, u] => some ⟨"__SMACK_values".toList, [type md.mode t, type md.mode u], (s.ret.map (type md.mode)).toList⟩
  | _ => none

/-- SmackRep.cpp:440-451: `returnValueAnnotation`. -/
def returnValueCall (md : Module) (s : Site) : Call :=
  let t := type md.mode (s.parentRet.getD .other)
  ⟨"__SMACK_value".toList ++ '.' :: t, [t], (s.ret.map (type md.mode)).toList⟩

end Smack.Calls
