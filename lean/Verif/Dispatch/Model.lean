/-
Translation of call instructions (lib/smack/SmackInstGenerator.cpp:305-320, 633-822) and the pass for Rust programs that runs before
(lib/smack/RustFixes.cpp). Names are lists of characters as in `Naming`.
-/
import Verif.Naming.Model
import Verif.Graphs.Model

namespace Smack.Dispatch

open Naming (Str Rx shouldCheckFunction isRustPanic isRustNameMatch ident)

/-! ## Call instructions -/

/-- The options used (SmackOptions.cpp:17-20, 95-97). -/
structure Opts where
  rustPanics : Bool
  checked : List Rx

inductive Ret where
  | void | ptr | other
deriving DecidableEq, Repr

/-- A call instruction as far as it matters for `visitCallInst`: inline assembly or not, the functions it is in and it calls, whether the latter is
a declaration, the result type, whether the region of the result is allocated (SmackRep.cpp:287-290), and for contract functions whether
the argument is a call of an extracted expression, and whether the call is in a loop. -/
structure Site where
  asm : Bool := false
  caller : Str
  callee : Str
  isDecl : Bool := false
  ret : Ret := .void
  allocated : Bool := true
  contractArg : Bool := false
  inLoop : Bool := false

/-- What is generated. Texts and expressions (C24, C68) are left out. -/
inductive Act where
  /-- `skip;` -/
  | skip
  /-- `assert {:rust_panic} false;` -/
  | assertPanic
  /-- `call x := __SMACK_value…(…);` -/
  | value
  | returnValue
  /-- a `modifies` clause, a statement, a local declaration, a global declaration -/
  | modifies | code | localDecl | topDecl
  /-- a `requires` clause, an `ensures` clause, an assertion at the loop head -/
  | requires | ensures | invariant
  /-- `call x := f(…);` -/
  | call (f : Str)
  /-- `assume $isExternal(x);` -/
  | assumeExternal
  /-- `call {:cexpr "smack:ext:f"} boogie_si_record_T(x);` -/
  | record (f : Str)
deriving DecidableEq, Repr

/-- `name.find(p) != StringRef::npos`. -/
def contains (p name : Str) : Bool := Graphs.hasInfix p name

/-- `name.find(p) == 0`. -/
def startsWith (p name : Str) : Bool := p.isPrefixOf name

/-- Naming.cpp:33-38. -/
def VALUE_PROC : Str := "__SMACK_value".toList
def RETURN_VALUE_PROC : Str := "__SMACK_return_value".toList
def MOD_PROC : Str := "__SMACK_mod".toList
def CODE_PROC : Str := "__SMACK_code".toList
def DECL_PROC : Str := "__SMACK_decl".toList
def TOP_DECL_PROC : Str := "__SMACK_top_decl".toList
/-- Naming.cpp:27-31, 89. -/
def CONTRACT_REQUIRES : Str := "__CONTRACT_requires".toList
def CONTRACT_ENSURES : Str := "__CONTRACT_ensures".toList
def CONTRACT_INVARIANT : Str := "__CONTRACT_invariant".toList
def CONTRACT_FORALL : Str := "__CONTRACT_forall".toList
def CONTRACT_EXPR : Str := "$expr".toList
/-- Naming.cpp:75. -/
def RUST_PANIC_MARKER : Str := "__SMACK_RUST_PANIC_MARKER".toList

/-- 657, 695. -/
def ASSERT_FN : Str := "__VERIFIER_assert".toList
def INT_VARIABLE_FN : Str := "__CONTRACT_int_variable".toList

/-- 649-803: the statement generated for the call; `none` for a failed assertion or `llvm_unreachable`, `some none` for the early return of
659. -/
def choose (o : Opts) (s : Site) : Option (Option (List Act)) :=
  let name := s.callee
  if o.rustPanics && name == RUST_PANIC_MARKER && shouldCheckFunction o.checked s.caller then some (some [.assertPanic])
  else if name == ASSERT_FN && !shouldCheckFunction o.checked s.caller then some none
  else if contains VALUE_PROC name then some (some [.value])
  else if contains RETURN_VALUE_PROC name then some (some [.returnValue])
  else if contains MOD_PROC name then some (some [.modifies])
  else if contains CODE_PROC name then some (some [.code])
  else if contains DECL_PROC name then some (some [.localDecl])
  else if contains TOP_DECL_PROC name then some (some [.topDecl])
  else if startsWith CONTRACT_EXPR (ident name) then some (some [])
  else if name == INT_VARIABLE_FN then some (some [])
  else if name == CONTRACT_FORALL then none
  else if name == CONTRACT_REQUIRES || name == CONTRACT_ENSURES || name == CONTRACT_INVARIANT then
    if !s.contractArg then none
    else if name == CONTRACT_REQUIRES then some (some [.requires])
    else if name == CONTRACT_ENSURES then some (some [.ensures])
    else if s.inLoop then some (some [.invariant]) else none
  else some (some [.call (ident name)])

/-- EXTERNAL_PROC_IGNORE, 39. -/
def externalIgnore (name : Str) : Bool := name == "malloc".toList || name == "__VERIFIER_nondet".toList

/-- isExternal, SmackRep.cpp:287-290. -/
def isExternal (s : Site) : Bool := s.ret == .ptr && !s.allocated

/-- 805-810. -/
def externalPart (s : Site) : List Act :=
  if s.isDecl && !externalIgnore (ident s.callee) && isExternal s then [.assumeExternal] else []

/-- 812-817. -/
def recordPart (s : Site) : List Act :=
  if (startsWith "__SMACK".toList (ident s.callee) || startsWith "__VERIFIER".toList (ident s.callee)) && s.ret != .void
  then [.record (ident s.callee)] else []

/-- visitCallInst, 633-818. -/
def visitCall (o : Opts) (s : Site) : Option (List Act) :=
  if s.asm then some [.skip]
  else match choose o s with
    | none => none
    | some none => some []
    | some (some a) => some (a ++ externalPart s ++ recordPart s)

/-- visitInvokeInst, 305-311, before the branch on `$exn`. -/
def visitInvoke (s : Site) : List Act := [.call (ident s.callee)]

/-! ## RustFixes -/

/-- The instructions distinguished by the pass; `n` identifies the instruction otherwise. -/
inductive Inst where
  /-- `x = call r f(g, …)`; `g` is the function passed as first argument with its result type, if it is a function -/
  | call (n : Nat) (f : Str) (g : Option (Str × Ret)) (r : Ret)
  /-- `x = add 0, 0` with the uses of the instruction `n` -/
  | zero (n : Nat)
  | invoke (n : Nat) (f : Str)
  | other (n : Nat)
deriving DecidableEq, Repr

/-- A function; a body is the list of its instructions, the blocks do not matter. -/
structure Fn where
  name : Str
  body : Option (List Inst)
deriving DecidableEq, Repr

/-- RustFixes.cpp:34-43. -/
def allocFns : List (Str × Str) :=
  [("_ZN5alloc5alloc5alloc17h", "__smack_rust_std_alloc"), ("_ZN5alloc5alloc12alloc_zeroed17h", "__smack_rust_std_alloc_zeroed"),
   ("_ZN5alloc5alloc7dealloc17h", "__smack_rust_std_dealloc"), ("_ZN5alloc5alloc7realloc17h", "__smack_rust_std_realloc"),
   ("__rust_alloc", "__smack_rust_prim_alloc"), ("__rust_alloc_zeroed", "__smack_rust_prim_alloc_zeroed"),
   ("__rust_dealloc", "__smack_rust_prim_dealloc"), ("__rust_realloc", "__smack_rust_prim_realloc")].map
    fun p => (p.1.toList, p.2.toList)

/-- RustFixes.cpp:49-58: each matching entry sets the callee, so the last one (in the order of the map) would win; C62 shows that at most one
matches. That the replacement is present is asserted (54). -/
def allocCallee (f : Str) : Str := allocFns.foldl (fun cur kv => if isRustNameMatch kv.1 f then kv.2 else cur) f

/-- RustFixes.cpp:45-80, one instruction: a panic call is replaced by a call of the marker, which has type `void ()`. -/
def fixInst : Inst → Inst
  | .call n f g r => if isRustPanic f then .call n RUST_PANIC_MARKER none .void else .call n (allocCallee f) g r
  | i => i

/-- replaceSpecialRustFunctions, 30-83. -/
def replaceSpecial (b : List Inst) : List Inst := b.map fixInst

/-- Naming.cpp:65-67. -/
def RUST_ENTRY : Str := "_ZN3std2rt10lang_start".toList
def RUST_LANG_START_INTERNAL : Str := "_ZN3std2rt19lang_start_internal".toList

/-- fixEntry, 99-132, one instruction. `cast<Function>` of the first argument is asserted; calls with another argument are left alone here.
The inserted call is not looked at again (its callee would have to contain the name of `lang_start`). -/
def fixEntryInst : Inst → List Inst
  | .call n f g r =>
    if contains RUST_ENTRY f then
      match g with
      | some m => [.zero n, .call n m.1 none m.2]
      | none => [.call n f g r]
    else [.call n f g r]
  | i => [i]

def fixEntry (b : List Inst) : List Inst := b.flatMap fixEntryInst

/-- RustFixes::runOnFunction, 134-153. -/
def runOnFunction (f : Fn) : Fn :=
  match f.body with
  | none => f
  | some b =>
    if contains "__SMACK_".toList f.name then f
    else if contains RUST_LANG_START_INTERNAL f.name || contains RUST_ENTRY f.name || isRustPanic f.name then { f with body := none }
    else { f with body := some (replaceSpecial (if f.name == "main".toList then fixEntry b else b)) }

/-- All functions of the module. -/
def runOnModule (fs : List Fn) : List Fn := fs.map runOnFunction

/-- The statements for the instructions of a function after the pass (the instructions other than calls are not translated here). -/
inductive Out where
  | acts (n : Nat) (a : Option (List Act))
  | zero (n : Nat)
  | other (n : Nat)
deriving DecidableEq, Repr

/-- `site` supplies the remaining data of a call. -/
def translate (o : Opts) (caller : Str) (site : Nat → Site) : Inst → Out
  | .call n f _ r => .acts n (visitCall o { site n with asm := false, caller := caller, callee := f, ret := r })
  | .invoke n f => .acts n (some (visitInvoke { site n with asm := false, caller := caller, callee := f }))
  | .zero n => .zero n
  | .other n => .other n

def translateFn (o : Opts) (site : Nat → Site) (f : Fn) : Option (List Out) := f.body.map (·.map (translate o f.name site))

end Smack.Dispatch
