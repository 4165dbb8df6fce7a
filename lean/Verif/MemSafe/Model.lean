/-
Model of the pass MemorySafetyChecker (lib/smack/MemorySafetyChecker.cpp), on the functions of `Cfg`.

The number of an operation stands for the instruction with its types: `kind` tells the memory access it makes and the function it
calls. The bit cast of the address to `i8*` and the cast of the length to a pointer (46-47) do not change the value and are left
out: the check gets the operands themselves. Debug metadata is left out. Values are integers (the integer encodings).
-/
import Verif.Cfg.Spec
import Verif.Graphs.Model
import Verif.Naming.Model

namespace Smack.MemSafe

open Smack.Cfg

/-- The instructions that access memory. `size` is `getTypeStoreSize` of the type pointed to by the pointer operand (79). The
operands are those of LLVM: `load p`; `store v, p`; `memset(dest, val, len, volatile)`; `memcpy(dest, src, len, volatile)` and
`memmove`, which is also a MemTransferInst; `atomicrmw p, v` and `cmpxchg p, c, v`. -/
inductive Kind where
  | load (size : Nat)
  | store (size : Nat)
  | memset
  | memTransfer
  | atomic (size : Nat)
  | other
deriving DecidableEq, Repr

/-- The calls of insertMemoryAccessCheck for one instruction, in the order of insertion (each is placed directly before the
instruction, so after the previous one): visitLoadInst 95-97, visitStoreInst 99-101, visitMemSetInst 103-105, visitMemTransferInst
107-110, accessSizeAsPointer 72-92. There is no visitor for atomic instructions. -/
def checksOf : Kind → List (Opd Int) → List (Opd Int × Opd Int)
  | .load n, p :: _ => [(p, .const n)]
  | .store n, _ :: p :: _ => [(p, .const n)]
  | .memset, d :: _ :: l :: _ => [(d, l)]
  | .memTransfer, d :: s :: l :: _ => [(d, l), (s, l)]
  | _, _ => []

/-- What the pass knows: the kinds of operations, and the numbers of the calls of `__SMACK_check_memory_safety` and
`__SMACK_check_memory_leak`. -/
structure Ops where
  kind : Nat → Kind
  check : Nat
  leak : Nat

/-- insertMemoryAccessCheck, 41-55. -/
def checkInstr (O : Ops) (a : Opd Int × Opd Int) : Instr Int := ⟨none, O.check, [a.1, a.2]⟩

/-- insertMemoryLeakCheck, 35-39. -/
def leakInstr (O : Ops) : Instr Int := ⟨none, O.leak, []⟩

/-- An instruction with the checks before it. The visitor goes on with the next instruction; the inserted ones are not visited. -/
def visitInstr (O : Ops) (i : Instr Int) : List (Instr Int) := (checksOf (O.kind i.op) i.args).map (checkInstr O) ++ [i]

/-- Is the terminator a return instruction. -/
def isRet : Term Int → Bool
  | .ret _ => true
  | _ => false

/-- The visit of a block; visitReturnInst 66-71 inserts the leak check before the return. -/
def visitBlock (O : Ops) (entry : Bool) (blk : Block Int) : Block Int :=
  { blk with body := blk.body.flatMap (visitInstr O) ++ (if entry && isRet blk.term then [leakInstr O] else []) }

/-- The options of SmackOptions. -/
structure Opts where
  entryPoints : List Naming.Str
  checked : List Naming.Rx

/-- Naming::isSmackName: the pattern is ".*__SMACK_.*" (Naming.cpp:163, 167). -/
def isSmackName (name : Naming.Str) : Bool := Graphs.hasInfix "__SMACK_".toList name

/-- The test of runOnFunction, 57-60. -/
def instrumented (opts : Opts) (name : Naming.Str) : Bool :=
  !(isSmackName name || !Naming.shouldCheckFunction opts.checked name)

/-- runOnFunction, 57-64. -/
def runOnFunction (O : Ops) (opts : Opts) (name : Naming.Str) (fn : Fn Int) : Fn Int :=
  if instrumented opts name then fn.map (visitBlock O (Naming.isEntryPoint opts.entryPoints name)) else fn

/-- A defined function. -/
structure Func where
  name : Naming.Str
  params : List Var
  code : Fn Int

/-- The pass on a module. -/
def runOnModule (O : Ops) (opts : Opts) (mod : List Func) : List Func :=
  mod.map fun f => { f with code := runOnFunction O opts f.name f.code }

end Smack.MemSafe
