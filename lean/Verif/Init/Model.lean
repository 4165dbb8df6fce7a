/-
Model of module initialisation: SmackModuleGenerator.cpp:36-118 (`generateProgram`, the parts that build procedures),
SmackRep.cpp:102-109 (constructor), 1231-1250 (`addInitFunc`, `getInitFuncs`), BoogieAst.h:561 and 592 (`insert`), and an
execution semantics of the generated procedures.

Statements other than calls are opaque (`other`). Blocks refer to their successors by index; a block without successors
returns. Not modelled: declarations, contracts, asserts inside procedures (they only cut executions short).
-/
import Verif.Alloc.Model

namespace Smack.Init

inductive Stmt where
  | call (n : String)
  | other (k : Nat)
  /-- `$rmode := RNE` -/
  | rmode
deriving DecidableEq, Repr

structure Blk where
  stmts : List Stmt
  succs : List Nat
deriving DecidableEq, Repr

/-- A Boogie procedure. -/
structure Proc where
  name : String
  blocks : List Blk
deriving DecidableEq, Repr

/-- An LLVM function: `name` is `naming.get(F)`, `entry` is `SmackOptions::isEntryPoint(F.getName())`, `defined` is that it has
a non-empty body, `noSig` that it takes and returns nothing, `procs` the procedures made of it, with the bodies that the
instruction generator has produced (several only for functions with variable arguments, SmackRep.cpp:1069-1094). -/
structure Fun where
  name : String
  entry : Bool
  defined : Bool
  noSig : Bool
  procs : List Proc
deriving DecidableEq, Repr

/-- Naming.cpp:24, 39, 40. -/
def INIT_FUNC_PREFIX : String := "__SMACK_init_func"
def INITIALIZE_PROC : String := "$initialize"
def STATIC_INIT_PROC : String := "__SMACK_static_init"

/-- BoogieAst.h:561 and 592: at the beginning of the first block. -/
def insert (s : Stmt) (p : Proc) : Proc :=
  match p.blocks with
  | [] => p
  | b :: bs => { p with blocks := { b with stmts := s :: b.stmts } :: bs }

/-- SmackModuleGenerator.cpp:84: `naming.get(F).find(INIT_FUNC_PREFIX) == 0`. -/
def hasPrefix (n : String) : Bool := INIT_FUNC_PREFIX.toList.isPrefixOf n.toList

/-- State of the loop: `SmackRep::initFuncs` and the declarations so far. -/
structure GenSt where
  inits : List String
  decls : List Proc

/-- SmackModuleGenerator.cpp:70-87, one procedure of a function with a body; `none` is a failed assertion of
`addInitFunc`. -/
def genProc (f : Fun) (g : GenSt) (p : Proc) : Option GenSt :=
  if f.entry then some { g with decls := g.decls ++ [insert (.call INITIALIZE_PROC) p] }
  else if hasPrefix f.name then
    if f.noSig then some { inits := g.inits ++ [f.name], decls := g.decls ++ [p] } else none
  else some { g with decls := g.decls ++ [p] }

/-- SmackModuleGenerator.cpp:51-95, one function. Functions without a body only get their declarations. -/
def genFun (g : GenSt) (f : Fun) : Option GenSt :=
  if f.defined then f.procs.foldlM (genProc f) g else some { g with decls := g.decls ++ f.procs }

/-- SmackRep.cpp:106-108. -/
def initial (memorySafety : Bool) : List String :=
  (if memorySafety then ["$global_allocations"] else []) ++ [STATIC_INIT_PROC]

/-- SmackRep.cpp:1238-1250 `getInitFuncs`. -/
def initProc (floatEnabled : Bool) (inits : List String) : Proc :=
  { name := INITIALIZE_PROC,
    blocks := [{ stmts := inits.map .call ++ (if floatEnabled then [.rmode] else []), succs := [] }] }

/-- The procedures of the program. -/
def generate (memorySafety floatEnabled : Bool) (fs : List Fun) : Option (List Proc) := do
  let g ← fs.foldlM genFun { inits := initial memorySafety, decls := [] }
  some (g.decls ++ [initProc floatEnabled g.inits])

/-! Executions. -/

/-- The procedure with a given name that has a body. -/
def find (ps : List Proc) (n : String) : Option Proc := ps.find? fun p => p.name == n && !p.blocks.isEmpty

/-- An activation: the blocks of the procedure, what is left of the current block, and its successors. -/
structure Frame where
  blocks : List Blk
  rest : List Stmt
  succs : List Nat

/-- The activations, innermost first, and the statements executed so far with the depth of the activation that executed
them (the outermost has depth 0). -/
structure Conf where
  stack : List Frame
  trace : List (Nat × Stmt)

/-- The activation at the start of a procedure. -/
def enter (p : Proc) : Option Frame :=
  match p.blocks with
  | [] => none
  | b :: _ => some ⟨p.blocks, b.stmts, b.succs⟩

inductive Step (ps : List Proc) : Conf → Conf → Prop
  /-- a statement that is not a call, or a call of a procedure without a body -/
  | exec (f : Frame) (s : Stmt) (r : List Stmt) (σ : List Frame) (t : List (Nat × Stmt)) :
      f.rest = s :: r → (∀ n, s = .call n → find ps n = none) →
      Step ps ⟨f :: σ, t⟩ ⟨{ f with rest := r } :: σ, t ++ [(σ.length, s)]⟩
  | call (f : Frame) (n : String) (r : List Stmt) (σ : List Frame) (t : List (Nat × Stmt)) (p : Proc) (g : Frame) :
      f.rest = .call n :: r → find ps n = some p → enter p = some g →
      Step ps ⟨f :: σ, t⟩ ⟨g :: { f with rest := r } :: σ, t ++ [(σ.length, .call n)]⟩
  | goto (f : Frame) (j : Nat) (b : Blk) (σ : List Frame) (t : List (Nat × Stmt)) :
      f.rest = [] → j ∈ f.succs → f.blocks[j]? = some b → Step ps ⟨f :: σ, t⟩ ⟨⟨f.blocks, b.stmts, b.succs⟩ :: σ, t⟩
  | ret (f g : Frame) (σ : List Frame) (t : List (Nat × Stmt)) :
      f.rest = [] → f.succs = [] → Step ps ⟨f :: g :: σ, t⟩ ⟨g :: σ, t⟩

inductive Reach (ps : List Proc) (c : Conf) : Conf → Prop
  | refl : Reach ps c c
  | step (d e : Conf) : Reach ps c d → Step ps d e → Reach ps c e

end Smack.Init
