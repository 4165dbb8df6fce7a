/-
Model of the translation of control flow: terminators and phi nodes (lib/smack/SmackInstGenerator.cpp:148-333), the pass
NormalizeLoops (lib/smack/NormalizeLoops.cpp) and the pass AnnotateLoopExits (lib/smack/AnnotateLoopExits.cpp).

A function is a list of basic blocks; block 0 is the entry block. The instructions of a block other than phi nodes and the
terminator are abstract: an operation number, operands, and possibly a variable that is defined; what an operation does is a
parameter of the semantics. Values and memories are arbitrary types.
-/

namespace Smack.Cfg

abbrev Var := Nat

/-- An operand: an SSA variable or a constant. -/
inductive Opd (V : Type) where
  | var (x : Var)
  | const (v : V)
deriving DecidableEq, Repr

structure Instr (V : Type) where
  dst : Option Var
  op : Nat
  args : List (Opd V)

/-- A phi node: the variable and the incoming values with their blocks. -/
structure Phi (V : Type) where
  var : Var
  inc : List (Nat × Opd V)

/-- Terminators. The call of an invoke is the last instruction of the body of its block. -/
inductive Term (V : Type) where
  | ret (v : Option (Opd V))
  | br (t : Nat)
  | cbr (c : Opd V) (t f : Nat)
  | switch (c : Opd V) (cases : List (V × Nat)) (dflt : Nat)
  | invoke (normal unwind : Nat)
  | resume (v : Opd V)
  | unreachable

structure Block (V : Type) where
  phis : List (Phi V)
  body : List (Instr V)
  term : Term V

abbrev Fn (V : Type) := List (Block V)

/-- The successors in the order of `getSuccessor(i)`. -/
def Term.succs {V : Type} : Term V → List Nat
  | .ret _ => []
  | .br t => [t]
  | .cbr _ t f => [t, f]
  | .switch _ cs d => d :: cs.map Prod.snd
  | .invoke n u => [n, u]
  | .resume _ => []
  | .unreachable => []

/-! ## Boogie -/

/-- Labels of Boogie blocks: the block of a basic block, and the i-th dispatch block made for the terminator of a basic block. The
code numbers them with `freshBlockName` (Naming.cpp); only their distinctness is used here. -/
inductive Label where
  | real (b : Nat)
  | disp (b i : Nat)
deriving DecidableEq, Repr

/-- Conditions of assume statements. -/
inductive Cond (V : Type) where
  | isOne (c : Opd V)
  | notOne (c : Opd V)
  | eq (c : Opd V) (v : V)
  | neq (c : Opd V) (v : V)
  | and (a b : Cond V)
  | exn
  | notExn
  | tt
  | ff

inductive Stmt (V : Type) where
  | assume (c : Cond V)
  | assign (xs : List (Var × Opd V))
  | instr (i : Instr V)
  | annot (c : Option (Opd V))
  | goto (ls : List Label)
  | setRet (o : Opd V)
  | setExn (b : Bool)
  | setExnVal (o : Opd V)
  | return_

/-! ## Generator -/

/-- The Boogie blocks made so far. -/
abbrev Gen (V : Type) := Label → List (Stmt V)

variable {V : Type}

def Gen.upd (g : Gen V) (l : Label) (s : List (Stmt V)) : Gen V := fun l' => if l' = l then s else g l'

/-- Block::addStmt, BoogieAst.h:562. -/
def addStmt (g : Gen V) (l : Label) (s : Stmt V) : Gen V := g.upd l (g l ++ [s])

/-- Block::insert, BoogieAst.h:561: at the front. -/
def insert (g : Gen V) (l : Label) (s : Stmt V) : Gen V := g.upd l (s :: g l)

/-- The predecessors, one entry per edge. -/
def preds (fn : Fn V) (t : Nat) : List Nat :=
  (List.range fn.length).flatMap fun b => match fn[b]? with
    | some blk => (blk.term.succs.filter (· = t)).map fun _ => b
    | none => []

/-- llvm::BasicBlock::getUniquePredecessor: the block all predecessor edges come from. -/
def uniquePred (fn : Fn V) (t : Nat) : Option Nat :=
  match preds fn t with
  | [] => none
  | p :: ps => if ps.all (· = p) then some p else none

/-- The assignments for the phi nodes of one successor (SmackInstGenerator.cpp:185-195): the incoming value for block `b` is the
first entry for `b`. Stripping of pointer casts and aliases of the value is not modelled. -/
def phiPairs (b : Nat) (phis : List (Phi V)) : List (Var × Opd V) :=
  phis.filterMap fun p => (p.inc.lookup b).map fun o => (p.var, o)

/-- generatePhiAssigns, SmackInstGenerator.cpp:179-201. -/
def generatePhiAssigns (fn : Fn V) (b : Nat) (term : Term V) (g : Gen V) : Gen V :=
  let ps := term.succs.flatMap fun s => match fn[s]? with
    | some blk => phiPairs b blk.phis
    | none => []
  if ps.isEmpty then g else addStmt g (.real b) (.assign ps)

/-- The loop of generateGotoStmts, SmackInstGenerator.cpp:212-228. -/
def gotoLoop (fn : Fn V) (b : Nat) : List (Cond V × Nat) → Nat → Gen V → List Label → Gen V × List Label
  | [], _, g, ds => (g, ds)
  | (c, t) :: ts, i, g, ds =>
    if uniquePred fn t = some b then gotoLoop fn b ts (i + 1) (insert g (.real t) (.assume c)) (ds ++ [.real t])
    else gotoLoop fn b ts (i + 1) (addStmt (addStmt g (.disp b i) (.assume c)) (.disp b i) (.goto [.real t])) (ds ++ [.disp b i])

/-- generateGotoStmts, SmackInstGenerator.cpp:203-234. -/
def generateGotoStmts (fn : Fn V) (b : Nat) (targets : List (Cond V × Nat)) (g : Gen V) : Gen V :=
  if targets.length > 1 then
    let (g, ds) := gotoLoop fn b targets 0 g []
    addStmt g (.real b) (.goto ds)
  else match targets with
    | (_, t) :: _ => addStmt g (.real b) (.goto [.real t])
    | [] => g

/-- The loop over the cases in visitSwitchInst, SmackInstGenerator.cpp:286-294: it runs from `case_begin()` while the iterator differs
from `case_begin()`, so not at all. The arguments are the remaining cases, the position of the iterator, the targets and the condition
of the default case collected so far. -/
def switchLoop (c : Opd V) : List (V × Nat) → Nat → List (Cond V × Nat) → Cond V → List (Cond V × Nat) × Cond V
  | [], _, ts, n => (ts, n)
  | (v, t) :: cs, i, ts, n =>
    if i ≠ 0 then switchLoop c cs (i + 1) (ts ++ [(.eq c v, t)]) (.and n (.neq c v)) else (ts, n)

/-- The targets of a terminator: visitBranchInst 253-269, visitSwitchInst 280-297, visitInvokeInst 313-316. -/
def targets : Term V → List (Cond V × Nat)
  | .br t => [(.tt, t)]
  | .cbr c t f => [(.isOne c, t), (.notOne c, f)]
  | .switch c cs d =>
    let (ts, n) := switchLoop c cs 0 [] .tt
    ts ++ [(n, d)]
  | .invoke n u => [(.notExn, n), (.exn, u)]
  | _ => []

/-- visitReturnInst 240-248, visitBranchInst 250-275, visitSwitchInst 277-303, visitInvokeInst 305-320, visitResumeInst 322-327,
visitUnreachableInst 329-333. The source location annotations of processInstruction are omitted. -/
def visitTerm (fn : Fn V) (b : Nat) (t : Term V) (g : Gen V) : Gen V :=
  match t with
  | .ret v =>
    let g := match v with
      | some o => addStmt g (.real b) (.setRet o)
      | none => g
    addStmt (addStmt g (.real b) (.setExn false)) (.real b) .return_
  | .br _ => generateGotoStmts fn b (targets t) (generatePhiAssigns fn b t g)
  | .cbr c _ _ =>
    generateGotoStmts fn b (targets t) (addStmt (generatePhiAssigns fn b t g) (.real b) (.annot (some c)))
  | .switch c _ _ =>
    generateGotoStmts fn b (targets t) (addStmt (generatePhiAssigns fn b t g) (.real b) (.annot (some c)))
  | .invoke _ _ => generateGotoStmts fn b (targets t) (addStmt g (.real b) (.annot none))
  | .resume v =>
    addStmt (addStmt (addStmt g (.real b) (.setExn true)) (.real b) (.setExnVal v)) (.real b) .return_
  | .unreachable => addStmt g (.real b) (.assume .ff)

/-- The visit of a basic block: its instructions, then its terminator. Phi nodes produce only a declaration (visitPHINode). -/
def visitBlock (fn : Fn V) (g : Gen V) (b : Nat) : Gen V :=
  match fn[b]? with
  | some blk => visitTerm fn b blk.term (blk.body.foldl (fun g i => addStmt g (.real b) (.instr i)) g)
  | none => g

/-- The visit of a function: the blocks in order. -/
def translate (fn : Fn V) : Gen V := (List.range fn.length).foldl (visitBlock fn) fun _ => []

/-! ## NormalizeLoops -/

/-- `setSuccessor` on all successors equal to `h`. -/
def Term.redirect (h f : Nat) : Term V → Term V
  | .br t => .br (if t = h then f else t)
  | .cbr c t e => .cbr c (if t = h then f else t) (if e = h then f else e)
  | .switch c cs d => .switch c (cs.map fun p => (p.1, if p.2 = h then f else p.2)) (if d = h then f else d)
  | .invoke n u => .invoke (if n = h then f else n) (if u = h then f else u)
  | t => t

/-- splitBlock, NormalizeLoops.cpp:71-91 (with makeForwardingBlock 36-43 and getSuccessorIndices 49-64): if block `b` has several
successors and `h` is one of them, a new last block that branches to `h` is made and `b` is redirected to it. -/
def splitBlock (h b : Nat) (s : Fn V × List (Nat × Nat)) : Fn V × List (Nat × Nat) :=
  match s.1[b]? with
  | none => s
  | some blk =>
    if blk.term.succs.length ≤ 1 then s
    else if h ∈ blk.term.succs then
      ((s.1.set b { blk with term := blk.term.redirect h s.1.length }) ++ [⟨[], [], .br h⟩], (b, s.1.length) :: s.2)
    else s

/-- `setIncomingBlock` for one entry of a phi node. -/
def renameInc (m : List (Nat × Nat)) (q : Nat × Opd V) : Nat × Opd V :=
  match m.lookup q.1 with
  | some f => (f, q.2)
  | none => q

def renamePhi (m : List (Nat × Nat)) (p : Phi V) : Phi V := { p with inc := p.inc.map (renameInc m) }

/-- processPhis, NormalizeLoops.cpp:98-110, on the phi nodes of the header. -/
def processPhis (h : Nat) (m : List (Nat × Nat)) (fn : Fn V) : Fn V :=
  match fn[h]? with
  | none => fn
  | some blk => fn.set h { blk with phis := blk.phis.map (renamePhi m) }

/-- A loop of LoopInfo: its header and its blocks. -/
structure Loop where
  header : Nat
  blocks : List Nat

/-- processLoop without the recursion, NormalizeLoops.cpp:112-137. The set of incoming blocks is processed in the order of a list. -/
def processLoop (l : Loop) (fn : Fn V) : Fn V :=
  match fn[l.header]? with
  | none => fn
  | some hb =>
    let incs := (hb.phis.flatMap fun p => p.inc.map Prod.fst).eraseDups
    let s := (incs.filter fun b => l.blocks.contains b).foldl (fun s b => splitBlock l.header b s) (fn, [])
    processPhis l.header s.2 s.1

/-- runOnModule and the recursion into subloops, NormalizeLoops.cpp:139-158: the loops in preorder of the loop forest. The loop
information is computed once, before the first change. -/
def normalize (ls : List Loop) (fn : Fn V) : Fn V := ls.foldl (fun fn l => processLoop l fn) fn

/-! ## AnnotateLoopExits -/

/-- llvm::Loop::getExitBlocks: the successors outside the loop, one entry per edge. -/
def exitBlocks (fn : Fn V) (l : Loop) : List Nat :=
  l.blocks.flatMap fun b => match fn[b]? with
    | some blk => blk.term.succs.filter fun t => !l.blocks.contains t
    | none => []

/-- processExitBlock, AnnotateLoopExits.cpp:52-58: a call of `__SMACK_loop_exit` (operation `op`) before the first instruction of the
block. If the block has phi nodes, the call precedes them; generatePhiAssigns (SmackInstGenerator.cpp:186-188) stops at the first
instruction that is not a phi node, so it sees no phi nodes in the changed block. -/
def processExitBlock (op : Nat) (fn : Fn V) (t : Nat) : Fn V :=
  match fn[t]? with
  | some blk => fn.set t ⟨[], ⟨none, op, []⟩ :: blk.body, blk.term⟩
  | none => fn

/-- annotateLoopExit, AnnotateLoopExits.cpp:60-69. -/
def annotateLoopExit (op : Nat) (fn : Fn V) (l : Loop) : Fn V := (exitBlocks fn l).foldl (processExitBlock op) fn

/-- runOnFunction, AnnotateLoopExits.cpp:71-86. The iterators of LoopInfo run over the loops that are in no other loop: `tops`. -/
def annotateLoopExits (op : Nat) (tops : List Loop) (fn : Fn V) : Fn V := tops.foldl (annotateLoopExit op) fn

end Smack.Cfg
