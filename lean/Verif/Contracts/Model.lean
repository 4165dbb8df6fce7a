/-
Model of the treatment of contracts: lib/smack/ExtractContracts.cpp, the contract cases of `SmackInstGenerator::visitCallInst`
(SmackInstGenerator.cpp:728-757) and `Decl::code` (BoogieAst.cpp:256-282).

A function is its list of blocks in layout order. Instructions other than the calls of contract functions are opaque (`op`); they have no phi
nodes. `CodeExtractor` of LLVM is modelled by its result: the region becomes a function of its own whose first block is the entry and in which
every branch out of the region returns. That the region can be extracted at all (single entry, no return) is not modelled but stated where needed.
-/
import Verif.PreludeTy.Typing

namespace Smack.Contracts

/-- The three contract functions, ExtractContracts.cpp:29-33. -/
inductive Kind where
  | requires_ | ensures_ | invariant_
deriving DecidableEq, Repr

/-- `contract k a` is the call of a contract function with argument `a`. -/
inductive Instr where
  | op (i : Nat)
  | contract (k : Kind) (arg : Nat)
deriving DecidableEq, Repr

/-- The block `n` of the input is `(n, 0)`; `(n, k + 1)` is what was split off from `(n, k)`. -/
abbrev Name := Nat × Nat

inductive Term where
  | br (b : Name)
  | cond (c : Nat) (t f : Name)
  | ret
deriving DecidableEq, Repr

structure Block where
  name : Name
  instrs : List Instr
  term : Term
deriving DecidableEq, Repr

/-- The instructions up to and including the first contract call, and the others; ExtractContracts.cpp:85-93. -/
def splitFirst : List Instr → Option (List Instr × List Instr)
  | [] => none
  | .contract k a :: r => some ([.contract k a], r)
  | .op i :: r =>
    match splitFirst r with
    | none => none
    | some (x, y) => some (.op i :: x, y)

theorem splitFirst_lt {l a b : List Instr} (h : splitFirst l = some (a, b)) : b.length < l.length := by
  induction l generalizing a b with
  | nil => cases h
  | cons i r ih =>
    cases i with
    | contract k x =>
      cases h
      exact Nat.lt_succ_self _
    | op x =>
      rw [splitFirst] at h
      cases hr : splitFirst r with
      | none => rw [hr] at h; cases h
      | some p =>
        obtain ⟨u, v⟩ := p
        rw [hr] at h
        cases h
        exact Nat.lt_succ_of_lt (ih hr)

/-- ExtractContracts.cpp:81-110, for one block: the new block is put before the other blocks of the work list, so that it is split next. The block
keeps the part up to the contract call and branches to the new one (`splitBasicBlock`). -/
def splitBlock (n k : Nat) (is : List Instr) (t : Term) : List Block :=
  match h : splitFirst is with
  | none => [⟨(n, k), is, t⟩]
  | some (a, b) => ⟨(n, k), a, .br (n, k + 1)⟩ :: splitBlock n (k + 1) b t
termination_by is.length
decreasing_by exact splitFirst_lt h

/-- ExtractContracts.cpp:77-110 for all blocks; a new block comes after the one it was split from. -/
def splitFn (F : List Block) : List Block := F.flatMap fun b => splitBlock b.name.1 0 b.instrs b.term

/-- The blocks recorded in ExtractContracts.cpp:99-102, without distinction of loops. -/
def recorded (b : Block) : List Name := (splitBlock b.name.1 0 b.instrs b.term).dropLast.map (·.name)

/-- ExtractContracts.cpp:42-51 and 58-69: the blocks up to the last of the given ones. -/
def through (last : Name) : List Block → List Block
  | [] => []
  | b :: r => if b.name = last then [b] else b :: through last r

def blockPrefix (bs : List Name) (F : List Block) : List Block :=
  match bs.getLast? with
  | none => []
  | some l => through l F

/-- The loop structure: the innermost loop of a block, its header, and the blocks of a loop in the order of `getBlocks`. -/
structure Loops where
  loopFor : Nat → Option Nat
  header : Nat → Nat
  blocks : Nat → List Nat

/-- ExtractContracts.cpp:112: the region for `requires` and `ensures`. -/
def contractRegion (lo : Loops) (F : List Block) : List Block :=
  blockPrefix (F.flatMap fun b => if (lo.loopFor b.name.1).isNone then recorded b else []) (splitFn F)

/-- The blocks of a loop after splitting: `addBasicBlockToLoop` puts new blocks at the end (ExtractContracts.cpp:95-96). -/
def loopBlocks (lo : Loops) (F : List Block) (l : Nat) : List Block :=
  (lo.blocks l).flatMap (fun n => (splitFn F).filter fun b => decide (b.name = (n, 0))) ++
    (splitFn F).filter fun b => (lo.blocks l).contains b.name.1 && b.name.2 != 0

/-- ExtractContracts.cpp:114-118: the region for the invariants of a loop. -/
def invariantRegion (lo : Loops) (F : List Block) (l : Nat) : List Block :=
  blockPrefix (F.flatMap fun b => if lo.loopFor b.name.1 = some l then recorded b else [])
    ((loopBlocks lo F l).filter fun b => decide (b.name ≠ (lo.header l, 0)))

/-- The end of a block of a contract expression: `retTrue` and `retArg` are the returns made by `setReturnToArgumentValue`. -/
inductive ETerm where
  | br (b : Name)
  | cond (c : Nat) (t f : Name)
  | retTrue
  | retArg (a : Nat)
deriving DecidableEq, Repr

structure EBlock where
  name : Name
  instrs : List Instr
  term : ETerm
deriving DecidableEq, Repr

/-- The first contract call: what is before it, its argument, what is after it. -/
def findContract : List Instr → Option (List Instr × (Kind × Nat) × List Instr)
  | [] => none
  | .contract k a :: r => some ([], (k, a), r)
  | .op i :: r =>
    match findContract r with
    | none => none
    | some (x, c, y) => some (.op i :: x, c, y)

def Term.plain : Term → ETerm
  | .br b => .br b
  | .cond c t f => .cond c t f
  | .ret => .retTrue

/-- ExtractContracts.cpp:137-165, for one block; `ii` is the block with the given invocation. -/
def setReturn (ii : Name) (b : Block) : EBlock :=
  if b.term = .ret then ⟨b.name, b.instrs, .retTrue⟩
  else
    match findContract b.instrs with
    | none => ⟨b.name, b.instrs, b.term.plain⟩
    | some (x, (_, a), y) => ⟨b.name, x ++ y, if b.name = ii then .retArg a else b.term.plain⟩

/-- ExtractContracts.cpp:170-193: the contract expression for one invocation. -/
def exprFn (R : List Block) (ii : Name) : List EBlock := R.map (setReturn ii)

/-- ExtractContracts.cpp:124-132 and 201-208: the invocations of the region, in layout order. -/
def clauses (R : List Block) : List (Kind × Name) :=
  R.filterMap fun b =>
    match findContract b.instrs with
    | none => none
    | some (_, (k, _), _) => some (k, b.name)

/-- A block of the function after the extraction: the inserted calls of the contract functions, each with the value of its contract expression,
or a block of the original. -/
inductive XBlock where
  | clauses (name : Name) (cs : List (Kind × Name)) (next : Name)
  | block (b : Block)
deriving DecidableEq, Repr

/-- ExtractContracts.cpp:228-252: the region is gone; in the place of its call are the clauses. `next` is the block after the region. -/
def extracted (F R : List Block) (next : Name) : List XBlock :=
  match R with
  | [] => (splitFn F).map .block
  | e :: _ => .clauses e.name (clauses R) next :: ((splitFn F).filter fun b => !(R.map (·.name)).contains b.name).map .block

/-- SmackInstGenerator.cpp:746-757: the clauses of the procedure, in order. -/
def procRequires (cs : List (Kind × Name)) : List Name := cs.filterMap fun c => if c.1 = .requires_ then some c.2 else none
def procEnsures (cs : List (Kind × Name)) : List Name := cs.filterMap fun c => if c.1 = .ensures_ then some c.2 else none

/-- SmackInstGenerator.cpp:751-757: the assertions at the beginning of the header of a loop; each is put before the earlier ones. -/
def headerAsserts (cs : List (Kind × Name)) : List Name :=
  cs.foldl (fun acc c => if c.1 = .invariant_ then c.2 :: acc else acc) []

/-- A statement of the header of a loop. -/
inductive HStmt where
  | assert (n : Name)
  | instr (i : Instr)
deriving DecidableEq, Repr

/-- SmackInstGenerator.cpp:755-756: the assertions are put at the front of the statements of the header. -/
def headerStmts (cs : List (Kind × Name)) (H : Block) : List HStmt := (headerAsserts cs).map .assert ++ H.instrs.map .instr

/-- BoogieAst.cpp:262-264: the value returned by the Boogie function of a contract expression, `$r != 0`. -/
def codeReturn : PreludeTy.Ex := .bin .neq (.var "$r") (.int 0)

end Smack.Contracts
