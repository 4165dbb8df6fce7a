import Verif.Printer.StmtModel
/-!
# Annotations of instructions (lib/smack/AddTiming.cpp, lib/smack/SmackInstGenerator.cpp:93-165)

Types are numbers with a flag for structures; the cost model of the target (TargetTransformInfo) is a function of the question.
Texts of instructions are given.
-/
namespace Smack.Annot

open Smack.Printer

/-- An operand of a metadata node: an integer constant (its unsigned value), a string, or anything else. -/
inductive MdOp where
  | int (v : Nat)
  | str (s : Str)
  | other
deriving DecidableEq

/-- A debug location: the file of its scope, line and column. -/
structure Loc where
  file : Str
  line : Nat
  col : Nat

structure Ty where
  id : Nat
  struct : Bool
deriving DecidableEq

/-- TargetTransformInfo::OperandValueKind. -/
inductive OpKind where
  | any | uniform | nonUniform
deriving DecidableEq

/-- An operand: its type, whether it is a constant vector, and whether it is a splat. -/
structure Operand where
  ty : Ty
  constVec : Bool
  splat : Bool
deriving DecidableEq

/-- The opcodes that AddTiming.cpp:139-250 distinguishes; `arith` and `cast` carry the number of the opcode. -/
inductive Opc where
  | gep | ret | phi | br | arith (op : Nat) | select | icmp | fcmp | store | load | cast (op : Nat)
  | extractElement | insertElement | shuffleVector | call | other
deriving DecidableEq

/-- An instruction. `callee` is the name of the called function if it is a call and the function is known; `dbg` says whether it
is a DbgInfoIntrinsic, `loc` is the metadata `dbg`, `md` the other metadata, `text` what Instruction::print gives.
`elem` is the type that operand 0 points to, `align` and `space` are those of a load or store, `intrinsic` the number and the
flags of an intrinsic. Operand 0 of a store is the value, operand 0 of a select the condition. -/
structure Inst where
  callee : Option Str := none
  dbg : Bool := false
  loc : Option Loc := none
  md : Str → Option (List MdOp) := fun _ => none
  text : Str := []
  opc : Opc := .other
  ty : Ty := ⟨0, false⟩
  elem : Ty := ⟨0, false⟩
  op0 : Operand := ⟨⟨0, false⟩, false, false⟩
  op1 : Operand := ⟨⟨0, false⟩, false, false⟩
  align : Nat := 0
  space : Nat := 0
  intrinsic : Option (Nat × List Ty × Nat) := none

/-! ## AddTiming -/

/-- The questions to the cost model. -/
inductive Query where
  | address (ty : Ty)
  | cf (op : Opc)
  | arith (op : Nat) (ty : Ty) (k1 k2 : OpKind)
  | cmpSel (op : Opc) (ty : Ty) (cond : Option Ty)
  | mem (op : Opc) (ty : Ty) (align space : Nat)
  | cast (op : Nat) (ty src : Ty)
  | intrinsic (id : Nat) (ty : Ty) (args : List Ty) (fmf : Nat)
deriving DecidableEq

inductive Answer where
  | abort
  | unknown
  | ask (q : Query)
deriving DecidableEq

/-- AddTiming.cpp:107-119. -/
def operandInfo (o : Operand) : OpKind :=
  if o.constVec then (if o.splat then .uniform else .nonUniform) else .any

/-- AddTiming.cpp:139-250; `abort` are the assertions at 188 and 197. -/
def costQuery (i : Inst) : Answer :=
  match i.opc with
  | .gep => .ask (.address i.elem)
  | .ret => .ask (.cf i.opc)
  | .phi => .ask (.cf i.opc)
  | .br => .ask (.cf i.opc)
  | .arith op => .ask (.arith op i.ty (operandInfo i.op0) (operandInfo i.op1))
  | .select => .ask (.cmpSel i.opc i.ty (some i.op0.ty))
  | .icmp => .ask (.cmpSel i.opc i.op0.ty none)
  | .fcmp => .ask (.cmpSel i.opc i.op0.ty none)
  | .store => if i.op0.ty.struct then .abort else .ask (.mem i.opc i.op0.ty i.align i.space)
  | .load => if i.ty.struct then .abort else .ask (.mem i.opc i.ty i.align i.space)
  | .cast op => .ask (.cast op i.ty i.op0.ty)
  | .extractElement => .unknown
  | .insertElement => .unknown
  | .shuffleVector => .unknown
  | .call => match i.intrinsic with
    | some (id, tys, fmf) => .ask (.intrinsic id i.ty tys fmf)
    | none => .unknown
  | .other => .unknown

/-- "verifier.code", VerifierCodeMetadata.cpp:22. -/
def codeKind : Str := ['v', 'e', 'r', 'i', 'f', 'i', 'e', 'r', '.', 'c', 'o', 'd', 'e']

/-- AddTiming.cpp:49-50, 96. -/
def costKind : Str := ['s', 'm', 'a', 'c', 'k', '.', 'I', 'n', 's', 't', 'T', 'i', 'm', 'i', 'n', 'g', 'C', 'o', 's', 't', '.', 'I', 'n', 't', '6', '4']

/-- AddTiming.cpp:51-52. -/
def nameKind : Str := ['s', 'm', 'a', 'c', 'k', '.', 'L', 'L', 'V', 'M', 'I', 'n', 's', 't', 'r', 'u', 'c', 't', 'i', 'o', 'n', 'N', 'a', 'm', 'e']

/-- VerifierCodeMetadata::isMarked, VerifierCodeMetadata.cpp:72-81; `none`: an assertion fails. -/
def isMarked (i : Inst) : Option Bool :=
  match i.md codeKind with
  | some [.int v] => some (v == 1)
  | _ => none

/-- getInstructionCost, AddTiming.cpp:121-252 (`TTI` is never null: 77). The int of the cost model becomes unsigned. -/
def cost (tti : Query → Int) (i : Inst) : Option (BitVec 32) := do
  if ← isMarked i then return 0
  match costQuery i with
  | .abort => none
  | .unknown => return BitVec.ofInt 32 (-1)
  | .ask q => return BitVec.ofInt 32 (tti q)

/-- Instruction::setMetadata with a name, which gets the next number if it is new. -/
def setMd (kinds : List Str) (i : Inst) (k : Str) (ops : List MdOp) : List Str × Inst :=
  (if k ∈ kinds then kinds else kinds ++ [k], { i with md := fun x => if x = k then some ops else i.md x })

/-- addTimingMetadata, AddTiming.cpp:93-98. -/
def addTimingMetadata (tti : Query → Int) (kinds : List Str) (i : Inst) : Option (List Str × Inst) := do
  let c ← cost tti i
  if c ≠ BitVec.ofInt 32 (-1) then return setMd kinds i costKind [.int c.toNat] else return (kinds, i)

/-- addNamingMetadata, AddTiming.cpp:100-105. -/
def addNamingMetadata (kinds : List Str) (i : Inst) : List Str × Inst := setMd kinds i nameKind [.str i.text]

/-- The loop of runOnFunction, AddTiming.cpp:78-86. -/
def timeInsts (tti : Query → Int) (kinds : List Str) : List Inst → Option (List Str × List Inst)
  | [] => some (kinds, [])
  | i :: is => do
    let (kinds, i) ← addTimingMetadata tti (addNamingMetadata kinds i).1 (addNamingMetadata kinds i).2
    let (kinds, is) ← timeInsts tti kinds is
    return (kinds, i :: is)

/-- isAutogeneratedSmackFunction, AddTiming.cpp:54-61. -/
def isAutogenerated (name : Str) : Bool :=
  ['_', '_', 'S', 'M', 'A', 'C', 'K'].isPrefixOf name || ['_', '_', 'V', 'E', 'R', 'I', 'F', 'I', 'E', 'R'].isPrefixOf name

/-- runOnFunction, AddTiming.cpp:70-89. The instructions of the blocks in their order. -/
def runOnFunction (tti : Query → Int) (kinds : List Str) (name : Str) (is : List Inst) : Option (List Str × List Inst) :=
  if isAutogenerated name then some (kinds, is) else timeInsts tti kinds is

/-! ## SmackInstGenerator -/

/-- `find(p) != npos`. -/
def contains (p : Str) : Str → Bool
  | [] => p.isEmpty
  | c :: s => p.isPrefixOf (c :: s) || contains p s

/-- Output of a signed number. -/
def decInt : Int → Str
  | .ofNat n => dec n
  | .negSucc n => '-' :: dec (n + 1)

/-- Attr::attr(string, string, int, int), BoogieAst.cpp:156-159, and Stmt::annot, BoogieAst.cpp:161-173. Line and column are
converted from unsigned to int. -/
def locStmt (l : Loc) : Stmt :=
  .assume_ [⟨['s', 'o', 'u', 'r', 'c', 'e', 'l', 'o', 'c'],
    [.str l.file, .int (decInt (BitVec.ofNat 32 l.line).toInt), .int (decInt (BitVec.ofNat 32 l.col).toInt)]⟩] (.bool true)

/-- SmackInstGenerator.cpp:121-131. getZExtValue asserts that the value has 64 bits at most. -/
def mdExpr : MdOp → Option Expr
  | .int v => if v < 2 ^ 64 then some (.int (decInt (BitVec.ofNat 64 v).toInt)) else none
  | .str s => some (.str s)
  | .other => none

/-- SmackInstGenerator.cpp:117. -/
def isVisible (k : Str) : Bool :=
  ['s', 'm', 'a', 'c', 'k', '.'].isPrefixOf k || ['v', 'e', 'r', 'i', 'f', 'i', 'e', 'r', '.'].isPrefixOf k

def mdExprs : List MdOp → Option (List Expr)
  | [] => some []
  | o :: os => do
    let e ← mdExpr o
    let es ← mdExprs os
    return e :: es

/-- SmackInstGenerator.cpp:108-135. getAllMetadata gives the metadata in the order of the numbers of their names. -/
def mdStmts (i : Inst) : List Str → Option (List Stmt)
  | [] => some []
  | k :: ks =>
    match i.md k with
    | none => mdStmts i ks
    | some ops =>
      if isVisible k then do
        let es ← mdExprs ops
        let ss ← mdStmts i ks
        return .assume_ [⟨k, es⟩] (.bool true) :: ss
      else mdStmts i ks

/-- annotate, SmackInstGenerator.cpp:93-138. `none`: llvm_unreachable or the assertion of getZExtValue. -/
def annotate (sourceLoc : Bool) (kinds : List Str) (i : Inst) : Option (List Stmt) :=
  if contains ['l', 'l', 'v', 'm', '.', 'd', 'b', 'g', '.'] (i.callee.getD []) then some []
  else do
    let ss ← mdStmts i kinds
    return (match i.loc with | some l => if sourceLoc then [locStmt l] else [] | none => []) ++ ss

def annotateAll (sourceLoc : Bool) (kinds : List Str) : List Inst → Option (List Stmt)
  | [] => some []
  | i :: is => do
    let s ← annotate sourceLoc kinds i
    let ss ← annotateAll sourceLoc kinds is
    return s ++ ss

/-- The annotations of a block: visitBasicBlock, SmackInstGenerator.cpp:148-161, and processInstruction, 140-146, for each of its
instructions. The other statements of the block are left out. -/
def blockAnnotations (sourceLoc : Bool) (kinds : List Str) (entry : Bool) (is : List Inst) : Option (List Stmt) := do
  let first ← match (if entry then is.find? (fun i => !i.dbg && i.loc.isSome) else none) with
    | some i => annotate sourceLoc kinds i
    | none => some []
  let ss ← annotateAll sourceLoc kinds is
  return first ++ ss

end Smack.Annot
