import Verif.Annot.Model
/-!
# Specification: what annotations say
-/
namespace Smack.Annot.Spec

open Smack.Printer Smack.Annot

/-- What an attribute value says. -/
inductive Val where
  | num (z : Int)
  | text (s : Str)
deriving DecidableEq

/-- A numeral with or without sign. -/
def readInt : Str → Int
  | '-' :: ds => - (Nat.ofDigitChars 10 ds 0 : Int)
  | ds => Nat.ofDigitChars 10 ds 0

def meaning : Expr → Option Val
  | .int v => some (.num (readInt v))
  | .str s => some (.text s)
  | _ => none

/-- The attribute of an annotation `assume {:k …} true`. -/
def attrOf : Stmt → Option Attr
  | .assume_ [a] (.bool true) => some a
  | _ => none

/-- What the annotations say about `k`, in their order. -/
def said (k : Str) (ss : List Stmt) : List (List (Option Val)) :=
  ((ss.filterMap attrOf).filter (fun a => a.name = k)).map (fun a => a.vals.map meaning)

/-- What an operand of metadata stands for. -/
def mdVal : MdOp → Option Val
  | .int v => some (.num v)
  | .str s => some (.text s)
  | .other => none

/-- Integers that are printed with their value. -/
def Small : MdOp → Prop
  | .int v => v < 2 ^ 63
  | _ => True

/-- Operands that can be printed. -/
def Printable : MdOp → Prop
  | .int v => v < 2 ^ 64
  | .str _ => True
  | .other => False

/-- Names of metadata for the Boogie program. -/
def Visible (k : Str) : Prop := "smack.".toList <+: k ∨ "verifier.".toList <+: k

/-- The sum of the numbers that are said about `k`. -/
def total (k : Str) (ss : List Stmt) : Int :=
  ((said k ss).map fun vs => match vs with | [some (.num z)] => z | _ => 0).sum

/-- The cost of an instruction, if known: nothing for verifier code, otherwise what the cost model says about the instruction. -/
def knownCost (tti : Query → Int) (i : Inst) : Option Int :=
  if i.md "verifier.code".toList = some [.int 1] then some 0
  else match i.opc with
    | .gep => some (tti (.address i.elem))
    | .ret | .phi | .br => some (tti (.cf i.opc))
    | .arith op => some (tti (.arith op i.ty (kindOf i.op0) (kindOf i.op1)))
    | .select => some (tti (.cmpSel .select i.ty (some i.op0.ty)))
    | .icmp | .fcmp => some (tti (.cmpSel i.opc i.op0.ty none))
    | .store => some (tti (.mem .store i.op0.ty i.align i.space))
    | .load => some (tti (.mem .load i.ty i.align i.space))
    | .cast op => some (tti (.cast op i.ty i.op0.ty))
    | .call => i.intrinsic.map fun (id, tys, fmf) => tti (.intrinsic id i.ty tys fmf)
    | .extractElement | .insertElement | .shuffleVector | .other => none
where
  kindOf (o : Operand) : OpKind :=
    match o.constVec, o.splat with
    | true, true => .uniform
    | true, false => .nonUniform
    | false, _ => .any

/-- Marked by VerifierCodeMetadata. -/
def HasMark (i : Inst) : Prop := ∃ b : Bool, i.md "verifier.code".toList = some [.int (if b then 1 else 0)]

/-- Loads and stores of structures have no cost. -/
def NoStruct (i : Inst) : Prop := (i.opc = .load → i.ty.struct = false) ∧ (i.opc = .store → i.op0.ty.struct = false)

/-- The cost model gives numbers of an unsigned int that do not stand for missing information. -/
def Sane (tti : Query → Int) : Prop := ∀ q, 0 ≤ tti q ∧ tti q < 2 ^ 32 - 1

end Smack.Annot.Spec
