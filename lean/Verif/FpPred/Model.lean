/-
Floating-point comparison predicates of the prelude (lib/smack/Prelude.cpp:1403-1548) and the translation of
`fcmp` (lib/smack/SmackRep.cpp:963-984, lib/smack/Naming.cpp:134-147), with `--float`.

Simplifications: one floating-point type at a time (the type suffix of the function names is dropped; every
function of the table is declared once per type with the same body); without `--float` the predicates are
uninterpreted and this file does not apply.
-/

namespace Smack.FpPred

/-- An interpretation of the SMT-LIB functions the predicates are built from, on some type of floating-point
values. -/
structure Builtins (F : Type) where
  isNaN : F → Bool
  eq : F → F → Bool
  leq : F → F → Bool
  lt : F → F → Bool
  geq : F → F → Bool
  gt : F → F → Bool

/-- Boogie expressions over the two parameters `f1`, `f2`. -/
inductive Body where
  | not (b : Body)
  | or (a b : Body)
  | lit (v : Bool)
  /-- `$isnan.T.bool(f1)` / `$isnan.T.bool(f2)` -/
  | isnan1 | isnan2
  /-- `$name.T.bool(f1, f2)` -/
  | app (name : String)
deriving Repr, DecidableEq

/-- A declaration of the prelude: `{:builtin "attr"}` or `{:inline}` with a body. -/
inductive Decl where
  | builtin (attr : String)
  | inlined (b : Body)
deriving Repr, DecidableEq

/-- Prelude.cpp:1323-1350 `fpAttrFunc`, the rows used by binary predicates. -/
def fpAttr (opName : String) : Option String :=
  match opName with
  | "foeq" => some "fp.eq"
  | "fole" => some "fp.leq"
  | "folt" => some "fp.lt"
  | "foge" => some "fp.geq"
  | "fogt" => some "fp.gt"
  | _ => none

/-- Prelude.cpp:1461-1466 `funoBody`. -/
def funoBody : Body := .or .isnan1 .isnan2

/-- Prelude.cpp:1454-1459 `fpPredNegBody`. -/
def fpPredNegBody (op : String) : Body := .not (.app op)

/-- Prelude.cpp:1471-1477 `fpPredDisjuncBody`. -/
def fpPredDisjuncBody (op : String) : Body := .or funoBody (.app op)

/-- Prelude.cpp:1487-1507 `fpPredExprTable` (the leading `$` of the callee is dropped). -/
def fpPredExpr (opName : String) : Option Body :=
  match opName with
  | "fone" => some (fpPredNegBody "fueq")
  | "ford" => some (fpPredNegBody "funo")
  | "fueq" => some (fpPredDisjuncBody "foeq")
  | "fugt" => some (fpPredDisjuncBody "fogt")
  | "fuge" => some (fpPredDisjuncBody "foge")
  | "fult" => some (fpPredDisjuncBody "folt")
  | "fule" => some (fpPredDisjuncBody "fole")
  | "fune" => some (fpPredDisjuncBody "fone")
  | "funo" => some funoBody
  | "ffalse" => some (.lit false)
  | "ftrue" => some (.lit true)
  | _ => none

/-- Prelude.cpp:1514-1537 `fpPredTable`, binary rows: which are built in and which are inlined. -/
def fpPredTable : List (String × Bool) :=
  [("foeq", true), ("fole", true), ("folt", true), ("foge", true), ("fogt", true), ("fone", false),
   ("ford", false), ("fueq", false), ("fugt", false), ("fuge", false), ("fult", false), ("fule", false),
   ("fune", false), ("funo", false), ("ffalse", false), ("ftrue", false)]

/-- Prelude.cpp:1411-1436 `getModeledFpFunc`: the declaration emitted for a row. -/
def declOf (row : String × Bool) : Option Decl :=
  if row.2 then (fpAttr row.1).map .builtin else (fpPredExpr row.1).map .inlined

/-- The declarations of the prelude, by name. -/
def lookup (name : String) : Option Decl :=
  (fpPredTable.find? (·.1 == name)).bind declOf

/-- SMT-LIB meaning of a built-in attribute. -/
def builtinEval {F : Type} (I : Builtins F) (attr : String) (a b : F) : Option Bool :=
  match attr with
  | "fp.eq" => some (I.eq a b)
  | "fp.leq" => some (I.leq a b)
  | "fp.lt" => some (I.lt a b)
  | "fp.geq" => some (I.geq a b)
  | "fp.gt" => some (I.gt a b)
  | _ => none

/-- Meaning of a body, given the meaning of the functions it calls. -/
def Body.eval {F : Type} (I : Builtins F) (call : String → Option Bool) (a b : F) : Body → Option Bool
  | .not e => (e.eval I call a b).map (!·)
  | .or e f =>
    match e.eval I call a b, f.eval I call a b with
    | some x, some y => some (x || y)
    | _, _ => none
  | .lit v => some v
  | .isnan1 => some (I.isNaN a)
  | .isnan2 => some (I.isNaN b)
  | .app n => call n

/-- Meaning of a declared function when calls are unfolded at most `n` deep; `none` if it is not declared or the
unfolding does not end. -/
def callEval {F : Type} (I : Builtins F) (a b : F) : Nat → String → Option Bool
  | 0, _ => none
  | n + 1, name =>
    match lookup name with
    | some (.builtin attr) => builtinEval I attr a b
    | some (.inlined body) => body.eval I (callEval I a b n) a b
    | none => none

/-- Naming.cpp:139-147 `CMPINST_TABLE`, floating-point rows, keyed by `llvm::CmpInst::Predicate`. -/
inductive Pred where
  | false_ | oeq | ogt | oge | olt | ole | one | ord | uno | ueq | ugt | uge | ult | ule | une | true_
deriving Repr, DecidableEq

def cmpName : Pred → String
  | .false_ => "ffalse" | .oeq => "foeq" | .oge => "foge" | .ogt => "fogt"
  | .ole => "fole" | .olt => "folt" | .one => "fone" | .ord => "ford"
  | .true_ => "ftrue" | .ueq => "fueq" | .uge => "fuge" | .ugt => "fugt"
  | .ule => "fule" | .ult => "fult" | .une => "fune" | .uno => "funo"

/-- SmackRep.cpp:974-984 `cmp` for floating-point operands: `if $p.T.bool(e1, e2) then 1 else 0`. -/
def cmp {F : Type} (I : Builtins F) (n : Nat) (p : Pred) (a b : F) : Option Int :=
  (callEval I a b n (cmpName p)).map fun r => if r then 1 else 0

end Smack.FpPred
