/-!
# Warnings about approximations (lib/smack/SmackWarnings.cpp, lib/smack/SmackInstGenerator.cpp)
-/
namespace Smack.Warn

abbrev Text := List Char

/-- SmackWarnings.h:22-26; the numbers are the values of the enumeration. -/
def silent : Nat := 0
def approximate : Nat := 10
def info : Nat := 20

/-- The flags that warnings ask for. -/
inductive Flag where
  | bitPrecise | floatEnabled | rewriteBitwiseOps
  deriving DecidableEq, Repr

/-- `ArgStr` of the flags (SmackOptions.cpp:46-47, 58-62, 71-72). -/
def Flag.argStr : Flag → Text
  | .bitPrecise => "bit-precise".toList
  | .floatEnabled => "float".toList
  | .rewriteBitwiseOps => "rewrite-bitwise-ops".toList

/-- SmackWarnings.h:28. -/
inductive Rel where
  | and | or
  deriving DecidableEq

/-- The options that are looked at. -/
structure Cfg where
  level : Nat
  colored : Bool
  set : Flag → Bool

/-- What is written to the error stream: text and changes of colour. -/
inductive Piece where
  | text (t : Text)
  | magenta
  | reset
  deriving DecidableEq

/-- The effect of a warning: comments added to the current block, and the error stream. -/
structure Out where
  comments : List Text := []
  err : List Piece := []
  deriving DecidableEq

/-- The debug location of an instruction, if it has one (SmackWarnings.cpp:14-24). -/
structure Loc where
  file : Text
  line : Nat
  col : Nat

def num (n : Nat) : Text := (toString n).toList

/-- `buildDebugInfo` (SmackWarnings.cpp:14-24); `none` if there is no instruction or no location. -/
def buildDebugInfo : Option Loc → Text
  | none => []
  | some l => l.file ++ ":".toList ++ num l.line ++ ":".toList ++ num l.col ++ ": ".toList

/-- SmackWarnings.cpp:26-28. -/
def sufficient (c : Cfg) (level : Nat) : Bool := level ≤ c.level

/-- `getUnsetFlags` (SmackWarnings.cpp:30-37). -/
def unsetFlags (c : Cfg) (req : List Flag) : List Flag := req.filter fun f => !c.set f

/-- `isSatisfied` (SmackWarnings.cpp:39-44). -/
def isSatisfied (c : Cfg) (req : List Flag) : Rel → Bool
  | .and => (unsetFlags c req).isEmpty
  | .or => (unsetFlags c req).length < req.length

/-- `getFlagStr` (SmackWarnings.cpp:46-55). -/
def flagStr (fs : List Flag) : Text :=
  "{ ".toList ++ fs.flatMap (fun f =>
    if f.argStr = "bit-precise".toList then "--integer-encoding=bit-vector ".toList else "--".toList ++ f.argStr ++ " ".toList) ++ "}".toList

/-- `processApproximate` (SmackWarnings.cpp:82-101). `block` tells whether there is a current block. -/
def process (c : Cfg) (description : Text) (unset : List Flag) (block : Bool) (loc : Option Loc) (rel : Rel) : Out :=
  if !sufficient c approximate then {}
  else
    let beginning := buildDebugInfo loc
    let ending := description ++ ";".toList
    let hint := if unset.isEmpty then [] else
      " try adding ".toList ++ (match rel with | .and => "all the ".toList | .or => "any ".toList) ++ "flag(s) in: ".toList ++ flagStr unset
    { comments := if block then [beginning ++ "SMACK warning: ".toList ++ ending] else []
      err := [.text beginning] ++ (if c.colored then [.magenta] else []) ++ [.text "SMACK warning: ".toList] ++
        (if c.colored then [.reset] else []) ++ [.text ending, .text hint, .text "\n".toList] }

/-- `warnApproximate` (SmackWarnings.cpp:57-64). -/
def warnApproximate (c : Cfg) (name : Text) (block : Bool) (loc : Option Loc) : Out :=
  process c ("approximating ".toList ++ name ++ " (can lead to both false alarms and missed detections)".toList) [] block loc .and

/-- `warnOverApproximate` with flags found to be unset (SmackWarnings.cpp:66-73). -/
def warnUnset (c : Cfg) (name : Text) (unset : List Flag) (block : Bool) (loc : Option Loc) (rel : Rel) : Out :=
  process c ("overapproximating ".toList ++ name ++ " (can lead to false alarms)".toList) unset block loc rel

/-- `warnOverApproximate` with required flags (SmackWarnings.cpp:75-81). -/
def warnOver (c : Cfg) (name : Text) (req : List Flag) (block : Bool) (loc : Option Loc) (rel : Rel) : Out :=
  if isSatisfied c req rel then {} else warnUnset c name (unsetFlags c req) block loc rel

/-- `warnInfo` (SmackWarnings.cpp:103-107). -/
def warnInfo (c : Cfg) (msg : Text) : Out :=
  if !sufficient c info then {} else { err := [.text "warning: ".toList, .text msg, .text "\n".toList] }

/-! ### Uses -/

/-- Binary operators of LLVM. -/
inductive Bin where
  | add | sub | mul | udiv | sdiv | urem | srem
  | shl | lshr | ashr | and | or | xor
  | fadd | fsub | fmul | fdiv | frem
  deriving DecidableEq, Repr

def Bin.name : Bin → Text
  | .add => "add".toList | .sub => "sub".toList | .mul => "mul".toList | .udiv => "udiv".toList | .sdiv => "sdiv".toList
  | .urem => "urem".toList | .srem => "srem".toList | .shl => "shl".toList | .lshr => "lshr".toList | .ashr => "ashr".toList
  | .and => "and".toList | .or => "or".toList | .xor => "xor".toList | .fadd => "fadd".toList | .fsub => "fsub".toList
  | .fmul => "fmul".toList | .fdiv => "fdiv".toList | .frem => "frem".toList

/-- Types of their results: integers with their width, floating point, vectors. -/
inductive Ty where
  | int (w : Nat) | fp | vec
  deriving DecidableEq

/-- `isBitwiseOp` (SmackRep.cpp:900-902). -/
def isBitwise : Bin → Bool
  | .shl | .lshr | .ashr | .and | .or | .xor => true
  | _ => false

/-- `isFpArithOp` (SmackRep.cpp:908-911). -/
def isFpArith : Bin → Bool
  | .fadd | .fsub | .fmul | .fdiv => true
  | _ => false

/-- `getIntegerBitWidth`, which asserts that the type is an integer type; `none` is the failed assertion. -/
def intWidth : Ty → Option Nat
  | .int w => some w
  | _ => none

def Out.append (x y : Out) : Out := { comments := x.comments ++ y.comments, err := x.err ++ y.err }

/-- The warnings of `visitBinaryOperator` (SmackInstGenerator.cpp:339-348). -/
def binaryWarnings (c : Cfg) (op : Bin) (t : Ty) (loc : Option Loc) : Option Out :=
  let fp := if isFpArith op then warnOver c ("floating-point operation ".toList ++ op.name) [.floatEnabled] true loc .and else {}
  if isBitwise op then
    match intWidth t with
    | none => none
    | some w => some (Out.append (if 1 < w then warnOver c ("bitwise operation ".toList ++ op.name) [.bitPrecise] true loc .and else {}) fp)
  else some fp

/-- The intrinsics of SmackInstGenerator.cpp:1165-1211; `other` stands for all that are not in the table. -/
inductive Intr where
  | assume | bitreverse | bswap | convertFromFp16 | convertToFp16 | ctlz | ctpop | cttz | dbgDeclare | dbgLabel | expect | fabs | fma
  | sqrt | maxnum | minnum | ceil | floor | nearbyint | rint | round | trunc
  | other
  deriving DecidableEq, Repr

/-- What the table holds for an intrinsic: no entry, a plain translation, or one that needs flags. -/
inductive Entry where
  | missing
  | plain
  | needs (req : List Flag) (rel : Rel)

/-- SmackInstGenerator.cpp:942-1211. -/
def entry : Intr → Entry
  | .assume | .dbgDeclare | .dbgLabel | .expect => .plain
  | .convertFromFp16 | .convertToFp16 => .needs [.floatEnabled, .bitPrecise] .and
  | .fma | .fabs | .sqrt | .maxnum | .minnum | .ceil | .floor | .nearbyint | .rint | .round | .trunc => .needs [.floatEnabled] .and
  | .bitreverse | .bswap | .ctlz | .cttz => .needs [.bitPrecise] .and
  | .ctpop => .needs [.bitPrecise, .rewriteBitwiseOps] .or
  | .other => .missing

/-- How an intrinsic is translated: by its own statements, or by a call of a procedure without a body. -/
inductive How where
  | model | call
  deriving DecidableEq

/-- `visitIntrinsicInst` with `conditionalModel` (SmackInstGenerator.cpp:890-912, 1217-1226). `name` is the name of the function. -/
def intrinsic (c : Cfg) (i : Intr) (name : Text) (loc : Option Loc) : How × Out :=
  match entry i with
  | .plain => (.model, {})
  | .missing => (.call, warnApproximate c name true loc)
  | .needs req rel =>
    if isSatisfied c req rel then (.model, {})
    else (.call, warnUnset c ("call to ".toList ++ name) (unsetFlags c req) true loc rel)

end Smack.Warn
