import Verif.Warn.Model
import Verif.Tool.Spec

/-!
# What a warning should say
-/
namespace Smack.Warn

/-- What the user reads on the error stream, without colours. -/
def Out.printed (o : Out) : Text :=
  o.err.flatMap fun | .text t => t | _ => []

/-- The options of the smack command that set the flags of the translator. -/
def Flag.option : Flag → Text
  | .bitPrecise => "--integer-encoding=bit-vector".toList
  | .floatEnabled => "--float".toList
  | .rewriteBitwiseOps => "--rewrite-bitwise-ops".toList

/-- The effect of these options on the driver (top.py:397-399, 441-446, 512-514). -/
def obey : Flag → Run.Args → Run.Args
  | .bitPrecise, a => { a with intEnc := .bitVector }
  | .floatEnabled, a => { a with float := true }
  | .rewriteBitwiseOps, a => { a with rewriteBitwise := true }

/-- The flags as variables of the translator. -/
def Flag.opt : Flag → Tool.Opt
  | .bitPrecise => .bitPrecise
  | .floatEnabled => .float
  | .rewriteBitwiseOps => .rewriteBitwise

/-- The translator's settings for given options of the driver; `level` is that of `--warn`. -/
def cfgOf (o : Tool.Opts) : Cfg :=
  { level := if o.warn = "info".toList then 20 else if o.warn = "approximate".toList then 10 else 0
    colored := o.set .colored
    set := fun f => o.set f.opt }

/-- The flags suffice. -/
def Met (c : Cfg) (req : List Flag) : Rel → Prop
  | .and => ∀ f ∈ req, c.set f = true
  | .or => ∃ f ∈ req, c.set f = true

/-- Where the operation is, as compilers say it. -/
def place : Option Loc → Text
  | none => []
  | some l => l.file ++ [':'] ++ (toString l.line).toList ++ [':'] ++ (toString l.col).toList ++ ": ".toList

/-- The line printed: place, operation, and the options that are missing. -/
def message (loc : Option Loc) (what : Text) (rel : Rel) (missing : List Flag) : Text :=
  place loc ++ "SMACK warning: ".toList ++ what ++ ";".toList ++
  (match missing with
   | [] => []
   | _ => " try adding ".toList ++ (if rel = .and then "all the" else "any").toList ++ " flag(s) in: { ".toList ++
      missing.flatMap (fun f => f.option ++ [' ']) ++ "}".toList) ++ ['\n']

/-- Operations on values of a type that are exact in the translator's mode: bitwise operations on more than one bit only on
bit-vectors, floating-point operations only with `--float`. -/
def ExactBin (c : Cfg) (op : Bin) (t : Ty) : Prop :=
  match op with
  | .shl | .lshr | .ashr | .and | .or | .xor => c.set .bitPrecise = true ∨ ∃ w, t = .int w ∧ w ≤ 1
  | .fadd | .fsub | .fmul | .fdiv | .frem => c.set .floatEnabled = true
  | _ => True

/-- How the user reads about an operation that is warned about, and the flag that makes it exact. -/
def described : Bin → Option (Text × Flag)
  | .shl => some ("bitwise operation shl".toList, .bitPrecise)
  | .lshr => some ("bitwise operation lshr".toList, .bitPrecise)
  | .ashr => some ("bitwise operation ashr".toList, .bitPrecise)
  | .and => some ("bitwise operation and".toList, .bitPrecise)
  | .or => some ("bitwise operation or".toList, .bitPrecise)
  | .xor => some ("bitwise operation xor".toList, .bitPrecise)
  | .fadd => some ("floating-point operation fadd".toList, .floatEnabled)
  | .fsub => some ("floating-point operation fsub".toList, .floatEnabled)
  | .fmul => some ("floating-point operation fmul".toList, .floatEnabled)
  | .fdiv => some ("floating-point operation fdiv".toList, .floatEnabled)
  | _ => none

/-- Intrinsics with an exact translation in the translator's mode. -/
def ExactIntr (c : Cfg) : Intr → Prop
  | .assume | .dbgDeclare | .dbgLabel | .expect => True
  | .convertFromFp16 | .convertToFp16 => c.set .floatEnabled = true ∧ c.set .bitPrecise = true
  | .bitreverse | .bswap | .ctlz | .cttz => c.set .bitPrecise = true
  | .ctpop => c.set .bitPrecise = true ∨ c.set .rewriteBitwiseOps = true
  | .other => False
  | _ => c.set .floatEnabled = true

end Smack.Warn
