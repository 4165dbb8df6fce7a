import Verif.Run.Model

/-!
# llvm2bpl: its options and its passes (tools/llvm2bpl/llvm2bpl.cpp, lib/smack/SmackOptions.cpp, lib/smack/Debug.cpp)

The library that reads the command line (llvm/Support/CommandLine) is not part of the repository. What is modelled of it:
options begin with one or two dashes; a value follows after "=" or, if the option needs one, is the next word, whatever it
looks like; options declared without `ZeroOrMore` are given at most once; exactly one word that is not an option names the
input. Not modelled: response files ("@file"), environment variables and the options that LLVM's own libraries declare.
-/
namespace Smack.Tool
open Smack.Run (Text)

/-- The options. -/
inductive Opt where
  | bpl | ll | staticUnroll | dataLayout | modular
  | entryPoints | checked | warnType | colored | memModDbg | memModImpls | sourceLoc | bitPrecise | bitPrecisePtr | timing
  | rewriteBitwise | noSplitting | noByteInference | float | memorySafety | integerOverflow | failOnLoopExit | llvmAssumes
  | rustPanics | wrapped
  | debug | debugOnly
  | seaDsa
  deriving DecidableEq, Repr

/-- The kinds of options: `cl::opt<bool>`, `cl::opt<std::string>`, `cl::list<std::string>`, `cl::opt` of an enumeration. -/
inductive Kind where
  | flag
  | text
  | many
  | oneOf (choices : List Text)
  deriving DecidableEq

/-- The declarations: llvm2bpl.cpp:54-80, SmackOptions.cpp:11-99, Debug.cpp:41-66 (only if NDEBUG is not defined). The last one
is sea-dsa's, of which only the name is used. -/
def declared (ndebug : Bool) : List (Text × Opt × Kind) :=
  [("bpl".toList, .bpl, .text), ("ll".toList, .ll, .text), ("static-unroll".toList, .staticUnroll, .flag),
   ("default-data-layout".toList, .dataLayout, .text), ("modular".toList, .modular, .flag),
   ("entry-points".toList, .entryPoints, .many), ("checked-functions".toList, .checked, .many),
   ("warn-type".toList, .warnType, .oneOf ["silent".toList, "approximate".toList, "info".toList]),
   ("colored-warnings".toList, .colored, .flag), ("mem-mod-dbg".toList, .memModDbg, .flag),
   ("mem-mod-impls".toList, .memModImpls, .flag), ("source-loc-syms".toList, .sourceLoc, .flag),
   ("bit-precise".toList, .bitPrecise, .flag), ("bit-precise-pointers".toList, .bitPrecisePtr, .flag),
   ("timing-annotations".toList, .timing, .flag), ("rewrite-bitwise-ops".toList, .rewriteBitwise, .flag),
   ("no-memory-splitting".toList, .noSplitting, .flag), ("no-byte-access-inference".toList, .noByteInference, .flag),
   ("float".toList, .float, .flag), ("memory-safety".toList, .memorySafety, .flag),
   ("integer-overflow".toList, .integerOverflow, .flag), ("fail-on-loop-exit".toList, .failOnLoopExit, .flag),
   ("llvm-assumes".toList, .llvmAssumes, .oneOf ["none".toList, "use".toList, "check".toList]),
   ("rust-panics".toList, .rustPanics, .flag), ("wrapped-integer-encoding".toList, .wrapped, .flag),
   ("sea-dsa".toList, .seaDsa, .text)] ++
  (if ndebug then [] else [("debug".toList, .debug, .flag), ("debug-only".toList, .debugOnly, .many)])

/-- What is read: occurrences of options with their values, and the other words. -/
structure Read where
  opts : List (Opt × Text) := []
  plain : List Text := []

/-- The name and the value after "=", if there is one. -/
def splitEq : Text → Text × Option Text
  | [] => ([], none)
  | '=' :: t => ([], some t)
  | c :: t => (c :: (splitEq t).1, (splitEq t).2)

/-- The word without its one or two dashes, if it is an option. "-" alone is not an option. -/
def dashes : Text → Option Text
  | ['-'] => none
  | '-' :: '-' :: t => some t
  | '-' :: t => some t
  | _ => none

/-- Values of flags: `cl::parser<bool>`. -/
def flagValue : Option Text → Option Text
  | none => some "1".toList
  | some v =>
    if v ∈ ["".toList, "true".toList, "TRUE".toList, "True".toList, "1".toList] then some "1".toList
    else if v ∈ ["false".toList, "FALSE".toList, "False".toList, "0".toList] then some "0".toList
    else none

/-- Values of other options are accepted if they are among the choices. -/
def Kind.accepts : Kind → Text → Bool
  | .oneOf cs, v => cs.contains v
  | _, _ => true

/-- Reads the words; `none` is an error, with which llvm2bpl ends. -/
def readWords (ndebug : Bool) : List Text → Option Read
  | [] => some {}
  | w :: ws =>
    match dashes w with
    | none => (readWords ndebug ws).map fun r => { r with plain := w :: r.plain }
    | some [] => some { plain := ws }
    | some o =>
      match (declared ndebug).lookup (splitEq o).1 with
      | none => none
      | some (p, .flag) =>
        match flagValue (splitEq o).2 with
        | none => none
        | some v => (readWords ndebug ws).map fun r => { r with opts := (p, v) :: r.opts }
      | some (p, k) =>
        match (splitEq o).2, ws with
        | some v, ws => if k.accepts v then (readWords ndebug ws).map fun r => { r with opts := (p, v) :: r.opts } else none
        | none, [] => none
        | none, v :: ws => if k.accepts v then (readWords ndebug ws).map fun r => { r with opts := (p, v) :: r.opts } else none
  termination_by ws => ws.length

/-- The values of an option, in the order given. -/
def values (os : List (Opt × Text)) (p : Opt) : List Text := (os.filter fun o => o.1 == p).map Prod.snd

/-- Options that may be given more than once. -/
def Opt.repeats (p : Opt) : Bool := p == .entryPoints || p == .checked || p == .debugOnly

/-- The variables of the program after the command line has been read. -/
structure Opts where
  input : Text
  bpl : Text
  ll : Text
  warn : Text
  llvmAssumes : Text
  entryPoints : List Text
  checked : List Text
  debugOnly : List Text
  set : Opt → Bool

/-- A flag is set; all are off by default. -/
def isSet (os : List (Opt × Text)) (p : Opt) : Bool := (values os p).getLast? == some "1".toList

/-- `ParseCommandLineOptions` (llvm2bpl.cpp:125-126): the defaults are "" for file names, and the first member for enumerations. -/
def parse (ndebug : Bool) (ws : List Text) : Option Opts :=
  match readWords ndebug ws with
  | none => none
  | some r =>
    if r.opts.all fun o => o.1.repeats || (values r.opts o.1).length ≤ 1 then
      match r.plain with
      | [f] => some
        { input := f
          bpl := (values r.opts .bpl).headD []
          ll := (values r.opts .ll).headD []
          warn := (values r.opts .warnType).headD "silent".toList
          llvmAssumes := (values r.opts .llvmAssumes).headD "none".toList
          entryPoints := values r.opts .entryPoints
          checked := values r.opts .checked
          debugOnly := values r.opts .debugOnly
          set := isSet r.opts }
      | _ => none
    else none

/-- The passes of llvm2bpl.cpp:166-274. -/
inductive Pass where
  | rustFixes | internalize | globalDce | dce | removeDeadDefs | removePtrToInt | lowerSwitch | mem2reg
  | loopSimplify | loopRotate | loopUnroll
  | normalizeLoops | annotateLoopExits | simplifyEV | simplifyIV | extractContracts | verifierCodeMetadata | codifyStaticInits
  | mergeArrayGep | devirtualize | splitAggregateValue | memorySafetyChecker | integerOverflowChecker | rewriteBitwiseOps
  | libraryInfo | targetInfo | addTiming
  | printModule (file : Text)
  | moduleGenerator | bplPrinter (file : Text)
  deriving DecidableEq, Repr

def onlyIf (b : Bool) (ps : List Pass) : List Pass := if b then ps else []

/-- The passes added to the pass manager, in order (llvm2bpl.cpp:166-274). Analyses that the passes require are left out. -/
def passes (o : Opts) : List Pass :=
  [.rustFixes] ++
  onlyIf (!o.set .modular) [.internalize, .globalDce, .dce, .globalDce, .dce, .removeDeadDefs] ++
  [.removePtrToInt, .lowerSwitch, .mem2reg] ++
  onlyIf (o.set .staticUnroll) [.loopSimplify, .loopRotate, .loopUnroll] ++
  [.normalizeLoops] ++ onlyIf (o.set .failOnLoopExit) [.annotateLoopExits] ++
  [.simplifyEV, .simplifyIV, .extractContracts, .verifierCodeMetadata, .dce, .codifyStaticInits] ++
  onlyIf (!o.set .modular) [.removeDeadDefs] ++
  [.mergeArrayGep, .devirtualize, .splitAggregateValue] ++
  onlyIf (o.set .memorySafety) [.memorySafetyChecker] ++
  [.integerOverflowChecker] ++
  onlyIf (o.set .rewriteBitwise && !(o.set .bitPrecise || o.set .bitPrecisePtr)) [.rewriteBitwiseOps] ++
  onlyIf (o.set .timing) [.libraryInfo, .targetInfo, .addTiming] ++
  onlyIf (!o.ll.isEmpty) [.printModule o.ll] ++
  onlyIf (!o.bpl.isEmpty) [.moduleGenerator, .bplPrinter o.bpl]

/-- `PreserveKeyGlobals` (llvm2bpl.cpp:170-175) with `isEntryPoint` (SmackOptions.cpp:101-106) and `isSmackName`
(Naming.cpp:163, 167: ".*__SMACK_.*"). -/
def preserved (o : Opts) (name : Text) : Bool :=
  o.entryPoints.any (· == name) || Driver.hasSub "__SMACK_".toList name || Driver.hasSub "__VERIFIER_assume".toList name

/-- Fields of a run of llvm2bpl by the driver: the words after the program's name (top.py:714-767). -/
def wordText : Run.Word → Text
  | .lit t => t
  | .inp p | .out p | .upd p | .also p => p

/-- llvm2bpl reads the command line that the driver makes. -/
def driverParse (ndebug : Bool) (w : Run.World) (a : Run.Args) : Option Opts :=
  parse ndebug (((Run.llvm2bpl w a).drop 1).map wordText)

end Smack.Tool
