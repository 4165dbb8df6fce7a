/-
What the Boogie file of a run is to contain.
-/
import Verif.Run.TempSpec

namespace Smack.Run

/-- A word of a command line as a tool sees it that writes one file: names of files do not matter, contents do. -/
inductive Sees where
  | lit (t : Text)
  | content (t : Option Text)
  | this
  | other

def sees (fs : Files) (f : Path) : Word → Sees
  | .lit t => .lit t
  | .inp p | .upd p => .content (fs p)
  | .out p | .also p => if p = f then .this else .other

/-- All tools succeed; what they write depends on the words of the command line and on the contents of the input files,
and is given by `tool`. -/
structure Pure (w : World) (tool : List Sees → Text) : Prop where
  ok : ∀ c fs, (w.run c fs).1.started = true ∧ (w.run c fs).1.slow = false ∧ (w.run c fs).1.rc = 0
  files : ∀ c fs f, (w.run c fs).2 f = if Word.out f ∈ c then some (tool (c.map (sees fs f))) else fs f

/-- Temporary files are neither results nor directories of results. -/
def Apart (w : World) (a : Args) : Prop := ∀ pre ext fs, ∀ d ∈ results a, ¬Below (w.fresh pre ext fs) d

section
variable (w : World) (tool : List Sees → Text) (a : Args) (fs : Files)

/-- Words without files. -/
def flat (ws : List Word) : List Sees := ws.map (sees (fun _ => none) [])

/-- A file compiled by `cc`. -/
def compiled (cc : String) (lib : Bool) (src : Option Text) : Text :=
  tool (.lit cc.toList :: (flat (clangArgs w a lib) ++ [.lit "-o".toList, .this, .content src]))

/-- The bitcode of an input file. -/
def object (i : Path) : Option Text :=
  match langOf a i with
  | some .c => some (compiled w tool a "clang-12" false (fs i))
  | some .cxx => some (compiled w tool a "clang++-12" false (fs i))
  | _ => fs i

/-- Its globals and functions other than the entry points made internal. -/
def externed (t : Option Text) : Text :=
  tool ([.lit "extern-statics".toList, .lit "-in".toList, .content t, .lit "-out".toList, .this] ++
    a.entryPoints.flatMap fun e => [.lit "-entry-points".toList, .lit e])

/-- All input files linked. -/
def linkedInputs : Text :=
  tool ([.lit "llvm-link-12".toList, .lit "-o".toList, .this] ++
    a.inputs.map fun i => .content (some (externed tool a (object w tool a fs i))))

/-- The files of SMACK's library. -/
def libraries : List (String × String) :=
  [("clang-12", "smack.c"), ("clang-12", "stdlib.c"), ("clang-12", "errno.c"), ("clang-12", "smack-rust.c")] ++
  (if a.pthread then [("clang-12", "pthread.c")] else []) ++ (if a.strings then [("clang-12", "string.c")] else []) ++
  (if a.float then [("clang-12", "math.c"), ("clang-12", "fenv.c")] else []) ++
  (if a.inputs.any fun i => langOf a i = some .cxx then [("clang++-12", "smack.cpp")] else [])

/-- The whole program. -/
def wholeProgram : Text :=
  tool ([.lit "llvm-link-12".toList, .lit "-o".toList, .this, .content (some (linkedInputs w tool a fs))] ++
    (libraries a).map fun l => .content (some (compiled w tool a l.1 true (fs (w.lib l.2)))))

/-- Its translation. -/
def translated (b : Path) : Text :=
  tool ([.lit "llvm2bpl".toList, .content (some (wholeProgram w tool a fs)), .lit "-bpl".toList, .this] ++
    ((llvm2bpl w a).drop 4).map (sees (fun _ => none) b))

/-- The Boogie file before `--transform-bpl`. -/
def boogieText (b : Path) : Text :=
  (Driver.selection a.check (readlines (w.header ++ Options.annotateBpl (annOpts a) (translated w tool a fs b)))).flatten

/-- The target platform of the first input file, if it is in LLVM's language, as an option of the compiler. -/
def platform : List Text :=
  if a.clangOptions.any (Driver.hasSub "-target".toList) then []
  else
    let text := match a.inputs with
      | [] => none
      | i :: _ =>
        if ext i = "bc".toList then some (tool [.lit "llvm-dis-12".toList, .lit "-o".toList, .this, .content (fs i)])
        else if ext i = "ll".toList then fs i
        else none
    match text.bind fun t => (readlines t).findSome? triple with
    | some x => ["-target".toList, x]
    | none => []

end

/-- Words given by the user to llvm2bpl are not options. -/
def NoDash (a : Args) : Prop :=
  (∀ e ∈ a.entryPoints, e.head? ≠ some '-') ∧ (∀ e ∈ a.checked, e.head? ≠ some '-') ∧ a.warn.head? ≠ some '-' ∧ ∀ m, a.debugOnly = some m → m.head? ≠ some '-'

/-- Options of llvm2bpl that switch a mode, with the options of the driver they stand for. -/
def modes (a : Args) : List (String × Prop) :=
  [("-mem-mod-impls", a.memMod = .noReuseImpls), ("-static-unroll", a.staticUnroll = true), ("-bit-precise", a.intEnc = .bitVector),
   ("-wrapped-integer-encoding", a.intEnc = .wrapped), ("-timing-annotations", a.timing = true), ("-bit-precise-pointers", a.ptrBv = true),
   ("-no-byte-access-inference", a.noByteInference = true), ("-rewrite-bitwise-ops", a.rewriteBitwise = true),
   ("-no-memory-splitting", a.noSplitting = true), ("-memory-safety", a.check .validDeref = true ∨ a.check .validFree = true ∨ a.check .memleak = true),
   ("-integer-overflow", a.check .integerOverflow = true), ("-rust-panics", a.check .rustPanics = true),
   ("-fail-on-loop-exit", a.failOnLoopExit = true), ("-float", a.float = true), ("-modular", a.modular = true), ("-debug", a.debug = true)]

/-- Words for the compiler with the options of the driver they stand for; `lib` for SMACK's library. -/
def macros (a : Args) (lib : Bool) : List (String × Prop) :=
  [("-DMEMORY_MODEL_NO_REUSE", a.memMod = .noReuse), ("-DMEMORY_MODEL_NO_REUSE_IMPLS", a.memMod = .noReuseImpls), ("-DMEMORY_MODEL_REUSE", a.memMod = .reuse),
   ("-DMEMORY_SAFETY", a.check .validDeref = true ∨ a.check .validFree = true ∨ a.check .memleak = true),
   ("-DSIGNED_INTEGER_OVERFLOW_CHECK", a.check .integerOverflow = true ∧ lib = true),
   ("-fsanitize=signed-integer-overflow,shift", a.check .integerOverflow = true ∧ lib = false),
   ("-DDISABLE_SMACK_ASSERTIONS", a.check .assertions = false), ("-DFLOAT_ENABLED", a.float = true), ("-DBIT_PRECISE", a.intEnc = .bitVector),
   ("-emit-llvm", True), ("-O0", True), ("-g", True), ("-c", True), ("-disable-O0-optnone", True)]

/-- Boogie with its bounds. -/
def boogieBounds (a : Args) : List Text :=
  ["boogie".toList, "/timeLimit:".toList ++ num a.timeLimit, "/errorLimit:".toList ++ num a.maxViolations] ++
    if a.modular then [] else ["/loopUnroll:".toList ++ num a.unroll]

/-- The verifier and the words that carry the bounds; Boogie is used for modular verification. -/
def bounds (a : Args) : List Text :=
  match a.verifier with
  | .corral => if a.modular then boogieBounds a else
    ["corral".toList, "/recursionBound:".toList ++ num a.unroll, "/maxStaticLoopBound:".toList ++ num a.loopLimit, "/k:".toList ++ num a.contextBound,
     "/timeLimit:".toList ++ num a.timeLimit, "/cex:".toList ++ num a.maxViolations]
  | .boogie => boogieBounds a
  | _ => if a.modular then boogieBounds a else
    ["symbooglix".toList, "--max-loop-depth=".toList ++ num a.unroll, "--timeout=".toList ++ num a.timeLimit,
     "--entry-points=".toList ++ [','].intercalate a.entryPoints]

/-- The names of solvers other than the default. -/
def solverName : Solver → Option String
  | .z3 => none
  | .cvc4 => some "SOLVER=cvc4"
  | .yices2 => some "SOLVER=Yices2"

end Smack.Run
