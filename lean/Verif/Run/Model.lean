import Verif.Options.Model

/-
Model of a whole run of the driver: share/smack/top.py (218-265, 626-855, 904-1012), share/smack/frontend.py,
share/smack/utils.py and the front end and verification of share/smack/svcomp/utils.py.

The machine is given by a `World`: what a command prints and does to the files, which names `mkstemp` chooses, when
signals arrive. All worlds are considered. Not modelled: `--replay`, the log files of `--debug`, the contents of the
error and JSON files (arbitrary functions of the verifier's output), access rights, working directories, `--verbose`.
-/

namespace Smack.Run

open Smack.Driver

abbrev Text := List Char
abbrev Path := List Char

/-- The files: contents by name. A directory is an entry without contents. -/
abbrev Files := Path → Option Text

def Files.set (fs : Files) (p : Path) (c : Option Text) : Files := fun q => if q = p then c else fs q

/-- A word of a command line. Words that name files are marked with the role of the file; `also` is no word of the
command line but a file whose name the tool derives and which it writes. -/
inductive Word where
  | lit (t : Text)
  | inp (p : Path)
  | out (p : Path)
  | upd (p : Path)
  | also (p : Path)
  deriving DecidableEq

/-- A literal word. -/
def L (s : String) : Word := .lit s.toList

/-- What the driver sees of a process: whether it could be started, whether it still ran when the time limit was
over, its exit status (negative for signals) and its output. -/
structure Proc where
  started : Bool
  slow : Bool
  rc : Int
  out : Text

inductive Sig where | int | term
  deriving DecidableEq

/-- An entry of a JSON compilation database after the substitutions of frontend.py:283-307: objects to link (as
bitcode files), or a command. -/
inductive Entry where
  | objects (bcs : List Path)
  | command (words : List Word)

structure World where
  /-- executes a command -/
  run : List Word → Files → Proc × Files
  /-- `tempfile.mkstemp`, `mkdtemp` with prefix and extension -/
  fresh : Text → Text → Files → Path
  /-- the signal that arrives during the n-th command -/
  signal : Nat → Option Sig
  /-- the commands of `--transform-bpl` and `--transform-out`: input to output; `none` if it cannot be started -/
  filter : Text → Text → Option Text
  /-- the comment lines in front of the Boogie file (top.py:788-791) -/
  header : Text
  /-- the path of a file of share/smack/lib -/
  lib : String → Path
  /-- share/smack/include -/
  headers : Path
  /-- `sys.stdout.isatty()` -/
  tty : Bool
  /-- `error_trace` -/
  trace : Text → Text
  /-- `json_output_str` -/
  json : VRes → Text → Text
  /-- `smackJsonToXmlGraph` -/
  graph : VRes → Text → Text
  /-- `json.load` of a compilation database; `none` is an exception -/
  database : Text → Option (List Entry)
  /-- the name of the target in a Cargo file; `none` is an exception -/
  crate : Text → Option Text
  /-- `os.listdir` -/
  listdir : Path → Files → List Text

/-- `--verifier` (top.py:533-541). -/
inductive Ver where | boogie | corral | symbooglix | svcomp
  deriving DecidableEq

inductive IntEnc where | bitVector | unbounded | wrapped
  deriving DecidableEq

inductive MemMod where | noReuse | noReuseImpls | reuse
  deriving DecidableEq

inductive Solver where | z3 | cvc4 | yices2
  deriving DecidableEq

/-- The options (top.py:268-624). The texts of `--clang-options` and `--verifier-options` are split at blanks. -/
structure Args where
  inputs : List Path
  language : Option Text := none
  quiet : Bool := false
  debug : Bool := false
  debugOnly : Option Text := none
  warn : Text := "approximate".toList
  noVerify : Bool := false
  errorFile : Option Path := none
  jsonFile : Option Path := none
  bc : Option Path := none
  linked : Option Path := none
  ll : Option Path := none
  bpl : Option Path := none
  clangOptions : List Text := []
  rewriteBitwise : Bool := false
  noSplitting : Bool := false
  memMod : MemMod := .noReuseImpls
  staticUnroll : Bool := false
  pthread : Bool := false
  maxThreads : Nat := 32
  intEnc : IntEnc := .unbounded
  timing : Bool := false
  ptrBv : Bool := false
  noByteInference : Bool := false
  entryPoints : List Text := ["main".toList]
  checked : List Text := []
  check : Check := fun p => p == .assertions
  llvmAssumes : Text := "none".toList
  float : Bool := false
  strings : Bool := false
  failOnLoopExit : Bool := false
  verifier : Ver := .corral
  solver : Solver := .z3
  unroll : Nat := 1
  loopLimit : Nat := 1
  contextBound : Nat := 1
  verifierOptions : List Text := []
  timeLimit : Nat := 1200
  maxViolations : Nat := 1
  svcompProperty : Option Path := none
  modular : Bool := false
  transformBpl : Option Text := none
  transformOut : Option Text := none

/-- The state of a run: the options (front ends change some), the files, the registered temporary files, and, for the
record, the commands with what became of them and the lines printed. -/
structure St where
  args : Args
  files : Files
  temps : List Path := []
  log : List (List Word × Proc) := []
  said : List Text := []

/-- How a run ends early: `sys.exit` with a status, or an exception that nobody catches. -/
inductive Stop where
  | exit (code : Nat)
  | raised
  deriving DecidableEq

inductive Res (α : Type) where
  | ok (a : α) (s : St)
  | stop (e : Stop) (s : St)

def M (α : Type) : Type := St → Res α

def M.bind {α β : Type} (m : M α) (f : α → M β) : M β := fun s =>
  match m s with
  | .ok a s' => f a s'
  | .stop e s' => .stop e s'

instance : Monad M where
  pure a := fun s => .ok a s
  bind := M.bind

def get : M St := fun s => .ok s s
def modify (f : St → St) : M Unit := fun s => .ok () (f s)
def setArgs (f : Args → Args) : M Unit := modify fun s => { s with args := f s.args }
def stop {α : Type} (e : Stop) : M α := fun s => .stop e s
def say (t : Text) : M Unit := modify fun s => { s with said := s.said ++ [t] }

/-- Reading a file; `none` is the exception for a missing file. -/
def read (p : Path) : M Text := fun s =>
  match s.files p with
  | some t => .ok t s
  | none => .stop .raised s

def write (p : Path) (t : Text) : M Unit := modify fun s => { s with files := s.files.set p (some t) }

/-! ### utils.py -/

/-- `f` is the file or a file below the directory. -/
def covers (d f : Path) : Bool := f == d || (d ++ ['/']).isPrefixOf f

/-- `remove_temp_files` (utils.py:29-34). -/
def removeTemps (s : St) : St :=
  { s with files := fun f => if s.temps.any (covers · f) then none else s.files f }

/-- `temporary_file` (utils.py:14-19) and `temporary_directory` (utils.py:22-26). -/
def temporary (w : World) (pre ext : Text) : M Path := fun s =>
  let name := w.fresh (pre ++ ['-']) ext s.files
  .ok name { s with
    files := s.files.set name (some [])
    temps := if s.args.debug then s.temps else s.temps ++ [name] }

/-- `cmd[0]`. -/
def program (c : List Word) : Text :=
  match c with
  | .lit t :: _ => t
  | _ => []

/-- `try_command` (utils.py:43-107) with the signal handlers of `main` (top.py:980-985, 1008-1009). `limit` is 0 for
no time limit. SIGTERM: the handler removes the temporary files and exits with status 0. SIGINT: `main` exits with a
message, status 1. A command that cannot be started: exit with a message, status 1. -/
def tryCommand (w : World) (c : List Word) (limit : Nat := 0) : M Text := fun s =>
  let r := w.run c s.files
  let s' := { s with files := r.2, log := s.log ++ [(c, r.1)] }
  match w.signal s.log.length with
  | some .term => .stop (.exit 0) (removeTemps s')
  | some .int => .stop (.exit 1) s'
  | none =>
    if !r.1.started then .stop (.exit 1) s'
    else if limit != 0 && r.1.slow then .ok (r.1.out ++ "\n".toList ++ program c ++ " timed out.".toList) s'
    else if r.1.rc == -11 then .stop .raised s'
    else if r.1.rc != 0 && s.args.verifier != .symbooglix then .stop .raised s'
    else .ok r.1.out s'

/-- The same where the output does not matter. -/
def command (w : World) (c : List Word) : M Unit := do
  let _ ← tryCommand w c
  pure ()

/-- `llvm_exact_bin` (utils.py:110-111) with bin/versions:8. -/
def llvmBin (name : String) : Word := L (name ++ "-12")

/-! ### Names -/

/-- `os.path.basename`. -/
def basename (p : Path) : Text :=
  match splitLast '/' p with
  | some (_, b) => b
  | none => p

/-- `os.path.splitext` on a base name: leading dots belong to the root. -/
def splitBase (b : Text) : Text × Text :=
  match splitLast '.' (b.dropWhile (· == '.')) with
  | some (r, e) => (b.takeWhile (· == '.') ++ r, '.' :: e)
  | none => (b, [])

/-- `os.path.splitext(os.path.basename(p))[0]`. -/
def stem (p : Path) : Text := (splitBase (basename p)).1

/-- `os.path.splitext(p)[1][1:]`. -/
def ext (p : Path) : Text := (splitBase (basename p)).2.drop 1

/-- `str.split()`. -/
def words (t : Text) : List Text :=
  t.foldr (fun c acc =>
    if isWs c then [] :: acc
    else match acc with
      | [] => [[c]]
      | a :: r => (c :: a) :: r) [[]] |>.filter (fun a => !a.isEmpty)

def num (n : Nat) : Text := (toString n).toList

/-! ### Languages (frontend.py:16-68) -/

inductive Lang where
  | c | cxx | objc | d | json | svcomp | llvm | boogie | fortran | rust | cargo
  deriving DecidableEq, Repr

/-- `languages()`: by file extension (frontend.py:16-37). -/
def languages : List (Text × Lang) :=
  [("c".toList, .c), ("i".toList, .c), ("cc".toList, .cxx), ("cpp".toList, .cxx), ("m".toList, .objc), ("d".toList, .d),
   ("json".toList, .json), ("svcomp".toList, .svcomp), ("bc".toList, .llvm), ("ll".toList, .llvm), ("bpl".toList, .boogie),
   ("f".toList, .fortran), ("for".toList, .fortran), ("f90".toList, .fortran), ("f95".toList, .fortran),
   ("f03".toList, .fortran), ("rs".toList, .rust), ("toml".toList, .cargo)]

/-- `languages()[t]`; `none` is the `KeyError`. -/
def language (t : Text) : Option Lang := (languages.find? (fun e => e.1 == t)).map Prod.snd

/-- The keys of `frontends()`, the choices of `--language` (frontend.py:46-58, top.py:338-340). -/
def frontendNames : List (Text × Lang) :=
  [("c".toList, .c), ("cxx".toList, .cxx), ("objc".toList, .objc), ("d".toList, .d), ("json".toList, .json),
   ("svcomp".toList, .svcomp), ("llvm".toList, .llvm), ("boogie".toList, .boogie), ("fortran".toList, .fortran),
   ("rust".toList, .rust), ("cargo".toList, .cargo)]

/-! ### Options (top.py:230-265, 626-674) -/

/-- `validate_input_files` (top.py:235-252) as run by `FileAction`: a message and status 1. -/
def validateInputs (s : St) : Bool :=
  s.args.inputs.all fun f => (s.files f).isSome && (language (ext f)).isSome

/-- top.py:630-631. -/
def nameBc (w : World) : M Unit := do
  let s ← get
  match s.args.bc with
  | some _ => pure ()
  | none => do
    let f ← temporary w "a".toList ".bc".toList
    setArgs fun a => { a with bc := some f }

/-- top.py:633-634. -/
def nameLinked (w : World) : M Unit := do
  let s ← get
  match s.args.linked with
  | some _ => pure ()
  | none => do
    let f ← temporary w "b".toList ".bc".toList
    setArgs fun a => { a with linked := some f }

/-- top.py:636-638. -/
def nameBpl (w : World) : M Unit := do
  let s ← get
  match s.args.bpl with
  | some _ => pure ()
  | none =>
    if s.args.noVerify then setArgs fun a => { a with bpl := some "a.bpl".toList }
    else do
      let f ← temporary w "a".toList ".bpl".toList
      setArgs fun a => { a with bpl := some f }

/-- `arguments` after parsing (top.py:628-650): names for the files that the user does not name. -/
def arguments (w : World) : M Unit := do
  let s ← get
  if !validateInputs s then stop (.exit 1)
  else do
    nameBc w
    nameLinked w
    nameBpl w

def Args.bcFile (a : Args) : Path := a.bc.getD []
def Args.linkedFile (a : Args) : Path := a.linked.getD []
def Args.bplFile (a : Args) : Path := a.bpl.getD []

/-- `f.readlines()`: the lines with their ends. -/
def readlines (t : Text) : List Text :=
  t.foldr (fun c acc =>
    if c == '\n' then [c] :: acc
    else match acc with
      | [] => [[c]]
      | a :: r => (c :: a) :: r) []

/-- `re.findall('^target triple = "(.*)"', line)` (top.py:669). -/
def triple (line : Text) : Option Text :=
  match dropPrefix? "target triple = \"".toList line with
  | some r => (splitLast '"' (r.takeWhile (· != '\n'))).map Prod.fst
  | none => none

/-- The loop of top.py:668-672. -/
def setTarget (t : Text) : M Unit :=
  match (readlines t).findSome? triple with
  | some x => setArgs fun a => { a with clangOptions := a.clangOptions ++ ["-target".toList, x] }
  | none => pure ()

/-- `target_selection` (top.py:653-672). `re.search('-target', …)` finds the word inside any option. -/
def targetSelection (w : World) : M Unit := do
  let s ← get
  if s.args.clangOptions.any (hasSub "-target".toList) then pure ()
  else
    match s.args.inputs with
    | [] => stop .raised
    | src :: _ =>
      if ext src = "bc".toList then
        let ll ← temporary w (stem src) ".ll".toList
        command w [llvmBin "llvm-dis", L "-o", .out ll, .inp src]
        let t ← read ll
        setTarget t
      else if ext src = "ll".toList then
        let t ← read src
        setTarget t

/-! ### Compilation (frontend.py:71-496) -/

/-- `'-DMEMORY_MODEL_' + args.mem_mod.upper().replace('-', '_')` (frontend.py:121). -/
def memModFlag : MemMod → Word
  | .noReuse => L "-DMEMORY_MODEL_NO_REUSE"
  | .noReuseImpls => L "-DMEMORY_MODEL_NO_REUSE_IMPLS"
  | .reuse => L "-DMEMORY_MODEL_REUSE"

/-- A flag under a condition. -/
def opt (b : Bool) (ws : List Word) : List Word := if b then ws else []

/-- `default_clang_compile_command` without the compiler's name (frontend.py:106-140). -/
def clangArgs (w : World) (a : Args) (lib : Bool) : List Word :=
  [L "-c", L "-emit-llvm", L "-O0", L "-g", L "-gcolumn-info", L "-Xclang", L "-disable-O0-optnone",
   .lit ("-I".toList ++ w.headers)] ++ a.clangOptions.map .lit ++ [memModFlag a.memMod] ++
  (Options.clangFlags lib a.check).map L ++
  opt a.float [L "-DFLOAT_ENABLED"] ++
  opt a.pthread [.lit ("-DSMACK_MAX_THREADS=".toList ++ num a.maxThreads)] ++
  opt (a.intEnc == .bitVector) [L "-DBIT_PRECISE"] ++ opt w.tty [L "-fcolor-diagnostics"]

/-- `compile_to_bc` (frontend.py:143-151). -/
def compileToBc (w : World) (input : Path) (cc : List Word) : M Path := do
  let bc ← temporary w (stem input) ".bc".toList
  command w (cc ++ [L "-o", .out bc, .inp input])
  pure bc

/-- `d_compile_to_bc` (frontend.py:154-162). The option is one word in the code. -/
def dCompileToBc (w : World) (input : Path) (cc : List Word) : M Path := do
  let bc ← temporary w (stem input) ".bc".toList
  command w (cc ++ [L "-of=", .out bc, .inp input])
  pure bc

/-- `'.'.join(ll.split('.')[:-1] + ['bc'])` (frontend.py:195). -/
def withBc (ll : Path) : Path :=
  match splitLast '.' ll with
  | some (a, _) => a ++ ".bc".toList
  | none => "bc".toList

/-- `fortran_compile_to_bc` (frontend.py:165-196); `cc[1]` is replaced by `-S`. `more` are the files the compiler
writes besides (module files). -/
def fortranCompileToBc (w : World) (input : Path) (cc : List Word) (more : List Path) : M Path := do
  let ll ← temporary w (stem input) ".ll".toList
  command w (cc.set 1 (L "-S") ++ [L "-o", .out ll, .inp input] ++ more.map .also)
  command w [L "sed", L "-i", L "s/i32 1, !\"Debug Info Version\"/i32 2, !\"Debug Info Version\"/g", .upd ll]
  command w [llvmBin "llvm-as", .inp ll, .also (withBc ll)]
  command w [L "rm", .out ll]
  pure (withBc ll)

/-- A loop that collects results. -/
def forEach {α β : Type} (f : α → M β) : List α → M (List β)
  | [] => pure []
  | a :: as => do
    let b ← f a
    let bs ← forEach f as
    pure (b :: bs)

/-- `default_build_libs` (frontend.py:410-430). -/
def defaultBuildLibs (w : World) : M (List Path) := do
  let s ← get
  let libs := ["smack.c", "stdlib.c", "errno.c", "smack-rust.c"] ++ (if s.args.pthread then ["pthread.c"] else []) ++
    (if s.args.strings then ["string.c"] else []) ++ (if s.args.float then ["math.c", "fenv.c"] else [])
  forEach (fun c => compileToBc w (w.lib c) (llvmBin "clang" :: clangArgs w s.args true)) libs

/-- `fortran_build_libs` (frontend.py:433-446). Compiling the module file writes `smack.mod`. -/
def fortranBuildLibs (w : World) : M (List Path) := do
  let s ← get
  let bc ← fortranCompileToBc w (w.lib "smack.f90") (L "flang" :: clangArgs w s.args false) ["smack.mod".toList]
  pure [bc]

/-- `cplusplus_build_libs` (frontend.py:449-462). -/
def cplusplusBuildLibs (w : World) : M (List Path) := do
  let s ← get
  let bc ← compileToBc w (w.lib "smack.cpp") (llvmBin "clang++" :: clangArgs w s.args true)
  pure [bc]

/-- `default_rust_compile_args` (frontend.py:366-377). -/
def rustArgs : List Word :=
  [L "-A", L "unused-imports", L "-C", L "opt-level=0", L "-C", L "no-prepopulate-passes", L "-g", L "--cfg",
   L "verifier=\"smack\"", L "-C", L "passes=name-anon-globals"]

/-- `default_rust_compile_command` (frontend.py:380-383). -/
def rustCommand (args : List Word) : List Word := [L "rustc", L "+nightly-2021-03-01"] ++ rustArgs ++ args

/-- `rust_build_libs` (frontend.py:465-477). -/
def rustBuildLibs (w : World) : M (List Path) := do
  let bc ← compileToBc w (w.lib "smack.rs") (rustCommand [L "--emit=llvm-bc", L "--crate-type", L "lib"])
  pure [bc]

/-- `extra_libs` (frontend.py:61-68): whether the language has one. -/
def hasExtra : Lang → Bool
  | .fortran | .cxx | .rust => true
  | _ => false

/-- The functions of `extra_libs`. -/
def extraLibs (w : World) : Lang → M (List Path)
  | .fortran => fortranBuildLibs w
  | .cxx => cplusplusBuildLibs w
  | .rust => rustBuildLibs w
  | _ => pure []

/-- `extern_entry_points` (frontend.py:89-103). -/
def externEntryPoints (w : World) (bcs : List Path) : M (List Path) :=
  forEach (fun bc => do
    let s ← get
    let new ← temporary w (stem bc) ".bc".toList
    command w ([L "extern-statics", L "-in", .inp bc, L "-out", .out new] ++
      s.args.entryPoints.flatMap fun ep => [L "-entry-points", .lit ep])
    pure new) bcs

/-! ### Translation (top.py:712-855) -/

/-- The command line of llvm2bpl (top.py:714-767). -/
def llvm2bpl (w : World) (a : Args) : List Word :=
  [L "llvm2bpl", .inp a.linkedFile, L "-bpl", .out a.bplFile, L "-warn-type", .lit a.warn, L "-sea-dsa=ci"] ++
  opt w.tty [L "-colored-warnings"] ++ [L "-source-loc-syms"] ++
  a.entryPoints.flatMap (fun ep => [L "-entry-points", .lit ep]) ++
  a.checked.flatMap (fun cf => [L "-checked-functions", .lit cf]) ++
  opt a.debug [L "-debug"] ++
  (match a.debugOnly with | some m => [L "-debug-only", .lit m] | none => []) ++
  (match a.ll with | some f => [L "-ll", .out f] | none => []) ++
  opt (a.memMod == .noReuseImpls) [L "-mem-mod-impls"] ++
  opt a.staticUnroll [L "-static-unroll"] ++
  opt (a.intEnc == .bitVector) [L "-bit-precise"] ++
  opt (a.intEnc == .wrapped) [L "-wrapped-integer-encoding"] ++
  opt a.timing [L "-timing-annotations"] ++
  opt a.ptrBv [L "-bit-precise-pointers"] ++
  opt a.noByteInference [L "-no-byte-access-inference"] ++
  opt a.rewriteBitwise [L "-rewrite-bitwise-ops"] ++
  opt a.noSplitting [L "-no-memory-splitting"] ++
  (Options.llvm2bplFlags a.check).map L ++
  opt a.failOnLoopExit [L "-fail-on-loop-exit"] ++
  opt (!a.llvmAssumes.isEmpty) [.lit ("-llvm-assumes=".toList ++ a.llvmAssumes)] ++
  opt a.float [L "-float"] ++ opt a.modular [L "-modular"]

/-- The options `procedure_annotation` looks at (top.py:771-780). -/
def annOpts (a : Args) : Options.AOpts :=
  { entryPoints := a.entryPoints, modular := a.modular, boogie := a.verifier == .boogie, unroll := num a.unroll }

/-- `annotate_bpl` (top.py:783-798). -/
def annotateFile (w : World) : M Unit := do
  let s ← get
  let t ← read s.args.bplFile
  write s.args.bplFile (w.header ++ Options.annotateBpl (annOpts s.args) t)

/-- `memsafety_subproperty_selection` (top.py:801-829). -/
def selectFile : M Unit := do
  let s ← get
  let t ← read s.args.bplFile
  write s.args.bplFile (selection s.args.check (readlines t)).flatten

/-- `transform_bpl` (top.py:832-844). The exit status of the command is not looked at. -/
def transformFile (w : World) : M Unit := do
  let s ← get
  match s.args.transformBpl with
  | none => pure ()
  | some c =>
    let t ← read s.args.bplFile
    match w.filter c t with
    | none => do
      write s.args.bplFile []
      stop .raised
    | some t' => write s.args.bplFile t'

/-- `llvm_to_bpl` (top.py:712-768). -/
def llvmToBpl (w : World) : M Unit := do
  let s ← get
  command w (llvm2bpl w s.args)
  annotateFile w
  selectFile
  transformFile w

/-- `link_bc_files` (frontend.py:482-496). -/
def linkBcFiles (w : World) (bitcodes : List Path) (libs : List Lang) : M Unit := do
  let smack ← defaultBuildLibs w
  let extra ← forEach (extraLibs w) libs
  let bcs ← externEntryPoints w bitcodes
  let s ← get
  command w ([llvmBin "llvm-link", L "-o", .out s.args.bcFile] ++ bcs.map .inp)
  command w ([llvmBin "llvm-link", L "-o", .out s.args.linkedFile, .inp s.args.bcFile] ++
    (smack ++ extra.flatten).map .inp)
  llvmToBpl w

/-! ### Front ends (frontend.py:201-404, svcomp/utils.py:11-66) -/

/-- `boogie_frontend` (frontend.py:267-274): the file is opened for appending. -/
def boogieFrontend (input : Path) : M Unit := do
  let s ← get
  if s.args.inputs.length > 1 then stop .raised
  else
    write s.args.bplFile ((s.files s.args.bplFile).getD [])
    let t ← read input
    let s ← get
    write s.args.bplFile ((s.files s.args.bplFile).getD [] ++ t)

/-- `json_compilation_database_frontend` (frontend.py:277-311). -/
def jsonFrontend (w : World) (input : Path) : M Unit := do
  let s ← get
  if s.args.inputs.length > 1 then stop .raised
  else
    let t ← read input
    match w.database t with
    | none => stop .raised
    | some es =>
      let _ ← forEach (fun e => do
        match e with
        | .objects bcs =>
          let s ← get
          command w ([llvmBin "llvm-link", L "-o", .out s.args.bcFile] ++ bcs.map .inp)
          let libs ← defaultBuildLibs w
          command w ([llvmBin "llvm-link", L "-o", .out s.args.linkedFile, .inp s.args.bcFile] ++ libs.map .inp)
        | .command ws => command w ws) es
      llvmToBpl w

/-- `svcomp_check_property` (svcomp/utils.py:51-66). -/
def svcompProperty : M Unit := do
  let s ← get
  match s.args.svcompProperty with
  | none => pure ()
  | some f =>
    let prop ← read f
    match svcompCheck prop s.args.check with
    | some c => setArgs fun a => { a with check := c }
    | none => do
      say (VRes.message (if s.args.modular then none else some (num s.args.unroll)) .unknown)
      stop (.exit VRes.unknown.code)

/-- `svcomp_frontend` (svcomp/utils.py:11-48). -/
def svcompFrontend (w : World) (input : Path) : M Unit := do
  setArgs fun a => { a with staticUnroll := true, rewriteBitwise := true, strings := true }
  let s ← get
  if s.args.inputs.length > 1 then stop .raised
  else
    svcompProperty
    setArgs fun a =>
      { a with
        intEnc := if a.check .integerOverflow then .bitVector else a.intEnc
        clangOptions := a.clangOptions ++
          ["-fbracket-depth=2048".toList, "-Wno-unknown-attributes".toList, "-DSVCOMP".toList,
           "-DDISABLE_PTHREAD_ASSERTS".toList, "-include".toList, "smack.h".toList] ++
          (if ext input = "i".toList then ["-x".toList, "c".toList] else []) }
    let s ← get
    let bc ← compileToBc w input (llvmBin "clang" :: clangArgs w s.args false)
    linkBcFiles w [bc] []

/-- `cargo_frontend` (frontend.py:322-363). The environment variable RUSTFLAGS is not modelled. -/
def cargoFrontend (w : World) (input : Path) : M Path := do
  let dir ← temporary w (stem input) []
  command w [L "cargo", L "+nightly-2021-03-01", L "build", L "--target-dir", .out dir, L "--manifest-path", .inp input]
  let t ← read input
  match w.crate t with
  | none => stop .raised
  | some name =>
    let s ← get
    let base := dir ++ "/debug/deps/".toList
    let bcs := (w.listdir base s.files).filter fun e => (name ++ ['-']).isPrefixOf e && ".bc".toList.isSuffixOf e
    let bc ← temporary w (stem input) ".bc".toList
    command w ([llvmBin "llvm-link"] ++ bcs.map (fun e => .inp (base ++ e)) ++ [L "-o", .out bc])
    pure bc

/-- The functions of `frontends()`; the result is the bitcode file, if any. Objective-C as on Linux
(frontend.py:221-232). -/
def runFrontend (w : World) (lang : Lang) (input : Path) : M (Option Path) := do
  let s ← get
  match lang with
  | .c => do
    let f ← compileToBc w input (llvmBin "clang" :: clangArgs w s.args false)
    pure (some f)
  | .cxx => do
    let f ← compileToBc w input (llvmBin "clang++" :: clangArgs w s.args false)
    pure (some f)
  | .objc => do
    let flags ← tryCommand w [L "gnustep-config", L "--objc-flags"]
    let f ← compileToBc w input (llvmBin "clang" :: clangArgs w s.args false ++ (words flags).map .lit)
    pure (some f)
  | .d => do
    setArgs fun a => { a with entryPoints := a.entryPoints ++ ["_Dmain".toList] }
    let f ← dCompileToBc w input [L "ldc2", L "-output-ll", .lit ("-I=".toList ++ w.headers)]
    pure (some f)
  | .fortran => do
    let _ ← fortranBuildLibs w
    setArgs fun a => { a with entryPoints := a.entryPoints ++ ["MAIN_".toList] }
    let f ← fortranCompileToBc w input (L "flang" :: clangArgs w s.args false) []
    pure (some f)
  | .rust => do
    let rlib ← temporary w ("lib".toList ++ stem (w.lib "smack.rs")) ".rlib".toList
    command w (rustCommand [L "--crate-type", L "rlib,lib"] ++ [L "-o", .out rlib, .inp (w.lib "smack.rs")])
    let f ← compileToBc w input (rustCommand [L "--emit=llvm-bc", L "--extern", L "smack=", .inp rlib])
    pure (some f)
  | .llvm => pure (some input)
  | .cargo => do
    let f ← cargoFrontend w input
    pure (some f)
  | .boogie => do
    boogieFrontend input
    pure none
  | .json => do
    jsonFrontend w input
    pure none
  | .svcomp => do
    svcompFrontend w input
    pure none

/-- The language of an input file: that of `--language`, looked up as if it were a file extension (top.py:685-686),
or that of the extension (top.py:699). -/
def langOf (a : Args) (input : Path) : Option Lang :=
  match a.language with
  | some t => language t
  | none => language (ext input)

/-- Languages whose front end leaves nothing to link (top.py:687, 700). -/
def noreturning : Lang → Bool
  | .boogie | .svcomp | .json => true
  | _ => false

/-- One turn of the loops of top.py:692-695, 698-706. -/
def frontend1 (w : World) (a : Args) (f : Path) : M (Lang × Option Path) :=
  match langOf a f with
  | none => stop .raised
  | some lang => do
    let bc ← runFrontend w lang f
    pure (lang, bc)

/-- `frontend` (top.py:675-708). `libs` is a set in the code. -/
def frontend (w : World) : M Unit := do
  let s ← get
  let r ← forEach (frontend1 w s.args) s.args.inputs
  let langs := r.map Prod.fst
  if langs.any noreturning then pure ()
  else linkBcFiles w (r.filterMap Prod.snd) (langs.eraseDups.filter hasExtra)

/-! ### Verification (top.py:904-975, svcomp/utils.py:80-176) -/

/-- The options for other solvers (top.py:923-926, 941-944). -/
def solverArgs (pre : String) : Solver → List Word
  | .z3 => []
  | .cvc4 => [L (pre ++ "SOLVER=cvc4")]
  | .yices2 => [L (pre ++ "SOLVER=Yices2")]

/-- The command of `verify_bpl` (top.py:911-956). `svcomp` has its own function. -/
def verifierCommand (a : Args) : List Word :=
  (if a.verifier == .boogie || a.modular then
    [L "boogie", .inp a.bplFile, L "/doModSetAnalysis", L "/useArrayTheory", .lit ("/timeLimit:".toList ++ num a.timeLimit),
     .lit ("/errorLimit:".toList ++ num a.maxViolations), L "/proverOpt:O:smt.array.extensional=false",
     L "/proverOpt:O:smt.qi.eager_threshold=100", L "/proverOpt:O:smt.arith.solver=2"] ++
    opt (!a.modular) [.lit ("/loopUnroll:".toList ++ num a.unroll)] ++ solverArgs "/proverOpt:" a.solver
  else if a.verifier == .corral then
    [L "corral", .inp a.bplFile, L "/tryCTrace", L "/noTraceOnDisk", L "/printDataValues:1",
     .lit ("/k:".toList ++ num a.contextBound), L "/useProverEvaluate", .lit ("/timeLimit:".toList ++ num a.timeLimit),
     .lit ("/cex:".toList ++ num a.maxViolations), .lit ("/maxStaticLoopBound:".toList ++ num a.loopLimit),
     .lit ("/recursionBound:".toList ++ num a.unroll), L "/bopt:proverOpt:O:smt.qi.eager_threshold=100",
     L "/bopt:proverOpt:O:smt.arith.solver=2"] ++ solverArgs "/bopt:proverOpt:" a.solver
  else
    [L "symbooglix", .inp a.bplFile, L "--file-logging=0",
     .lit ("--entry-points=".toList ++ [','].intercalate a.entryPoints),
     .lit ("--timeout=".toList ++ num a.timeLimit), .lit ("--max-loop-depth=".toList ++ num a.unroll)]) ++
  a.verifierOptions.map .lit

/-- The verifier as `verification_result` distinguishes it. -/
def Ver.reader : Ver → Verifier
  | .boogie => .boogie
  | .corral => .corral
  | _ => .symbooglix

/-- The lines of a file, for `verification_result` (top.py:883-885). -/
def linesOf (fs : Files) : List Char → Option (List (List Char)) := fun f => (fs f).map readlines

/-- The printed bound of the message (top.py:81-96). -/
def bound (a : Args) : Option Text := if a.modular then none else some (num a.unroll)

/-- `transform_out` (top.py:847-854). -/
def transformOut (w : World) (out : Text) : M Text := do
  let s ← get
  match s.args.transformOut with
  | none => pure out
  | some c =>
    match w.filter c out with
    | none => stop .raised
    | some t => pure t

def writeOpt (f : Option Path) (t : Text) : M Unit :=
  match f with
  | some f => write f t
  | none => pure ()

/-- A statement under a condition. -/
def onlyIf (b : Bool) (m : M Unit) : M Unit := if b then m else pure ()

/-- The end of `verify_bpl` (top.py:956-975): files, trace, message. -/
def report (w : World) (a : Args) (r : VRes) (out : Text) : M Unit := do
  writeOpt a.jsonFile (w.json r out)
  onlyIf r.isError (writeOpt a.errorFile (w.trace out))
  onlyIf (r.isError && !a.quiet) (say (w.trace out))
  say (r.message (bound a))

/-- `verify_bpl` for the other verifiers than svcomp (top.py:911-975) with the exit of `main` (top.py:1005-1006). -/
def verifyBpl (w : World) : M Unit := do
  let s ← get
  let out ← tryCommand w (verifierCommand s.args) s.args.timeLimit
  let out ← transformOut w out
  let s ← get
  match verificationResult (linesOf s.files) s.args.verifier.reader out with
  | none => stop .raised
  | some r =>
    report w s.args r out
    stop (.exit r.code)

/-- `write_error_file` (svcomp/utils.py:158-176). Text has no `decode`: outside of the language svcomp, where the
trace is text, an exception. -/
def writeErrorFile (w : World) (r : VRes) (out : Text) : M Unit := do
  let s ← get
  if r = .unknown then pure ()
  else
    match s.args.errorFile with
    | none => pure ()
    | some f =>
      if s.args.language = some "svcomp".toList then write f (w.graph r out)
      else if r = .verified then pure ()
      else do
        write f []
        stop .raised

/-- The command of `verify_bpl_svcomp` (svcomp/utils.py:95-105). -/
def svcompCommand (a : Args) : List Word :=
  [L "corral", .inp a.bplFile, L "/tryCTrace", L "/noTraceOnDisk", L "/printDataValues:1", L "/useProverEvaluate",
   L "/cex:1", L "/bopt:proverOpt:O:smt.qi.eager_threshold=100", L "/bopt:proverOpt:O:smt.arith.solver=2",
   L "/timeLimit:880", L "/v:1", L "/recursionBound:65536", L "/trackAllVars"]

/-- `verify_bpl_svcomp` (svcomp/utils.py:80-156). After the sleep of `force_timeout` the time-out is reported. -/
def verifySvcomp (w : World) : M Unit := do
  let s ← get
  let t ← read s.args.bplFile
  write s.args.bplFile (Options.svcompText s.args.check t)
  let out ← tryCommand w (svcompCommand s.args) 880
  let s ← get
  match svcompResult (linesOf s.files) out with
  | none => stop .raised
  | some r =>
    onlyIf (r.isError && !s.args.quiet) (say (w.trace out))
    writeErrorFile w r out
    say (r.message (bound s.args))
    stop (.exit r.code)

/-! ### `main` (top.py:988-1012) -/

/-- What argparse makes of the command line: a usage error (status 2), `--version` or `--help` (status 0), options. -/
inductive CmdLine where
  | usage
  | info
  | run (a : Args)

/-- The body of `main` after parsing. -/
def body (w : World) : M Unit := do
  arguments w
  targetSelection w
  frontend w
  let s ← get
  if s.args.noVerify then pure ()
  else if s.args.verifier = .svcomp then verifySvcomp w
  else verifyBpl w

def Res.state {α : Type} : Res α → St
  | .ok _ s => s
  | .stop _ s => s

/-- The exit status of the process: an uncaught exception gives 1. -/
def Res.status {α : Type} : Res α → Nat
  | .ok _ _ => 0
  | .stop (.exit n) _ => n
  | .stop .raised _ => 1

/-- `main`: the exit status and the state after `finally` (top.py:1011-1012). The choices of `--language` are checked by
argparse. -/
def main (w : World) (fs : Files) : CmdLine → Nat × St
  | .usage => (2, { args := { inputs := [] }, files := fs })
  | .info => (0, { args := { inputs := [] }, files := fs })
  | .run a =>
    if (match a.language with
        | some t => (frontendNames.map Prod.fst).contains t
        | none => true) then
      let r := body w { args := a, files := fs }
      (r.status, removeTemps r.state)
    else (2, { args := a, files := fs })

end Smack.Run
