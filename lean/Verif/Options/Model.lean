import Verif.Driver.Model
import Verif.Naming.Model

/-
Model of the way from the command line to the Boogie file in the Python driver: the option `--check`
(share/smack/top.py:98-198, 489-500, 640-641), the flags it gives to clang (share/smack/frontend.py:106-139) and to
llvm2bpl (top.py:719-764), the checks these flags switch on, the annotation of the procedures (top.py:200-213,
773-798) and the assertion inserted for competition tasks (share/smack/svcomp/utils.py:73-88).

Text is a list of characters; Python's `upper` and `\s` are restricted to ASCII.
-/

namespace Smack.Options

open Smack.Driver

/-! ### `--check` -/

/-- The members of `VProperty` (top.py:127-134). -/
inductive Member where
  | none
  | single (p : Prp)
  | memorySafety
  deriving DecidableEq, Repr

/-- The names of the members (top.py:127-134). -/
def members : List (List Char × Member) :=
  [("NONE".toList, .none), ("ASSERTIONS".toList, .single .assertions), ("VALID_DEREF".toList, .single .validDeref),
   ("VALID_FREE".toList, .single .validFree), ("MEMLEAK".toList, .single .memleak),
   ("MEMORY_SAFETY".toList, .memorySafety), ("INTEGER_OVERFLOW".toList, .single .integerOverflow),
   ("RUST_PANICS".toList, .single .rustPanics)]

/-- `s.upper().replace('-', '_')` on one character (top.py:145). -/
def upperDash (c : Char) : Char := if c == '-' then '_' else c.toUpper

/-- `VProperty.argparse` (top.py:142-147); `none` stands for the unchanged string, which is no choice. -/
def argparse (s : List Char) : Option Member :=
  (members.find? (fun e => e.1 == s.map upperDash)).map Prod.snd

/-- The bits of a member (top.py:127-134). -/
def Member.flags : Member → Check
  | .none => fun _ => false
  | .single p => fun q => q == p
  | .memorySafety => fun q => q == .validDeref || q == .validFree || q == .memleak

/-- `choices=list(VProperty)` (top.py:492). Up to Python 3.10 the list has all members; since 3.11 iterating over a
flag class yields the single bits only. -/
def isChoice (py311 : Bool) : Member → Bool
  | .single _ => true
  | _ => !py311

/-- Conversion and test of one argument by argparse: `type`, then `choices` (top.py:490-494). `none` is the exit with
a usage message. -/
def checkArg (py311 : Bool) (s : List Char) : Option Member :=
  match argparse s with
  | some m => if isChoice py311 m then some m else Option.none
  | Option.none => Option.none

/-- All arguments of one occurrence of the option. -/
def checkArgs (py311 : Bool) : List (List Char) → Option (List Member)
  | [] => some []
  | s :: ss =>
    match checkArg py311 s, checkArgs py311 ss with
    | some m, some ms => some (m :: ms)
    | _, _ => Option.none

/-- `PropertyAction` (top.py:98-117): bitwise or with the value so far. -/
def propertyAction (acc : Check) (ms : List Member) : Check :=
  ms.foldl (fun a m => fun p => a p || m.flags p) acc

/-- All occurrences of `--check` in order; the default is `NONE` (top.py:493), which then becomes `ASSERTIONS`
(top.py:640-641). -/
def parseCheck (py311 : Bool) (occs : List (List (List Char))) : Option Check :=
  (occs.foldl (fun acc o =>
      match acc, checkArgs py311 o with
      | some a, some ms => some (propertyAction a ms)
      | _, _ => Option.none) (some (fun _ => false))).map defaulted

/-! ### Flags for the tools -/

/-- `contains_mem_safe_props` (top.py:153-158). -/
def containsMemSafe (check : Check) : Bool := check .validDeref || check .validFree || check .memleak

/-- The flags of `default_clang_compile_command` that depend on `--check` (frontend.py:125-131). `lib` is set for
SMACK's own library files. -/
def clangFlags (lib : Bool) (check : Check) : List String :=
  (if containsMemSafe check then ["-DMEMORY_SAFETY"] else []) ++
  (if check .integerOverflow then
    (if lib then ["-DSIGNED_INTEGER_OVERFLOW_CHECK"] else ["-fsanitize=signed-integer-overflow,shift"]) else []) ++
  (if check .assertions then [] else ["-DDISABLE_SMACK_ASSERTIONS"])

/-- The flags of `llvm_to_bpl` that depend on `--check` (top.py:751-756). -/
def llvm2bplFlags (check : Check) : List String :=
  (if containsMemSafe check then ["-memory-safety"] else []) ++
  (if check .integerOverflow then ["-integer-overflow"] else []) ++
  (if check .rustPanics then ["-rust-panics"] else [])

/-- Whether the tools produce the assertion of a place in the program that calls for a check of the property, given
the flags for the program, for SMACK's library, and for llvm2bpl. User assertions: share/smack/lib/smack.c:48-56.
Accesses: the calls are inserted by the pass (tools/llvm2bpl/llvm2bpl.cpp:217-219), the assertions are in smack.c:1630-1647.
`free`: smack.c:1694-1707 and the like under `#if MEMORY_SAFETY`. Leaks: smack.c:1877-1881, the calls by the pass,
and share/smack/lib/stdlib.c:8-26. Overflow: clang makes the intrinsics for signed operations (frontend.py:127-128),
the pass makes the calls (lib/smack/IntegerOverflowChecker.cpp:136, 180). Panics: lib/smack/SmackInstGenerator.cpp:651-656.
The option `--checked-functions` (SmackOptions.cpp) is left at its default. -/
def produced (user lib tr : List String) : Prp → Bool
  | .assertions => !lib.contains "-DDISABLE_SMACK_ASSERTIONS"
  | .validDeref => tr.contains "-memory-safety" && lib.contains "-DMEMORY_SAFETY"
  | .validFree => lib.contains "-DMEMORY_SAFETY"
  | .memleak => tr.contains "-memory-safety" && lib.contains "-DMEMORY_SAFETY"
  | .integerOverflow => user.contains "-fsanitize=signed-integer-overflow,shift" && tr.contains "-integer-overflow"
  | .rustPanics => tr.contains "-rust-panics"

/-- One line of the Boogie program that llvm2bpl prints: a line that is always there, or the assertion of a check. -/
inductive Item where
  | other (line : List Char)
  | check (p : Prp) (line : List Char)

/-- The lines llvm2bpl prints for the program. -/
def translated (user lib tr : List String) (prog : List Item) : List (List Char) :=
  prog.filterMap fun i =>
    match i with
    | .other l => some l
    | .check p l => if produced user lib tr p then some l else none

/-- From the command line to the file that is verified: the steps of top.py:700-770 that depend on `--check`. -/
def fileFor (py311 : Bool) (occs : List (List (List Char))) (prog : List Item) : Option (List (List Char)) :=
  (parseCheck py311 occs).map fun check =>
    selection check (translated (clangFlags false check) (clangFlags true check) (llvm2bplFlags check) prog)

/-! ### Annotation of the procedures -/

/-- `inlined_procedures` (top.py:200-213). -/
def inlinedProcedures : List (List Char) :=
  ["$galloc".toList, "$alloc".toList, "$malloc".toList, "$free".toList, "$memset".toList, "$memcpy".toList,
   "__VERIFIER_".toList, "$initialize".toList, "__SMACK_static_init".toList,
   "__SMACK_init_func_memory_model".toList, "__SMACK_loop_exit".toList, "__SMACK_check_overflow".toList]

/-- The options that matter (top.py:773-782); `unroll` is the printed number. -/
structure AOpts where
  entryPoints : List (List Char)
  modular : Bool
  boogie : Bool
  unroll : List Char

/-- `procedure_annotation` (top.py:773-782). The regular expression is the alternation of the listed names with `$`
escaped, and `re.match` anchors it at the start only. -/
def procedureAnnotation (o : AOpts) (name : List Char) : List Char :=
  if o.entryPoints.contains name then "{:entrypoint}".toList
  else if o.modular && inlinedProcedures.any (fun p => p.isPrefixOf name) then "{:inline 1}".toList
  else if !o.modular && o.boogie then "{:inline ".toList ++ o.unroll ++ "}".toList
  else []

/-- Neither blank nor opening parenthesis: `[^\s(]` (top.py:788). -/
def isNameChar (c : Char) : Bool := !isWs c && c != '('

/-- A match of `procedure\s+([^\s(]*)\s*\(` at the start of the text: the group and the rest (top.py:788). The
parts exclude each other, so there is one way to match. -/
def procHere (s : List Char) : Option (List Char × List Char) :=
  match dropPrefix? "procedure".toList s with
  | none => none
  | some r =>
    if (r.takeWhile isWs).isEmpty then none
    else
      let r1 := r.dropWhile isWs
      match (r1.dropWhile isNameChar).dropWhile isWs with
      | '(' :: t => some (r1.takeWhile isNameChar, t)
      | _ => none

/-- `proc_decl.sub` (top.py:793-796): leftmost matches that do not overlap. The number counts the characters of a
match that are still to be skipped. -/
def subProc (ann : List Char → List Char) : Nat → List Char → List Char
  | _, [] => []
  | k + 1, _ :: s => subProc ann k s
  | 0, c :: s =>
    match procHere (c :: s) with
    | some (name, t) =>
      "procedure ".toList ++ ann name ++ " ".toList ++ name ++ "(".toList ++ subProc ann (s.length - t.length) s
    | none => c :: subProc ann 0 s

/-- `annotate_bpl` without the two comment lines it puts in front (top.py:785-798). -/
def annotateBpl (o : AOpts) (text : List Char) : List Char := subProc (procedureAnnotation o) 0 text

/-! ### Competition mode -/

/-- `content.replace(pat, rep)`: leftmost occurrences that do not overlap; the number as in `subProc`. -/
def replaceAll (pat rep : List Char) : Nat → List Char → List Char
  | _, [] => []
  | k + 1, _ :: s => replaceAll pat rep k s
  | 0, c :: s =>
    match dropPrefix? pat (c :: s) with
    | some _ => rep ++ replaceAll pat rep (pat.length - 1) s
    | none => c :: replaceAll pat rep 0 s

/-- The call that marks the error location (svcomp/utils.py:76). -/
def errorCall : List Char := "call reach_error();".toList

/-- `inject_assert_false` (svcomp/utils.py:73-78). -/
def injectAssertFalse (text : List Char) : List Char :=
  replaceAll errorCall "assert false; call reach_error();".toList 0 text

/-- The first step of `verify_bpl_svcomp` (svcomp/utils.py:86-89). -/
def svcompText (check : Check) (text : List Char) : List Char :=
  if hasMemorySafety check || check .memleak || check .integerOverflow then text else injectAssertFalse text

end Smack.Options
