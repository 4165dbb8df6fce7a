import Verif.Driver.Regex

/-
Model of the Python driver: share/smack/top.py (results, properties, sub-property selection,
classification of the verifier's output), share/smack/svcomp/utils.py (SV-COMP verdict) and
share/smack/errtrace.py (merging of trace steps).

Text is a list of characters. Python's `\d`, `\w` and `\s` are restricted to ASCII; for other
characters Python also accepts other Unicode digits, letters and blanks.
-/

namespace Smack.Driver

/-! ### Results (top.py:20-96) -/

/-- `VResult` (top.py:27-40); the two group values `MEMSAFETY_ERROR`, `ERROR` are predicates. -/
inductive VRes where
  | verified | assertionFailure | invalidDeref | invalidFree | invalidMemtrack
  | overflow | rustPanic | timeout | unknown
  deriving DecidableEq, Repr

/-- `result in VResult.ERROR` (top.py:39-40). -/
def VRes.isError : VRes → Bool
  | .assertionFailure | .invalidDeref | .invalidFree | .invalidMemtrack | .overflow | .rustPanic => true
  | _ => false

/-- `return_code` (top.py:61-79). -/
def VRes.code : VRes → Nat
  | .verified => 0
  | .assertionFailure => 1
  | .invalidDeref => 2
  | .invalidFree => 3
  | .invalidMemtrack => 4
  | .overflow => 5
  | .rustPanic => 6
  | .timeout => 126
  | .unknown => 127

/-- `description` (top.py:45-59). -/
def VRes.description : VRes → Option (List Char)
  | .assertionFailure => some "".toList
  | .invalidDeref => some "invalid pointer dereference".toList
  | .invalidFree => some "invalid memory deallocation".toList
  | .invalidMemtrack => some "memory leak".toList
  | .overflow => some "integer overflow".toList
  | .rustPanic => some "Rust panic".toList
  | _ => none

/-- `message` (top.py:81-96). `unroll` is `none` for `args.modular`, otherwise the printed bound. -/
def VRes.message (unroll : Option (List Char)) (r : VRes) : List Char :=
  match r with
  | .verified =>
    "SMACK found no errors".toList ++
      (match unroll with
       | none => []
       | some u => " with unroll bound ".toList ++ u) ++ ".".toList
  | .timeout => "SMACK timed out.".toList
  | .unknown => "SMACK result is unknown.".toList
  | r =>
    "SMACK found an error".toList ++
      (match r.description with
       | some (c :: d) => ": ".toList ++ (c :: d)
       | _ => []) ++ ".".toList

/-! ### Properties (top.py:120-198) -/

/-- The single flags of `VProperty` (top.py:127-134). -/
inductive Prp where
  | assertions | validDeref | validFree | memleak | integerOverflow | rustPanics
  deriving DecidableEq, Repr

/-- A value of the flag type: a set of single properties. -/
abbrev Check := Prp → Bool

/-- `mem_safe_subprops` (top.py:148-150). -/
def memSafeSubprops : List Prp := [.validDeref, .validFree, .memleak]

/-- `MEMORY_SAFETY in args.check` (top.py:132, 802): `Flag.__contains__` is inclusion. -/
def hasMemorySafety (check : Check) : Bool := memSafeSubprops.all check

/-- `boogie_attr` (top.py:160-181): the lower-case name of the result, without the leading `in` for
the memory errors. `none` is the `RuntimeError`. -/
def Prp.attr : Prp → Option (List Char)
  | .assertions => none
  | .validDeref => some "valid_deref".toList
  | .validFree => some "valid_free".toList
  | .memleak => some "valid_memtrack".toList
  | .integerOverflow => some "overflow".toList
  | .rustPanics => some "rust_panic".toList

/-- `result` (top.py:183-198). -/
def Prp.result : Prp → Option VRes
  | .assertions => none
  | .validDeref => some .invalidDeref
  | .validFree => some .invalidFree
  | .memleak => some .invalidMemtrack
  | .integerOverflow => some .overflow
  | .rustPanics => some .rustPanic

/-- The check set after defaulting: `NONE` becomes `ASSERTIONS` (top.py:640-641). -/
def defaulted (check : Check) : Check :=
  if [Prp.assertions, .validDeref, .validFree, .memleak, .integerOverflow, .rustPanics].any check then check
  else fun p => p == .assertions

/-! ### Text helpers -/

/-- Python's `\s` and `str.isspace` on ASCII. -/
def isWs (c : Char) : Bool :=
  c == ' ' || ('\t' ≤ c && c ≤ '\r') || ('\x1c' ≤ c && c ≤ '\x1f')

def isDig (c : Char) : Bool := '0' ≤ c && c ≤ '9'

def isDig19 (c : Char) : Bool := '1' ≤ c && c ≤ '9'

/-- The remaining text if `p` is a prefix. -/
def dropPrefix? : List Char → List Char → Option (List Char)
  | [], s => some s
  | _ :: _, [] => none
  | p :: ps, c :: s => if p == c then dropPrefix? ps s else none

/-- Split at the last occurrence of `c`: what greedy `(.*)c` matches on one line. -/
def splitLast (c : Char) : List Char → Option (List Char × List Char)
  | [] => none
  | d :: s =>
    match splitLast c s with
    | some (a, b) => some (d :: a, b)
    | none => if d == c then some ([], s) else none

/-- Greedy `(.+)c` at the start of `s`: the group and what follows. `.` does not match a newline. -/
def greedyTo (c : Char) (s : List Char) : Option (List Char × List Char) :=
  match splitLast c (s.takeWhile (· != '\n')) with
  | some (x :: a, b) => some (x :: a, b ++ s.dropWhile (· != '\n'))
  | _ => none

/-! ### Sub-property selection (top.py:801-829) -/

/-- `({:(.+)})(.+);` at the start of the line rest `s` after `{:`; `acc` is the part of the attribute
already consumed (reversed). Greedy: the last closing brace that leaves a non-empty expression. -/
def attrSplit : List Char → List Char → Option (List Char × List Char × List Char)
  | _, [] => none
  | acc, c :: s =>
    if c == '\n' then none else
    match attrSplit (c :: acc) s with
    | some r => some r
    | none =>
      if c == '}' && !acc.isEmpty then
        match greedyTo ';' s with
        | some (e, t) => some (acc.reverse, e, t)
        | none => none
      else none

/-- A match of `^(\s*assert\s*)({:(.+)})?(.+);`: group 1, group 3 (if group 2 took part), group 4,
the text after the match. -/
structure Groups where
  g1 : List Char
  attr : Option (List Char)
  expr : List Char
  tail : List Char

/-- The match (top.py:824-825). Alternatives in Python's order: with the attribute; without it; and
one blank less in group 1 (then group 4 starts with that blank). -/
def matchAssert (line : List Char) : Option Groups :=
  let w1 := line.takeWhile isWs
  match dropPrefix? "assert".toList (line.dropWhile isWs) with
  | none => none
  | some r =>
    let w2 := r.takeWhile isWs
    let r3 := r.dropWhile isWs
    let withAttr := match dropPrefix? "{:".toList r3 with
      | some r4 => attrSplit [] r4
      | none => none
    match withAttr with
    | some (a, e, t) => some ⟨w1 ++ "assert".toList ++ w2, some a, e, t⟩
    | none =>
      match greedyTo ';' r3 with
      | some (e, t) => some ⟨w1 ++ "assert".toList ++ w2, none, e, t⟩
      | none =>
        match splitLast ';' (r3.takeWhile (· != '\n')), w2.getLast? with
        | some (e, t), some b =>
          some ⟨w1 ++ "assert".toList ++ w2.dropLast, none, b :: e, t ++ r3.dropWhile (· != '\n')⟩
        | _, _ => none

/-- `selected_props` (top.py:805-806). -/
def selectedProps (check : Check) : List (List Char) :=
  (memSafeSubprops.filter check).filterMap Prp.attr

/-- `replace_assertion` and `re.sub` on one line (top.py:808-827). -/
def selectLine (selected : List (List Char)) (line : List Char) : List Char :=
  match matchAssert line with
  | none => line
  | some g =>
    if selected.isEmpty then line
    else
      match g.attr with
      | some a =>
        if selected.contains a then g.g1 ++ "{:".toList ++ a ++ "}".toList ++ g.expr ++ ";".toList ++ g.tail
        else g.g1 ++ "true;".toList ++ g.tail
      | none => g.g1 ++ "true;".toList ++ g.tail

/-- `memsafety_subproperty_selection` on the lines of the Boogie file (top.py:801-829). -/
def selection (check : Check) (lines : List (List Char)) : List (List Char) :=
  if hasMemorySafety check then lines else lines.map (selectLine (selectedProps check))

/-! ### Classification of the verifier's output (top.py:857-901) -/

/-- `[1-9]\d*`. -/
def reNum : RE := .seq (.chr isDig19) (.star (.chr isDig))

def reLit (s : String) : RE := RE.lit s.toList

/-- `errors?`. -/
def reErrors : RE := .seq (reLit "error") (.alt (.chr (· == 's')) .eps)

/-- top.py:859. -/
def reTimeout : RE :=
  .alt (.seq reNum (reLit " time out"))
    (.alt (reLit "Z3 ran out of resources") (.alt (reLit "timed out") (reLit "ERRORS_TIMEOUT")))

/-- top.py:862-863. -/
def reVerified : RE :=
  .alt (.seq reNum (.seq (reLit " verified, 0 ") reErrors))
    (.alt (reLit "no bugs") (reLit "NO_ERRORS_NO_TIMEOUT"))

/-- top.py:865-866. -/
def reFailed : RE :=
  .alt (.seq (.star (.chr isDig)) (.seq (reLit " verified, ") (.seq reNum (.seq (reLit " ") reErrors))))
    (.alt (reLit "can fail") (reLit "ERRORS_NO_TIMEOUT"))

/-- `re.search(pre + '(.+)}', s).group(1)` for a literal `pre`: the leftmost occurrence that has a
closing brace later on its line; up to the last such brace. -/
def findAttr (pre : List Char) : List Char → Option (List Char)
  | [] => none
  | c :: s =>
    match dropPrefix? pre (c :: s) with
    | some r =>
      match greedyTo '}' r with
      | some (a, _) => some a
      | none => findAttr pre s
    | none => findAttr pre s

/-- The characters of a file name: word characters and `#$~%./` and minus (top.py:879). -/
def isFileChar (c : Char) : Bool :=
  c.isAlpha || isDig c || c == '_' || c == '#' || c == '$' || c == '~' || c == '%' || c == '.' || c == '/' || c == '-'

/-- The value of a digit string. -/
def natOf (s : List Char) : Nat := s.foldl (fun n c => n * 10 + (c.toNat - 48)) 0

/-- The message that marks a failing assertion in Boogie's output (top.py:880), from the closing parenthesis on. -/
def boogieMsg : List Char := ')' :: ": Error: This assertion might not hold".toList

/-- `(NAME)\((\d+),\d+\): Error: This assertion might not hold` at the start of `s`, NAME being file name
characters (top.py:878-880): file name and line number. -/
def boogieErrHere (s : List Char) : Option (List Char × Nat) :=
  let name := s.takeWhile isFileChar
  if name.isEmpty then none else
  match dropPrefix? ['('] (s.dropWhile isFileChar) with
  | none => none
  | some r =>
    let l := r.takeWhile isDig
    if l.isEmpty then none else
    match dropPrefix? [','] (r.dropWhile isDig) with
    | none => none
    | some r2 =>
      if (r2.takeWhile isDig).isEmpty then none else
      match dropPrefix? boogieMsg (r2.dropWhile isDig) with
      | none => none
      | some _ => some (name, natOf l)

/-- The leftmost such match. -/
def boogieErr : List Char → Option (List Char × Nat)
  | [] => none
  | c :: s => (boogieErrHere (c :: s)).or (boogieErr s)

/-- `--verifier` (top.py:535-541); `svcomp` calls the classification with 'corral'. -/
inductive Verifier where | boogie | corral | symbooglix
  deriving DecidableEq, Repr

/-- The loop of top.py:892-897 with the default of 899. -/
def kindOf (attr : Option (List Char)) : VRes :=
  match attr with
  | none => .assertionFailure
  | some a =>
    match (memSafeSubprops ++ [Prp.integerOverflow, Prp.rustPanics]).find? (fun p => p.attr == some a) with
    | some p => p.result.getD .assertionFailure
    | none => .assertionFailure

/-- Python's `l[n - 1]` for a natural `n` (`n = 0` takes the last element). -/
def pyIndexPred (l : List (List Char)) (n : Nat) : Option (List Char) :=
  if n = 0 then l.getLast? else l[n - 1]?

/-- The attribute of the failing assertion (top.py:868-890). The outer `none` is an exception (file
missing or too short). `files` gives the lines of the named file. -/
def failingAttr (files : List Char → Option (List (List Char))) (ver : Verifier) (out : List Char) :
    Option (Option (List Char)) :=
  match ver with
  | .corral => some (findAttr "ASSERTION FAILS assert {:".toList out)
  | .boogie =>
    match boogieErr out with
    | none => some none
    | some (name, n) =>
      if ".bpl".toList.isSuffixOf name then
        match files name with
        | none => none
        | some ls =>
          match pyIndexPred ls n with
          | none => none
          | some line => some (findAttr "assert {:".toList line)
      else some none
  | .symbooglix => some none

/-- `verification_result` (top.py:857-901). -/
def verificationResult (files : List Char → Option (List (List Char))) (ver : Verifier) (out : List Char) :
    Option VRes :=
  if reTimeout.search out then some .timeout
  else if reVerified.search out then some .verified
  else if reFailed.search out then (failingAttr files ver out).map kindOf
  else some .unknown

/-! ### SV-COMP verdict (svcomp/utils.py:51-66, 79-156) -/

/-- `sub in s`. -/
def hasSub (sub : List Char) : List Char → Bool
  | [] => (dropPrefix? sub []).isSome
  | c :: s => (dropPrefix? sub (c :: s)).isSome || hasSub sub s

/-- `re.sub('.*P', 'P', s)` with DOTALL for a literal `P`, when it occurs (svcomp/utils.py:123-124): the text
from the last occurrence on. -/
def fromLast (p : List Char) : List Char → Option (List Char)
  | [] => if (dropPrefix? p []).isSome then some [] else none
  | c :: s =>
    match fromLast p s with
    | some r => some r
    | none => if (dropPrefix? p (c :: s)).isSome then some (c :: s) else none

/-- The numbers found by `re.finditer(r'Exhausted recursion bound of ([1-9]\d*)', s)` (svcomp/utils.py:125). -/
def exhausted : List Char → List Nat
  | [] => []
  | c :: s =>
    match dropPrefix? "Exhausted recursion bound of ".toList (c :: s) with
    | some (d :: r) => if isDig19 d then natOf (d :: r.takeWhile isDig) :: exhausted s else exhausted s
    | _ => exhausted s

/-- `unrollMax` (svcomp/utils.py:121-128). -/
def unrollMax (out : List Char) : Nat :=
  match fromLast "Verifying program while tracking".toList out with
  | none => 0
  | some s => (exhausted s).foldl max 0

/-- `loopUnrollBar` (svcomp/utils.py:92). -/
def loopUnrollBar : Nat := 13

/-- The result whose message and code `verify_bpl_svcomp` reports (svcomp/utils.py:106-156); the sleep of
`force_timeout` is not modelled. -/
def svcompResult (files : List Char → Option (List (List Char))) (out : List Char) : Option VRes :=
  match verificationResult files .corral out with
  | some .timeout => if unrollMax out ≥ loopUnrollBar then some .verified else some .timeout
  | r => r

/-- `svcomp_check_property` (svcomp/utils.py:51-66): the check set, or `none` for the immediate exit with
`UNKNOWN`. -/
def svcompCheck (prop : List Char) (check : Check) : Option Check :=
  if hasSub "valid-deref".toList prop then some (fun p => p == .validDeref)
  else if hasSub "valid-memcleanup".toList prop then some (fun p => p == .memleak)
  else if hasSub "overflow".toList prop then some (fun p => p == .integerOverflow)
  else if hasSub "reach_error".toList prop then some check
  else none

/-! ### Trace steps (errtrace.py:75-89) -/

/-- A trace step (errtrace.py:150-156). -/
structure Step where
  thread : Nat
  file : List Char
  line : Nat
  column : Nat
  description : List Char
  assumption : List Char
  deriving DecidableEq, Repr

def Step.pos (s : Step) : List Char × Nat × Nat := (s.file, s.line, s.column)

/-- The new description of the last step (errtrace.py:82-86). -/
def joinDesc (old new : List Char) : List Char :=
  if new.isEmpty then old else if old.isEmpty then new else old ++ ", ".toList ++ new

/-- `merger` (errtrace.py:75-89). -/
def merger (traces : List Step) (t : Step) : List Step :=
  match traces.getLast? with
  | none => [t]
  | some last =>
    if last.file == t.file && last.line == t.line && last.column == t.column then
      traces.dropLast ++ [{ last with description := joinDesc last.description t.description }]
    else traces ++ [t]

/-- `functools.reduce(merger, traces, [])` (errtrace.py:162). -/
def mergeTraces (steps : List Step) : List Step := steps.foldl merger []

/-- `str.split(c)`. -/
def splitOn (c : Char) : List Char → List (List Char)
  | [] => [[]]
  | d :: s =>
    if d == c then [] :: splitOn c s
    else
      match splitOn c s with
      | [] => [[d]]
      | t :: ts => (d :: t) :: ts

/-- `str.strip()`. -/
def strip (s : List Char) : List Char := ((s.dropWhile isWs).reverse.dropWhile isWs).reverse

/-- `transform` (errtrace.py:39-48); `fmt` is `reformat_assignment`. -/
def transform (fmt : List Char → List Char) (info : List Char) : List Char :=
  if info.contains '=' then
    match splitOn '=' info with
    | l :: r :: _ => strip l ++ " = ".toList ++ fmt (strip r)
    | _ => info
  else info

end Smack.Driver
