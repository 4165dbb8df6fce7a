/-
Model of lib/smack/Naming.cpp (names of values, legal identifiers, Rust panic names), of the name matching in
lib/smack/RustFixes.cpp and of the function selection in lib/smack/SmackOptions.cpp. Strings are lists of characters.
-/

namespace Smack.Naming

abbrev Str := List Char

/-- The alternatives of the anchored expression BPL_KW (Naming.cpp:156-161). -/
def bplKw : List Str :=
  ["bool", "int", "real", "false", "true", "old", "forall", "exists", "requires", "modifies", "ensures", "invariant", "free",
   "unique", "finite", "complete", "type", "const", "function", "axiom", "var", "procedure", "implementation", "where",
   "returns", "assume", "assert", "havoc", "call", "return", "while", "break", "goto", "if", "then", "else", "div", "mod",
   "yield", "par", "async", "lambda"].map String.toList

/-- isBplKeyword, Naming.cpp:165. -/
def isBplKeyword (s : Str) : Bool := bplKw.contains s

/-- The characters replaced by an underscore (Naming.cpp:191-207). -/
def special : List Char :=
  ['\x01', '\\', ':', ' ', '(', ')', '[', ']', '{', '}', '<', '>', '|', '"', '-', ';']

/-- One iteration of the loop in escape (Naming.cpp:186-211). -/
def escChar (c : Char) : Char :=
  if c = '@' then '.' else if special.contains c then '_' else c

/-- escape, Naming.cpp:184-213. -/
def escape (s : Str) : Str := s.map escChar

/-- The kinds of values distinguished in get (Naming.cpp:227-249), in that order. -/
inductive Kind where
  | global | block | undef | inst | arg | other
deriving DecidableEq, Repr

/-- The types distinguished in freshVarName (Naming.cpp:273-291). -/
inductive Cls where
  | float | int | vector | other
deriving DecidableEq, Repr

/-- A value as seen by get. Values are identified by a number (their address). -/
structure Info where
  name : Option Str
  kind : Kind
  cls : Cls

/-- The members of Naming (Naming.h:24-28). The counters are natural numbers instead of 32-bit integers. -/
structure St where
  names : List (Nat × Str) := []
  blockNum : Nat := 0
  varNum : Nat := 0
  undefNum : Nat := 0
  globalNum : Nat := 0

/-- Output of an unsigned number to a stream. -/
def dec (n : Nat) : Str := Nat.toDigits 10 n

/-- The prefixes of Naming.cpp:77-88 chosen in freshVarName. -/
def varPrefix : Cls → Str
  | .float => ['$', 'f']
  | .int => ['$', 'i']
  | .vector => ['$', 'v']
  | .other => ['$', 'p']

def freshGlobalName (s : St) : Str × St := (['$', 'g'] ++ dec s.globalNum, { s with globalNum := s.globalNum + 1 })
def freshBlockName (s : St) : Str × St := (['$', 'b', 'b'] ++ dec s.blockNum, { s with blockNum := s.blockNum + 1 })
def freshUndefName (s : St) : Str × St := (['$', 'u'] ++ dec s.undefNum, { s with undefNum := s.undefNum + 1 })
def freshVarName (c : Cls) (s : St) : Str × St := (varPrefix c ++ dec s.varNum, { s with varNum := s.varNum + 1 })

/-- The identifier of a named value (Naming.cpp:227-230). -/
def ident (n : Str) : Str := if isBplKeyword (escape n) then escape n ++ ['_'] else escape n

/-- The name computed by get for a value without entry (Naming.cpp:225-249). -/
def compute (v : Info) (s : St) : Str × St :=
  match v.name, v.kind with
  | some _, .inst => freshVarName v.cls s
  | some n, _ => (ident n, s)
  | none, .global => freshGlobalName s
  | none, .block => freshBlockName s
  | none, .undef => freshUndefName s
  | none, .inst => freshVarName v.cls s
  | none, .arg => freshVarName v.cls s
  | none, .other => ([], s)

/-- get, Naming.cpp:220-253. -/
def get (env : Nat → Info) (v : Nat) (s : St) : Str × St :=
  match s.names.lookup v with
  | some n => (n, s)
  | none => let (n, s') := compute (env v) s
            (n, { s' with names := (v, n) :: s'.names })

/-- reset, Naming.cpp:215-218. The names of values are kept. -/
def reset (s : St) : St := { s with blockNum := 0, varNum := 0 }

/-- The uses of a Naming object: get, freshBlockName (SmackInstGenerator.cpp:75), reset (SmackModuleGenerator.cpp:53, at the start of
each function). -/
inductive Op where
  | get (v : Nat)
  | freshBlock
  | reset
deriving DecidableEq, Repr

def stepOp (env : Nat → Info) (s : St) : Op → St
  | .get v => (get env v s).2
  | .freshBlock => (freshBlockName s).2
  | .reset => reset s

def run (env : Nat → Info) (s : St) (ops : List Op) : St := ops.foldl (stepOp env) s

/-! ## Rust names -/

/-- RUST_PANICS, Naming.cpp:68-71. -/
def rustPanics : List Str :=
  ["_ZN3std9panicking15begin_panic_fmt17h", "_ZN4core9panicking5panic17h", "_ZN3std9panicking11begin_panic17h",
   "_ZN4core9panicking9panic_fmt17h", "_ZN4core9panicking18panic_bounds_check17h"].map String.toList

/-- `name.find(p) == 0`: the first occurrence of `p` is at position 0. -/
def findIsZero (p name : Str) : Bool := p.isPrefixOf name

/-- isRustPanic, Naming.cpp:173-182. -/
def isRustPanic (name : Str) : Bool :=
  rustPanics.any fun p => findIsZero p name && decide (name.length = p.length + 17)

/-- isRustNameMatch, RustFixes.cpp:21-28. -/
def isRustNameMatch (search name : Str) : Bool :=
  let hashed := ("17h".toList).isSuffixOf search && search.isPrefixOf name && decide (search.length + 17 = name.length)
  let exact := decide (search = name)
  hashed || exact

/-- The keys of alloc_fns, RustFixes.cpp:34-43. -/
def allocKeys : List Str :=
  ["_ZN5alloc5alloc5alloc17h", "_ZN5alloc5alloc12alloc_zeroed17h", "_ZN5alloc5alloc7dealloc17h", "_ZN5alloc5alloc7realloc17h",
   "__rust_alloc", "__rust_alloc_zeroed", "__rust_dealloc", "__rust_realloc"].map String.toList

/-! ## Function selection -/

/-- A regular expression as used by `llvm::Regex`: `L pre mid post` says that the expression matches `mid` in the text
`pre ++ mid ++ post` (the context matters for anchors). -/
abbrev Rx := Str → Str → Str → Bool

/-- The longest match that starts after `pre` (POSIX semantics, as implemented by the regex library of LLVM). `k` is the length
tried first. -/
def longestAt (L : Rx) (pre rest : Str) : Nat → Option Str
  | 0 => if L pre [] rest then some [] else none
  | k + 1 => if L pre (rest.take (k + 1)) (rest.drop (k + 1)) then some (rest.take (k + 1)) else longestAt L pre rest k

/-- `Regex(s).match(name, &matches)`: the leftmost longest match. -/
def firstMatch (L : Rx) (pre : Str) : Str → Option Str
  | [] => longestAt L pre [] 0
  | c :: rest => match longestAt L pre (c :: rest) (rest.length + 1) with
    | some m => some m
    | none => firstMatch L (pre ++ [c]) rest

/-- shouldCheckFunction, SmackOptions.cpp:111-122. -/
def shouldCheckFunction (checked : List Rx) (name : Str) : Bool :=
  checked.length == 0 || checked.any fun L => match firstMatch L [] name with
    | some m => decide (m = name)
    | none => false

/-- isEntryPoint, SmackOptions.cpp:104-109. -/
def isEntryPoint (eps : List Str) (name : Str) : Bool := eps.any fun ep => decide (name = ep)

/-- The test at SmackInstGenerator.cpp:162, on the Boogie identifier instead of the name of the function. -/
def recordsEntry (eps : List Str) (fname : Str) : Bool := isEntryPoint eps (ident fname)

end Smack.Naming
