/-
The functions that a program misses (share/smack/replay.py:50-64), found in the output of the compiler (clang) for its bitcode.

Outputs are given as texts of printable characters and newlines, as in `Witness`.
-/
import Verif.Driver.Model

namespace Smack.Harness

open Smack.Driver

/-- The quote that Python's `repr` takes for a text. -/
def quote (s : List Char) : Char := if '\'' ∈ s ∧ '"' ∉ s then '"' else '\''

/-- A character in Python's `repr` of a text with the quote `q`. -/
def escape (q c : Char) : List Char :=
  if c = '\\' then ['\\', '\\'] else if c = q then ['\\', q] else if c = '\n' then ['\\', 'n'] else [c]

/-- `repr(err)` for the exception that `try_command` raises with the output (replay.py:55, utils.py:91-92). -/
def reprErr (s : List Char) : List Char := "Exception(".toList ++ quote s :: (s.flatMap (escape (quote s)) ++ [quote s, ')'])

/-- `.replace("\\n", "\n")` (replay.py:55). -/
def newlines : List Char → List Char
  | [] => []
  | [c] => [c]
  | c :: d :: s => if c = '\\' ∧ d = 'n' then '\n' :: newlines s else c :: newlines (d :: s)

/-- Greedy `(.*)` before a literal, at the start of a line. -/
def lastSub (suf : List Char) : List Char → Option (List Char)
  | [] => none
  | c :: s =>
    match lastSub suf s with
    | some g => some (c :: g)
    | none => if (dropPrefix? suf (c :: s)).isSome then some [] else none

/-- `re.search` for `pre(.*)suf` with literals (replay.py:57-61): the group. -/
def search (pre suf : List Char) : List Char → Option (List Char)
  | [] => none
  | c :: s =>
    match (dropPrefix? pre (c :: s)).bind (lastSub suf) with
    | some g => some g
    | none => search pre suf s

/-- One line of the output (replay.py:57-63): the two forms, of macOS and of GNU. -/
def missingLine (l : List Char) : Option (List Char) :=
  match search ['"', '_'] "\", referenced from:".toList l with
  | some g => some g
  | none => search "undefined reference to `".toList ['\''] l

/-- `detect_missing_definitions` (replay.py:50-64) for the output of a failing command. -/
def missing (out : List Char) : List (List Char) := (splitOn '\n' (newlines (reprErr out))).filterMap missingLine

end Smack.Harness
