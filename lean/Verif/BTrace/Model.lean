/-!
# The error trace for the verifier Boogie (share/smack/errtrace.py:51-63, 75-89, 104-122, 159-166)

Texts are lists of characters, word characters are the ASCII ones. The places that Boogie names (106-107) are given as pairs of a file
and the number of a line; the descriptions of all steps are empty.
-/
namespace Smack.BTrace

abbrev Str := List Char

/-- FILENAME, errtrace.py:94. -/
def fileChar (c : Char) : Bool :=
  c.isAlphanum || c == '_' || c == '#' || c == '$' || c == '~' || c == '%' || c == '.' || c == '/' || c == '-'

/-- The text after a fixed beginning. -/
def dropLit : Str → Str → Option Str
  | [], s => some s
  | _ :: _, [] => none
  | p :: ps, c :: s => if p = c then dropLit ps s else none

/-- The text `+`, as long as possible, and what follows. -/
def some1 (p : Char → Bool) (s : Str) : Option (Str × Str) :=
  if s.takeWhile p = [] then none else some (s.takeWhile p, s.dropWhile p)

/-- File, line and column of a place in the source, as texts. -/
structure Place where
  file : Str
  line : Str
  column : Str
deriving DecidableEq

/-- `{:sourceloc \"(FILENAME)\", (\d+), (\d+)}` at the start of a text. What stands behind each of the repetitions is in none of their
classes, so that they are as long as possible. -/
def srcHere (s : Str) : Option Place :=
  (dropLit ['{', ':', 's', 'o', 'u', 'r', 'c', 'e', 'l', 'o', 'c', ' ', '"'] s).bind fun s =>
  (some1 fileChar s).bind fun (f, s) =>
  (dropLit ['"', ',', ' '] s).bind fun s =>
  (some1 Char.isDigit s).bind fun (l, s) =>
  (dropLit [',', ' '] s).bind fun s =>
  (some1 Char.isDigit s).bind fun (c, s) =>
  (dropLit ['}'] s).map fun _ => ⟨f, l, c⟩

/-- errtrace.py:113-115 for one line: `.*` takes as much as possible. -/
def srcMatch : Str → Option Place
  | [] => none
  | c :: s => match srcMatch s with
    | some p => some p
    | none => srcHere (c :: s)

/-- The loop over the lines, errtrace.py:112-122. -/
def firstPlace : List Str → Option Place
  | [] => none
  | l :: ls => match srcMatch l with
    | some p => some p
    | none => firstPlace ls

/-- errtrace.py:108-122; `files` gives the lines of a file. -/
def traces (files : Str → List Str) : List (Str × Nat) → List Place
  | [] => []
  | (f, n) :: ss =>
    if ['.', 'b', 'p', 'l'].isSuffixOf f then
      match firstPlace (((files f).drop n).take 10) with
      | some p => p :: traces files ss
      | none => traces files ss
    else traces files ss

/-- merger, errtrace.py:75-89, for steps without description. -/
def merger (ts : List Place) (t : Place) : List Place :=
  match ts.getLast? with
  | none => [t]
  | some l => if l.file = t.file ∧ l.line = t.line ∧ l.column = t.column then ts else ts ++ [t]

/-- errtrace.py:163. -/
def merged (ts : List Place) : List Place := ts.foldl merger []

/-- errtrace.py:58-62. -/
def lineOf (p : Place) : Str := p.file ++ ['('] ++ p.line ++ [','] ++ p.column ++ [')', ':', ' ']

def joinLines : List Str → Str
  | [] => []
  | [l] => l
  | l :: ls => l ++ ['\n'] ++ joinLines ls

/-- error_trace, errtrace.py:51-63. -/
def errorTrace (files : Str → List Str) (steps : List (Str × Nat)) : Str := joinLines ((merged (traces files steps)).map lineOf)

end Smack.BTrace
