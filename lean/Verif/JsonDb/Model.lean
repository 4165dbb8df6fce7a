/-!
# The front end for JSON compilation databases (share/smack/frontend.py:277-311)

Texts are lists of characters; word characters of regular expressions are the ASCII ones and white space is the blank. An object
name does not end with a newline. Commands that fail are left out, and so is the translation after the commands (309-311).
-/
namespace Smack.JsonDb

abbrev Str := List Char

/-- `\b` before the text, after a word character. -/
def boundary : Str → Bool
  | [] => true
  | c :: _ => !(c.isAlphanum || c = '_')

/-- The match of `[.]o\b` at the start of the text: the rest. -/
def objHere : Str → Option Str
  | '.' :: 'o' :: q => if boundary q then some q else none
  | _ => none

/-- The match of `([^ ]*)[.]o\b` at the start of the text: the group, as long as possible, and the rest. -/
def objMatch : Str → Option (Str × Str)
  | [] => none
  | c :: s =>
    match (if c = ' ' then none else objMatch s) with
    | some (p, q) => some (c :: p, q)
    | none => (objHere (c :: s)).map fun q => ([], q)

/-- The match of `-o ([^ ]*)[.]o\b` at the start of the text, frontend.py:283. -/
def outHere : Str → Option (Str × Str)
  | '-' :: 'o' :: ' ' :: r => objMatch r
  | _ => none

/-- `output_flags.sub(r"-o \1.bc", …)`, frontend.py:305, for texts of at most `n` characters. -/
def outSub : Nat → Str → Str
  | 0, s => s
  | _, [] => []
  | n + 1, c :: s =>
    match outHere (c :: s) with
    | some (p, q) => ['-', 'o', ' '] ++ p ++ ['.', 'b', 'c'] ++ outSub n q
    | none => c :: outSub n s

/-- The match of `-O[1-9]\b` at the start of the text, frontend.py:284. -/
def optHere : Str → Option Str
  | '-' :: 'O' :: d :: r => if ('1' ≤ d ∧ d ≤ '9') ∧ boundary r = true then some r else none
  | _ => none

/-- `optimization_flags.sub("-O0", …)`, frontend.py:306. -/
def optSub : Nat → Str → Str
  | 0, s => s
  | _, [] => []
  | n + 1, c :: s =>
    match optHere (c :: s) with
    | some r => ['-', 'O', '0'] ++ optSub n r
    | none => c :: optSub n s

/-- str.split(): the words between blanks. -/
def split : Str → List Str
  | [] => []
  | c :: s =>
    if c = ' ' then split s
    else match s with
      | [] => [[c]]
      | d :: _ => if d = ' ' then [c] :: split s
        else match split s with
          | [] => [[c]]
          | w :: ws => (c :: w) :: ws

/-- frontend.py:304-308. -/
def compileWords (command : Str) : List Str :=
  split (optSub (outSub command.length command).length (outSub command.length command) ++
    [' ', '-', 'e', 'm', 'i', 't', '-', 'l', 'l', 'v', 'm'])

/-- `re.sub('[.]o$', '.bc', f)`, frontend.py:290. -/
def objToBc : Str → Str
  | [] => []
  | c :: s => if c :: s = ['.', 'o'] then ['.', 'b', 'c'] else c :: objToBc s

/-- An entry of the database. -/
inductive Entry where
  | objects (os : List Str)
  | command (directory command : Str)

/-- A command that is run, and the directory if it is given. -/
structure Cmd where
  words : List Str
  dir : Option Str
deriving DecidableEq

structure Args where
  linker : Str
  bcFile : Str
  linkedBcFile : Str
  libs : List Str

/-- json_compilation_database_frontend, frontend.py:286-308: the commands. -/
def commands (a : Args) : List Entry → List Cmd
  | [] => []
  | .objects os :: es =>
    ⟨[a.linker, ['-', 'o'], a.bcFile] ++ os.map objToBc, none⟩ ::
    ⟨[a.linker, ['-', 'o'], a.linkedBcFile, a.bcFile] ++ a.libs, none⟩ :: commands a es
  | .command d c :: es => ⟨compileWords c, some d⟩ :: commands a es

end Smack.JsonDb
