/-!
# The front end for Cargo projects (share/smack/frontend.py:314-377)

Texts are lists of characters. Commands that fail are left out (see Run), and so is the RUST_VERSION of the tool chain, which is given.
-/
namespace Smack.Cargo

abbrev Str := List Char

/-- What the front end looks at in the manifest: the name of the package (none: there is no package, or it has no name), and the
library, which may have a name. -/
structure Config where
  package : Option Str
  lib : Option (Option Str)

/-- `replace('-', '_')`. -/
def underscores (s : Str) : Str := s.map fun c => if c = '-' then '_' else c

/-- find_target, frontend.py:325-332, with its default for the options; `none`: KeyError. -/
def findTarget (c : Config) : Option Str :=
  match c.package with
  | none => none
  | some p =>
    match c.lib with
    | some (some l) => some (underscores l)
    | _ => some (underscores p)

/-- frontend.py:354. -/
def isBitcode (target entry : Str) : Bool := (target ++ ['-']).isPrefixOf entry && ['.', 'b', 'c'].isSuffixOf entry

/-- frontend.py:348-355: the bitcode files of the crate; `entries` is the result of listdir. -/
def bitcodes (base target : Str) : List Str → List Str
  | [] => []
  | e :: es => if isBitcode target e then (base ++ e) :: bitcodes base target es else bitcodes base target es

/-- default_rust_compile_args, frontend.py:366-377. -/
def rustArgs : List Str :=
  ["-A".toList, "unused-imports".toList, "-C".toList, "opt-level=0".toList, "-C".toList, "no-prepopulate-passes".toList, "-g".toList, "--cfg".toList,
    "verifier=\"smack\"".toList, "-C".toList, "passes=name-anon-globals".toList]

/-- `" ".join(…)`. -/
def joinBlank : List Str → Str
  | [] => []
  | [w] => w
  | w :: ws => w ++ [' '] ++ joinBlank ws

/-- The value of RUSTFLAGS, frontend.py:339-344. -/
def rustFlags : Str := joinBlank (rustArgs ++ ["--emit=llvm-bc".toList, "-Clto".toList, "-Cembed-bitcode=yes".toList])

/-- A command with the value of RUSTFLAGS, if it is set. -/
structure Cmd where
  words : List Str
  flags : Option Str
deriving DecidableEq

/-- cargo_frontend, frontend.py:322-363: the commands. `dir` is the temporary directory and `bc` the temporary file, `listdir` gives the
files after the build. `none`: an exception after the build. -/
def commands (version linker input dir bc : Str) (c : Config) (listdir : Str → List Str) : Option (List Cmd) :=
  match findTarget c with
  | none => none
  | some t =>
    some [⟨["cargo".toList, '+' :: version, "build".toList, "--target-dir".toList, dir, "--manifest-path".toList, input], some rustFlags⟩,
      ⟨[linker] ++ bitcodes (dir ++ "/debug/deps/".toList) t (listdir (dir ++ "/debug/deps/".toList)) ++ ["-o".toList, bc], none⟩]

end Smack.Cargo
