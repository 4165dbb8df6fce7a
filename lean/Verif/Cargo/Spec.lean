import Verif.Cargo.Model
/-!
# Specification: what Cargo writes
-/
namespace Smack.Cargo.Spec

open Smack.Cargo

/-- A crate that is built: its name as Rust sees it, the hash that tells builds of the same name apart, and the extension of a file. -/
structure Artifact where
  crate : Str
  hash : Str
  ext : Str
deriving DecidableEq

/-- The file for a crate in `deps`. -/
def Artifact.file (a : Artifact) : Str := a.crate ++ '-' :: (a.hash ++ '.' :: a.ext)

/-- Names of crates are identifiers; there are no dots in extensions. -/
def Artifact.Ok (a : Artifact) : Prop := '-' ∉ a.crate ∧ '.' ∉ a.ext

/-- A name of a package as a name of a crate: each dash becomes an underscore. -/
def CrateOf (p t : Str) : Prop :=
  p.length = t.length ∧ ∀ n (h : n < p.length) (h' : n < t.length), (p[n] = '-' → t[n] = '_') ∧ (p[n] ≠ '-' → t[n] = p[n])

/-- `ws` are the words of the text, as Cargo separates RUSTFLAGS: texts without blanks, with single blanks between them. -/
inductive WordsOf : Str → List Str → Prop where
  | last (w : Str) (h : w ≠ [] ∧ ' ' ∉ w) : WordsOf w [w]
  | more (w s : Str) (ws : List Str) (h : w ≠ [] ∧ ' ' ∉ w) (hs : WordsOf s ws) : WordsOf (w ++ ' ' :: s) (w :: ws)

end Smack.Cargo.Spec
