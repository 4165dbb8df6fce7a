/-
Specifications about the files a run leaves behind.
-/
import Verif.Run.Model

namespace Smack.Run

/-- `f` is `d` or lies below the directory `d`. -/
def Below (d f : Path) : Prop := f = d ∨ ∃ r, f = d ++ '/' :: r

/-- There are finitely many files. -/
def Finite (fs : Files) : Prop := ∃ l : List Path, ∀ f, fs f ≠ none → f ∈ l

/-- Tools change only the files they are given for writing, and write finitely many. -/
structure Tidy (w : World) : Prop where
  only : ∀ c fs f, (∀ x ∈ c, ∀ p, x = .out p ∨ x = .upd p ∨ x = .also p → ¬Below p f) → (w.run c fs).2 f = fs f
  finite : ∀ c fs, Finite fs → Finite (w.run c fs).2

/-- The names of temporary files are not in use. -/
def NewNames (w : World) : Prop := ∀ pre ext fs f, Finite fs → Below (w.fresh pre ext fs) f → fs f = none

/-- The files that the user names for results. -/
def results (a : Args) : List Path :=
  a.bc.toList ++ a.linked.toList ++ a.ll.toList ++ a.errorFile.toList ++ a.jsonFile.toList ++
  (match a.bpl with
   | some f => [f]
   | none => if a.noVerify then ["a.bpl".toList] else [])

/-- The files that are neither results nor below one. -/
def Foreign (a : Args) (f : Path) : Prop := ∀ d ∈ results a, ¬Below d f

end Smack.Run
