/-
Specifications about whole runs of the driver.
-/
import Verif.Run.Model
import Verif.Driver.Spec

namespace Smack.Run
open Smack.Driver

/-- The text the verdict is drawn from: what the process printed, with a remark if it was killed because of the time
limit, sent through the filter of `--transform-out`. -/
def Seen (w : World) (a : Args) (c : List Word) (limit : Nat) (p : Proc) (out : Text) : Prop :=
  ∃ raw, (limit ≠ 0 → p.slow = true → ∃ x, raw = p.out ++ '\n' :: (x ++ " timed out.".toList) ∧ c.head? = some (.lit x)) ∧
    ((limit = 0 ∨ p.slow = false) → raw = p.out) ∧
    (a.transformOut = none → out = raw) ∧ (∀ f, a.transformOut = some f → w.filter f raw = some out)

/-- Command `e` did what it was asked to. -/
def Succeeded (e : List Word × Proc) : Prop := e.2.started = true ∧ e.2.rc = 0

/-- The program that is to check the Boogie file. -/
def checker (a : Args) : String :=
  if a.modular then "boogie"
  else match a.verifier with
    | .boogie => "boogie"
    | .corral | .svcomp => "corral"
    | .symbooglix => "symbooglix"

/-- The last command was the verifier, applied to the Boogie file; `out` is the text the verdict is drawn from.
All commands before it succeeded, unless the verifier is symbooglix. -/
def Concluded (w : World) (a : Args) (s : St) (out : Text) : Prop :=
  ∃ pre c p rest, s.log = pre ++ [(c, p)] ∧ p.started = true ∧
    c = .lit (checker a).toList :: .inp (s.args.bpl.getD []) :: rest ∧
    (p.rc = 0 ∨ a.verifier = .symbooglix ∨ (a.timeLimit ≠ 0 ∧ p.slow = true)) ∧
    Seen w a c a.timeLimit p out ∧ ∀ e ∈ pre, Succeeded e ∨ a.verifier = .symbooglix

/-- The verifier as whose output the text is read. -/
def readAs : Ver → Verifier
  | .boogie => .boogie
  | .corral => .corral
  | .symbooglix | .svcomp => .symbooglix

/-- A value of `--language` that the help text offers. -/
def offered : List String :=
  ["c", "cxx", "objc", "d", "json", "svcomp", "llvm", "boogie", "fortran", "rust", "cargo"]

end Smack.Run
