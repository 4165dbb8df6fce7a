/-
What is asked of the harness of a replay.
-/
import Verif.Harness.Model

namespace Smack.Harness.Spec

open Smack.Harness

/-- The names that a part of the harness defines in C. -/
def defines : Part → List Name
  | .prelude => ["__VERIFIER_assert".toList, "__VERIFIER_assume".toList]
  | .table f _ => [f ++ "$table".toList, f ++ "$idx".toList, f]
  | .void f => [f]
  | .wrapper _ _ => ["_smack_replay_main".toList, "smack_replay_main".toList]

def defined (ps : List Part) : List Name := ps.flatMap defines

/-- A C file may define a name once. -/
def Accepted (ps : List Part) : Prop := (defined ps).Nodup

/-- A function of the program, with a name that C and the harness leave to it. -/
def Ordinary (f : Name) : Prop := '$' ∉ f ∧ f ≠ "_smack_replay_main".toList ∧ f ≠ "smack_replay_main".toList

/-- What the `k`-th call of a function gives (from zero), if the trace has the results `vs` for it. -/
def kth (vs : List (List Char)) (k : Nat) : Result :=
  if vs = [] then .none
  else if h : k < vs.length then .value vs[k] else .outside

end Smack.Harness.Spec
