/-
The harness of a replay (share/smack/replay.py:4-7, 99-162): the C definitions that are linked with the program in order to
reproduce an error, and what the stubs among them return. The values of the harness are those of `Witness` (replay.py:66-99).

A harness is the list of its parts, one for each text that the function appends. Names are texts, as in `Witness`.
-/
import Verif.Witness.Model

namespace Smack.Harness

open Smack.Witness

abbrev Name := List Char

/-- `SPECIAL_NAMES` (replay.py:4-7). -/
def special : List Name := ["__VERIFIER_assert".toList, "__VERIFIER_assume".toList]

/-- A part of the harness. -/
inductive Part where
  /-- The two functions at the start (replay.py:101-123). -/
  | prelude
  /-- A function with a table of results (replay.py:127-134). -/
  | table (fn : Name) (vals : List (List Char))
  /-- A function without a result (replay.py:138-142). -/
  | void (fn : Name)
  /-- The two wrappers of an entry point (replay.py:151-160). -/
  | wrapper (fn : Name) (vals : List (List Char))
deriving DecidableEq, Repr

/-- `order` lists the elements of `set(missing_definitions) - set(SPECIAL_NAMES)` (replay.py:125) in some order: that of the iteration
over a Python set is not specified. -/
def Iteration (missing order : List Name) : Prop := order.Nodup ∧ ∀ f, f ∈ order ↔ f ∈ missing ∧ f ∉ special

/-- The stub of one function (replay.py:126-142). -/
def stubPart (returns : Dict) (fn : Name) : Part :=
  match returns.lookup fn with
  | some vs => .table fn vs
  | none => .void fn

/-- `harness` (replay.py:99-162). -/
def harness (st : Values) (order : List Name) : List Part :=
  .prelude :: order.map (stubPart st.returns) ++ st.arguments.map fun p => .wrapper p.1 p.2

/-! ## Running the stubs -/

/-- What a call of a stub gives: nothing, an element of the table, or a read behind the end of the table. -/
inductive Result where
  | none
  | value (v : List Char)
  | outside
deriving DecidableEq, Repr

/-- The variables `fn$idx`. -/
abbrev Idx := Name → Nat

/-- `return fn$table[fn$idx++];` (replay.py:132), or `return;` (replay.py:140). The first argument is the harness; a function that it does
not define is not called here. -/
def call : List Part → Idx → Name → Option (Result × Idx)
  | [], _, _ => .none
  | .table g vs :: ps, i, f =>
    if g = f then
      .some (match vs[i f]? with | .some v => .value v | .none => .outside, fun h => if h = f then i h + 1 else i h)
    else call ps i f
  | .void g :: ps, i, f => if g = f then .some (.none, i) else call ps i f
  | .prelude :: ps, i, f => call ps i f
  | .wrapper _ _ :: ps, i, f => call ps i f

/-- The results of a sequence of calls. -/
def calls (ps : List Part) : Idx → List Name → Option (List Result)
  | _, [] => .some []
  | i, f :: fs =>
    match call ps i f with
    | .some (r, i') => (calls ps i' fs).map (r :: ·)
    | .none => .none

end Smack.Harness
