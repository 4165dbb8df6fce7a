import Verif.JsonDb.Model
/-!
# Specification: what becomes of the words of a command
-/
namespace Smack.JsonDb.Spec

open Smack.JsonDb

/-- Words separated by single blanks. -/
def join : List Str → Str
  | [] => []
  | [w] => w
  | w :: ws => w ++ ' ' :: join ws

/-- An object file becomes a bitcode file. -/
def bitcode (w : Str) : Str := if ['.', 'o'] <:+ w then w.take (w.length - 2) ++ ['.', 'b', 'c'] else w

/-- An optimization level becomes level 0. -/
def level (w : Str) : Str := if ∃ d, d ∈ ['1', '2', '3', '4', '5', '6', '7', '8', '9'] ∧ w = ['-', 'O', d] then ['-', 'O', '0'] else w

/-- The words of the new command: those after `-o` are outputs. -/
def rewrite : List Str → List Str
  | [] => []
  | [w] => [level w]
  | w :: o :: ws => if w = ['-', 'o'] then w :: bitcode o :: rewrite ws else level w :: rewrite (o :: ws)

/-- Words without blanks. -/
def WordOk (w : Str) : Prop := w ≠ [] ∧ ' ' ∉ w

/-- `-o` only as a word of its own; an optimization level only as a word of its own. -/
def FlagOk (w : Str) : Prop :=
  (['-', 'o'] <:+ w → w = ['-', 'o']) ∧
  ∀ d, d ∈ ['1', '2', '3', '4', '5', '6', '7', '8', '9'] → ['-', 'O', d] <:+: w → w = ['-', 'O', d]

/-- An output: an object file, or without `.o` in its name. -/
def OutputOk (w : Str) : Prop := ['.', 'o'] <:+ w ∨ ¬ ['.', 'o'] <:+: w

/-- Commands in which `-o` is followed by an output. -/
def CommandOk : List Str → Prop
  | [] => True
  | [w] => WordOk w ∧ FlagOk w ∧ w ≠ ['-', 'o']
  | w :: o :: ws => WordOk w ∧ FlagOk w ∧ (if w = ['-', 'o'] then WordOk o ∧ FlagOk o ∧ o ≠ ['-', 'o'] ∧ level o = o ∧ OutputOk o ∧ CommandOk ws else CommandOk (o :: ws))

end Smack.JsonDb.Spec
