/-
Specification of C78 and C79, after C11 7.24.5.8 (strtok), 7.22.1 (numeric conversion), 7.22.4 (environment), 7.24.6.2 (strerror).
-/
import Verif.StdLib.Model
import Verif.CString.Spec

namespace Smack.StdLib.Spec

open Smack.StdLib
open CString (Mem Byte Str)

/-- Position `i` of the string holds a delimiter. -/
def Delim (D x : List Byte) (i : Nat) : Prop := ∃ b, x[i]? = some b ∧ b ∈ D

/-- The `n` bytes of `x` from position `i` are a token: a maximal piece without delimiters. -/
structure IsTok (D x : List Byte) (i n : Nat) : Prop where
  pos : 0 < n
  within : i + n ≤ x.length
  free : ∀ j, i ≤ j → j < i + n → ¬ Delim D x j
  before : ∀ j, i = j + 1 → Delim D x j
  after : i + n < x.length → Delim D x (i + n)

/-- All tokens, from left to right. -/
structure Tokens (D x : List Byte) (ts : List (Nat × Nat)) : Prop where
  mem : ∀ i n, (i, n) ∈ ts ↔ IsTok D x i n
  sorted : ts.Pairwise fun a b => a.1 < b.1

/-- A program that calls `strtok(NULL, delim)` `n` times. -/
def further (delim : Nat) : Mem → Option Nat → Nat → Option (Mem × Option Nat × List (Option Nat))
  | m, o, 0 => some (m, o, [])
  | m, o, n + 1 =>
    (strtok m o none delim).bind fun r => (further delim r.1 r.2.1 n).bind fun q => some (q.1, q.2.1, r.2.2 :: q.2.2)

/-- A program that calls `strtok(s, delim)` and then `strtok(NULL, delim)` `n` times: the memory and the results. -/
def tokenise (m : Mem) (o : Option Nat) (s delim n : Nat) : Option (Mem × Option Nat × List (Option Nat)) :=
  (strtok m o (some s) delim).bind fun r => (further delim r.1 r.2.1 n).bind fun q => some (q.1, q.2.1, r.2.2 :: q.2.2)

/-- The byte after each of the tokens `ts` is set to 0, and nothing else has changed. -/
def Cut (m m' : Mem) (s len : Nat) (ts : List (Nat × Nat)) : Prop :=
  ∀ a, ((∃ t ∈ ts, a = s + (t.1 + t.2) ∧ t.1 + t.2 < len) → m' a = some 0) ∧
    (¬ (∃ t ∈ ts, a = s + (t.1 + t.2) ∧ t.1 + t.2 < len) → m' a = m a)

end Smack.StdLib.Spec
