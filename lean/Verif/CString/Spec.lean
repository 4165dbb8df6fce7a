import Verif.CString.Model

/-
Specification of the string functions: what the C standard (C11 7.24) prescribes, in terms of the lists of bytes that
are stored in memory.
-/

namespace Smack.CString

/-- The bytes `l` are stored at `p`. -/
def Bytes (m : Mem) (p : Nat) (l : List Byte) : Prop := ∀ i b, l[i]? = some b → m (p + i) = some b

/-- The string with the bytes `l` is stored at `p`. -/
structure Str (m : Mem) (p : Nat) (l : List Byte) : Prop where
  bytes : Bytes m p (l ++ [0])
  nonzero : (0 : Byte) ∉ l

/-- The `n` addresses from `p` may be accessed. -/
def Room (m : Mem) (p n : Nat) : Prop := ∀ i, i < n → (m (p + i)).isSome

/-- The objects `[p, p+n)` and `[q, q+k)` do not overlap. -/
def Apart (p n q k : Nat) : Prop := p + n ≤ q ∨ q + k ≤ p

/-- Only `[p, p+n)` has changed. -/
def Frame (m m' : Mem) (p n : Nat) : Prop := ∀ a, a < p ∨ p + n ≤ a → m' a = m a

/-- At the first position where they differ, `x` has the smaller byte, compared as unsigned char (7.24.4). -/
def Lt (x y : List Byte) : Prop :=
  ∃ k a b, x.take k = y.take k ∧ x[k]? = some a ∧ y[k]? = some b ∧ a.toNat < b.toNat

/-- The same with the bytes compared as signed char. -/
def SLt (x y : List Byte) : Prop :=
  ∃ k a b, x.take k = y.take k ∧ x[k]? = some a ∧ y[k]? = some b ∧ a.toInt < b.toInt

/-- `c` converted to char. -/
def toChar (c : Int) : Byte := BitVec.ofInt 8 c

/-- `i` is the first position of `c`. -/
def FirstAt (x : List Byte) (c : Byte) (i : Nat) : Prop := x[i]? = some c ∧ c ∉ x.take i

/-- `i` is the last position of `c`. -/
def LastAt (x : List Byte) (c : Byte) (i : Nat) : Prop := x[i]? = some c ∧ c ∉ x.drop (i + 1)

/-- `i` is the first position of a byte of `y` in `x`. -/
def FirstOf (x y : List Byte) (i : Nat) : Prop :=
  (∃ b, x[i]? = some b ∧ b ∈ y) ∧ ∀ b, b ∈ x.take i → b ∉ y

/-- `n` is the length of the longest prefix of `x` whose bytes satisfy `P`. -/
def SpanLen (x : List Byte) (P : Byte → Prop) (n : Nat) : Prop :=
  n ≤ x.length ∧ (∀ b, b ∈ x.take n → P b) ∧ ∀ b, x[n]? = some b → ¬P b

/-- `y` occurs in `x` at `i`, and not before. -/
def FirstOcc (x y : List Byte) (i : Nat) : Prop :=
  i ≤ x.length ∧ y <+: x.drop i ∧ ∀ j, j < i → ¬y <+: x.drop j

end Smack.CString
