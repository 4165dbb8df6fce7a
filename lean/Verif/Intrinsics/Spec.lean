/-
What the LLVM Language Reference says about the five intrinsics, in terms of single bits. Nothing here
refers to the model.
-/

namespace Smack.Intrinsics

/-- `y` is the bit reversal of `x`. -/
def IsBitReverse {w w' : Nat} (x : BitVec w) (y : BitVec w') : Prop :=
  w' = w ∧ ∀ i, i < w → y.getLsbD i = x.getLsbD (w - 1 - i)

/-- `y` has the bytes of `x` in opposite order: bit `r` of byte `q` of `y` is bit `r` of byte
`w/8 - 1 - q` of `x`. -/
def IsByteSwap {w w' : Nat} (x : BitVec w) (y : BitVec w') : Prop :=
  w' = w ∧ ∀ q r, q < w / 8 → r < 8 → y.getLsbD (8 * q + r) = x.getLsbD (8 * (w / 8 - 1 - q) + r)

/-- `n` is the number of leading zero bits. -/
def IsClz {w : Nat} (x : BitVec w) (n : Nat) : Prop :=
  n ≤ w ∧ (∀ i, w - n ≤ i → i < w → x.getLsbD i = false) ∧ (n < w → x.getLsbD (w - 1 - n) = true)

/-- `n` is the number of trailing zero bits. -/
def IsCtz {w : Nat} (x : BitVec w) (n : Nat) : Prop :=
  n ≤ w ∧ (∀ i, i < n → x.getLsbD i = false) ∧ (n < w → x.getLsbD n = true)

/-- The number of set bits. -/
def popcount {w : Nat} (x : BitVec w) : Nat := (List.range w).countP fun i => x.getLsbD i

end Smack.Intrinsics
