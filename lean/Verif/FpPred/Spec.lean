import Verif.FpPred.Model

/-
IEEE-754 comparison and the LLVM `fcmp` predicates.
-/

namespace Smack.FpPred

/-- IEEE-754 section 5.11: exactly one of four relations holds between two values. -/
inductive Rel where
  | eq | gt | lt | unordered
deriving Repr, DecidableEq

/-- An interpretation obeys IEEE-754 when there is a four-way comparison, unordered exactly when an operand is a
NaN, of which the SMT-LIB functions report the corresponding cases. -/
def Ieee {F : Type} (I : Builtins F) (rel : F → F → Rel) : Prop :=
  (∀ a b, rel a b = .unordered ↔ I.isNaN a = true ∨ I.isNaN b = true) ∧
  (∀ a b, I.eq a b = true ↔ rel a b = .eq) ∧
  (∀ a b, I.lt a b = true ↔ rel a b = .lt) ∧
  (∀ a b, I.gt a b = true ↔ rel a b = .gt) ∧
  (∀ a b, I.leq a b = true ↔ rel a b = .lt ∨ rel a b = .eq) ∧
  (∀ a b, I.geq a b = true ↔ rel a b = .gt ∨ rel a b = .eq)

/-- llvm/IR/InstrTypes.h: the value of a predicate is a set of bits, `U L G E` from high to low; `fcmp` yields the
bit of the relation that holds. -/
def Pred.code : Pred → Nat
  | .false_ => 0b0000 | .oeq => 0b0001 | .ogt => 0b0010 | .oge => 0b0011
  | .olt => 0b0100 | .ole => 0b0101 | .one => 0b0110 | .ord => 0b0111
  | .uno => 0b1000 | .ueq => 0b1001 | .ugt => 0b1010 | .uge => 0b1011
  | .ult => 0b1100 | .ule => 0b1101 | .une => 0b1110 | .true_ => 0b1111

def Rel.bit : Rel → Nat
  | .eq => 0 | .gt => 1 | .lt => 2 | .unordered => 3

/-- LLVM `fcmp`. -/
def fcmp (p : Pred) (r : Rel) : Bool := p.code.testBit r.bit

/-- The IEEE-754 comparison of two values given by their encodings with `e` exponent and `m` fraction bits
(sign, exponent, fraction from high to low). Apart from NaNs, encodings read as sign and magnitude are ordered like the
values, and the two zeros are equal. -/
def isNaNBits (e m : Nat) (x : BitVec (1 + e + m)) : Bool :=
  decide (x.toNat / 2 ^ m % 2 ^ e = 2 ^ e - 1) && decide (x.toNat % 2 ^ m ≠ 0)

def orderKey (e m : Nat) (x : BitVec (1 + e + m)) : Int :=
  if x.msb then -((x.toNat % 2 ^ (e + m) : Nat) : Int) else ((x.toNat % 2 ^ (e + m) : Nat) : Int)

def relBits (e m : Nat) (x y : BitVec (1 + e + m)) : Rel :=
  if isNaNBits e m x || isNaNBits e m y then .unordered
  else if orderKey e m x < orderKey e m y then .lt
  else if orderKey e m x = orderKey e m y then .eq
  else .gt

/-- The SMT-LIB functions on encodings. -/
def bitsBuiltins (e m : Nat) : Builtins (BitVec (1 + e + m)) where
  isNaN := isNaNBits e m
  eq x y := !isNaNBits e m x && !isNaNBits e m y && orderKey e m x == orderKey e m y
  lt x y := !isNaNBits e m x && !isNaNBits e m y && decide (orderKey e m x < orderKey e m y)
  gt x y := !isNaNBits e m x && !isNaNBits e m y && decide (orderKey e m x > orderKey e m y)
  leq x y := !isNaNBits e m x && !isNaNBits e m y && decide (orderKey e m x ≤ orderKey e m y)
  geq x y := !isNaNBits e m x && !isNaNBits e m y && decide (orderKey e m x ≥ orderKey e m y)

end Smack.FpPred
