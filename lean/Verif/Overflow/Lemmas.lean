import Verif.Overflow.Spec
import Verif.IntOps.Lemmas

namespace Smack.Overflow

open Smack.IntOps

theorem number_bounds {w : Nat} (_hw : 1 ≤ w) (isSigned : Bool) (x : BitVec w) :
    if isSigned then -(2:Int) ^ (w - 1) ≤ number isSigned x ∧ number isSigned x < 2 ^ (w - 1)
    else 0 ≤ number isSigned x ∧ number isSigned x < 2 ^ w := by
  cases isSigned
  · simp only [number, Bool.false_eq_true, if_false]
    have := x.isLt
    have hc : ((2 ^ w : Nat) : Int) = 2 ^ w := by simp
    omega
  · simp only [number, if_true]
    exact ⟨BitVec.le_toInt x, BitVec.toInt_lt (x := x)⟩

theorem extend_eval {w : Nat} (m : Nat → (w : Nat) → BitVec w) (isSigned : Bool) (n : Nat) :
    (extend w isSigned n).evalBv m = some (BitVec.ofInt (w * 2) (number isSigned (m n w))) := by
  cases isSigned
  · simp only [extend, number, Bool.false_eq_true, if_false, Expr.evalBv]
    simp [BitVec.ofInt_natCast]
  · simp only [extend, number, if_true, Expr.evalBv]; rfl

theorem wide_eval {w : Nat} (m : Nat → (w : Nat) → BitVec w) (op : Op) (isSigned : Bool) :
    (wide op w isSigned).evalBv m =
      some (BitVec.ofInt (w * 2) (op.apply (number isSigned (m 0 w)) (number isSigned (m 1 w)))) := by
  cases op
  · simp only [wide, Expr.evalBv, extend_eval, Op.apply, BitVec.ofInt_add]; rfl
  · simp only [wide, Expr.evalBv, extend_eval, Op.apply, ofInt_sub']; rfl
  · simp only [wide, Expr.evalBv, extend_eval, Op.apply, BitVec.ofInt_mul]; rfl

theorem pow_double {w : Nat} : (2:Int) ^ (w * 2) = 2 ^ w * 2 ^ w := by
  rw [← Int.pow_add]; congr 1; omega

theorem mul_range {A : Int} {x y : Int} (h1 : -A ≤ x) (h2 : x ≤ A) (h3 : -A ≤ y) (h4 : y ≤ A) :
    -(A * A) ≤ x * y ∧ x * y ≤ A * A := by
  have hA : 0 ≤ A := by omega
  have hx : x.natAbs ≤ A.natAbs := by omega
  have hy : y.natAbs ≤ A.natAbs := by omega
  have hm : (x * y).natAbs ≤ (A * A).natAbs := by
    rw [Int.natAbs_mul, Int.natAbs_mul]; exact Nat.mul_le_mul hx hy
  have h0 : 0 ≤ A * A := Int.mul_nonneg hA hA
  omega

/-- The signed result fits in double width. -/
theorem signed_wide {w : Nat} (hw : 1 ≤ w) (op : Op) (x y : BitVec w) :
    -(2:Int) ^ (w * 2 - 1) ≤ op.apply x.toInt y.toInt ∧ op.apply x.toInt y.toInt < 2 ^ (w * 2 - 1) := by
  have hx := number_bounds hw true x
  have hy := number_bounds hw true y
  simp only [number, if_true] at hx hy
  have hp := two_pow_pos (w - 1)
  have e : (2:Int) ^ (w * 2 - 1) = 2 * (2 ^ (w - 1) * 2 ^ (w - 1)) := by
    rw [← Int.pow_add, Int.mul_comm, ← Int.pow_succ]; congr 1; omega
  have hsq : (2:Int) ^ (w - 1) ≤ 2 ^ (w - 1) * 2 ^ (w - 1) := by
    have : (2:Int) ^ (w - 1) * 1 ≤ 2 ^ (w - 1) * 2 ^ (w - 1) := Int.mul_le_mul_of_nonneg_left (by omega) (by omega)
    omega
  rw [e]
  cases op
  · simp only [Op.apply]; omega
  · simp only [Op.apply]; omega
  · simp only [Op.apply]
    have := mul_range (A := 2 ^ (w - 1)) (x := x.toInt) (y := y.toInt) (by omega) (by omega) (by omega) (by omega)
    omega

/-- The unsigned result in double width: either it is non-negative and fits, or it is the negative difference. -/
theorem unsigned_wide {w : Nat} (hw : 1 ≤ w) (op : Op) (x y : BitVec w) :
    -(2:Int) ^ w < op.apply x.toNat y.toNat ∧ op.apply x.toNat y.toNat < 2 ^ (w * 2) := by
  have hx := number_bounds hw false x
  have hy := number_bounds hw false y
  simp only [number, Bool.false_eq_true, if_false] at hx hy
  rw [pow_double]
  have hp := two_pow_pos w
  have h2 : (2:Int) ≤ 2 ^ w := by
    have := two_pow_split hw; have := two_pow_pos (w - 1); omega
  have hsq : (2:Int) ^ w * 2 ≤ 2 ^ w * 2 ^ w := Int.mul_le_mul_of_nonneg_left h2 (by omega)
  cases op
  · simp only [Op.apply]; omega
  · simp only [Op.apply]; omega
  · simp only [Op.apply]
    have h1 : (x.toNat : Int) * y.toNat ≤ (2 ^ w - 1) * (2 ^ w - 1) :=
      Int.mul_le_mul (by omega) (by omega) (by omega) (by omega)
    have h3 : ((2:Int) ^ w - 1) * (2 ^ w - 1) = 2 ^ w * 2 ^ w - 2 * 2 ^ w + 1 := by
      rw [Int.sub_mul, Int.mul_sub]; omega
    have h4 : (0:Int) ≤ (x.toNat : Int) * y.toNat := Int.mul_nonneg (by omega) (by omega)
    omega

theorem ofInt_unsigned {w : Nat} (hw : 1 ≤ w) {v : Int} (h1 : -(2:Int) ^ w < v) (h2 : v < 2 ^ (w * 2)) :
    ((BitVec.ofInt (w * 2) v).toNat : Int) = if 0 ≤ v then v else v + 2 ^ (w * 2) := by
  rw [← tou_eq Smt.std, tou_eq_emod]
  have hp := two_pow_pos w
  have h3 : (2:Int) ≤ 2 ^ w := by
    have := two_pow_split hw; have := two_pow_pos (w - 1); omega
  have hsq : (2:Int) ^ w * 2 ≤ 2 ^ w * 2 ^ w := Int.mul_le_mul_of_nonneg_left h3 (by omega)
  rw [pow_double] at *
  split
  · exact Int.emod_eq_of_lt (by omega) (by omega)
  · rw [← Int.add_emod_right, Int.emod_eq_of_lt (by omega) (by omega)]

theorem bound_values {w : Nat} (hw : 1 ≤ w) :
    (BitVec.ofInt (w * 2) (getMax w true)).toInt = 2 ^ (w - 1) - 1 ∧
    (BitVec.ofInt (w * 2) (getMin w true)).toInt = -(2 ^ (w - 1)) ∧
    ((BitVec.ofInt (w * 2) (getMax w false)).toNat : Int) = 2 ^ w - 1 ∧
    ((BitVec.ofInt (w * 2) (getMin w false)).toNat : Int) = 0 := by
  have hp := two_pow_pos (w - 1)
  have e : (2:Int) ^ (w * 2 - 1) = 2 * (2 ^ (w - 1) * 2 ^ (w - 1)) := by
    rw [← Int.pow_add, Int.mul_comm, ← Int.pow_succ]; congr 1; omega
  have hsq : (2:Int) ^ (w - 1) ≤ 2 ^ (w - 1) * 2 ^ (w - 1) := by
    have : (2:Int) ^ (w - 1) * 1 ≤ 2 ^ (w - 1) * 2 ^ (w - 1) := Int.mul_le_mul_of_nonneg_left (by omega) (by omega)
    omega
  have hp2 := two_pow_pos w
  have hsq2 : (2:Int) ^ w * 1 ≤ 2 ^ w * 2 ^ w := Int.mul_le_mul_of_nonneg_left (by omega) (by omega)
  refine ⟨?_, ?_, ?_, ?_⟩
  · simp only [getMax, if_true]; rw [toInt_ofInt_range] <;> omega
  · simp only [getMin, if_true]; rw [toInt_ofInt_range] <;> omega
  · simp only [getMax, Bool.false_eq_true, if_false]
    rw [toNat_ofInt_lt] <;> (try rw [pow_double]) <;> omega
  · simp only [getMin, Bool.false_eq_true, if_false]
    rw [toNat_ofInt_lt] <;> (try rw [pow_double]) <;> omega

theorem flag_eval {w : Nat} (hw : 1 ≤ w) (m : Nat → (w : Nat) → BitVec w) (op : Op) (isSigned : Bool) :
    (flag op w isSigned).evalBv m =
      some (BitVec.ofBool (!decide (Fits w isSigned (op.apply (number isSigned (m 0 w)) (number isSigned (m 1 w)))))) := by
  obtain ⟨b1, b2, b3, b4⟩ := bound_values hw
  have hor : ∀ a b : Bool, BitVec.ofBool a ||| BitVec.ofBool b = BitVec.ofBool (a || b) := by decide
  simp only [flag, Expr.evalBv, wide_eval]
  cases isSigned
  · simp only [number, Bool.false_eq_true, if_false, icmp, Fits]
    obtain ⟨u1, u2⟩ := unsigned_wide hw op (m 0 w) (m 1 w)
    have hu := ofInt_unsigned hw u1 u2
    generalize op.apply (m 0 w).toNat (m 1 w).toNat = v at *
    simp only [Option.bind_eq_bind, Option.bind_some]
    have hpd := pow_double (w := w)
    have hp := two_pow_pos w
    have h3 : (2:Int) ≤ 2 ^ w := by
      have := two_pow_split hw; have := two_pow_pos (w - 1); omega
    have hsq : (2:Int) ^ w * 2 ≤ 2 ^ w * 2 ^ w := Int.mul_le_mul_of_nonneg_left h3 (by omega)
    show some _ = some _
    congr 1
    refine (hor _ _).trans ?_
    congr 1
    rw [Bool.eq_iff_iff]
    simp only [Bool.or_eq_true, decide_eq_true_eq, Bool.not_eq_true', decide_eq_false_iff_not]
    split at hu <;> omega
  · simp only [number, if_true, icmp, Fits]
    obtain ⟨s1, s2⟩ := signed_wide hw op (m 0 w) (m 1 w)
    have hs := toInt_ofInt_range (w := w * 2) (by omega) s1 s2
    generalize op.apply (m 0 w).toInt (m 1 w).toInt = v at *
    simp only [Option.bind_eq_bind, Option.bind_some]
    show some _ = some _
    congr 1
    refine (hor _ _).trans ?_
    congr 1
    rw [Bool.eq_iff_iff]
    simp only [Bool.or_eq_true, decide_eq_true_eq, Bool.not_eq_true', decide_eq_false_iff_not]
    omega

end Smack.Overflow
