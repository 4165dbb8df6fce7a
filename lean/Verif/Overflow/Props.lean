/-
C15.
-/
import Verif.Overflow.Lemmas
import Verif.IntOps.Props

namespace Smack.Overflow

open Smack.IntOps

/-- C15: for every operation, signedness, width and pair of operands, the computed flag is set exactly when the mathematical
result is not representable. -/
theorem c15_flag {w : Nat} (hw : 1 ≤ w) (op : Op) (isSigned : Bool) (x y : BitVec w) (m : Nat → (w : Nat) → BitVec w)
    (hx : m 0 w = x) (hy : m 1 w = y) :
    (flag op w isSigned).evalBv m = some 1#1 ↔
      ¬ Fits w isSigned (op.apply (number isSigned x) (number isSigned y)) := by
  subst hx hy
  rw [flag_eval hw]
  by_cases h : Fits w isSigned (op.apply (number isSigned (m 0 w)) (number isSigned (m 1 w)))
  · simp only [h, decide_true, Bool.not_true, not_true, iff_false]
    decide
  · simp only [h, decide_false, Bool.not_false, not_false_iff, iff_true]
    decide

/-- C15: the flag always has a value. -/
theorem c15_flag_defined {w : Nat} (hw : 1 ≤ w) (op : Op) (isSigned : Bool) (m : Nat → (w : Nat) → BitVec w) :
    (flag op w isSigned).evalBv m = some 0#1 ∨ (flag op w isSigned).evalBv m = some 1#1 := by
  rw [flag_eval hw]
  cases decide (Fits w isSigned (op.apply (number isSigned (m 0 w)) (number isSigned (m 1 w))))
  · right; rfl
  · left; rfl

/-- C15: the value is the mathematical result reduced modulo `2^w`. -/
theorem c15_value {w : Nat} (op : Op) (isSigned : Bool) (x y : BitVec w) (m : Nat → (w : Nat) → BitVec w)
    (hx : m 0 w = x) (hy : m 1 w = y) :
    (result op w isSigned).evalBv m = some (BitVec.ofInt w (op.apply (number isSigned x) (number isSigned y))) := by
  subst hx hy
  simp only [result, Expr.evalBv, wide_eval]
  show some _ = some _
  congr 1
  exact (trunc_ofInt (w := w * 2) (w' := w) (by omega) _).symm

/-- C15: the value agrees with the plain machine operation. -/
theorem c15_value_machine {w : Nat} (op : Op) (isSigned : Bool) (x y : BitVec w) (m : Nat → (w : Nat) → BitVec w)
    (hx : m 0 w = x) (hy : m 1 w = y) :
    (result op w isSigned).evalBv m = some (match op with | .add => x + y | .sub => x - y | .mul => x * y) := by
  rw [c15_value op isSigned x y m hx hy]
  have hn : ∀ z : BitVec w, BitVec.ofInt w (number isSigned z) = z := by
    intro z; cases isSigned <;> simp [number, BitVec.ofInt_natCast]
  congr 1
  cases op
  · simp only [Op.apply, BitVec.ofInt_add, hn]
  · simp only [Op.apply, ofInt_sub', hn]
  · simp only [Op.apply, BitVec.ofInt_mul, hn]

example : (flag .mul 8 true).evalBv (fun n w => BitVec.ofInt w (if n = 0 then -16 else 8)) = some 0#1 ∧
    (flag .mul 8 true).evalBv (fun n w => BitVec.ofInt w (if n = 0 then -16 else -8)) = some 1#1 ∧
    (flag .sub 8 false).evalBv (fun n w => BitVec.ofInt w (if n = 0 then 3 else 4)) = some 1#1 := by decide

/-- The literals of the instrumentation are always printed. -/
theorem lits_total {w : Nat} (isSigned : Bool) (c : BitVec w) : ∃ i, litInt (!isSigned) true c = some i := by
  have h : ∃ n, litNeg (!isSigned) true c = some n := by
    unfold litNeg
    cases isSigned <;> split <;> simp
  obtain ⟨n, hn⟩ := h
  exact ⟨_, by unfold litInt; rw [hn]; rfl⟩

theorem wide_total (S : Smt) (enc : Enc) (ρ : Nat → Int) (op : Op) (w : Nat) (isSigned : Bool) :
    ∃ i, (wide op w isSigned).evalInt S enc ρ = some i := by
  have he : ∀ n, ∃ i, (extend w isSigned n).evalInt S enc ρ = some i := by
    intro n; cases isSigned
    · exact ⟨_, rfl⟩
    · exact ⟨_, rfl⟩
  obtain ⟨a, ha⟩ := he 0
  obtain ⟨b, hb⟩ := he 1
  cases op <;> simp [wide, Expr.evalInt, ha, hb]

/-- C15 in the wrapped integer encoding: whatever representatives the operands have, the generated assertion
`flag == 0` holds exactly when the mathematical result is representable. -/
theorem c15_check_encoded (S : Smt) (ρ : Nat → Int) {w : Nat} (hw : 1 ≤ w) (op : Op) (isSigned : Bool) :
    ∃ i, (flag op w isSigned).evalInt S .wrapped ρ = some i ∧
      (i = if Fits w isSigned (op.apply (number isSigned (BitVec.ofInt w (ρ 0))) (number isSigned (BitVec.ofInt w (ρ 1))))
           then 0 else 1) := by
  obtain ⟨a, ha⟩ := wide_total S .wrapped ρ op w isSigned
  obtain ⟨mx, hmx⟩ := lits_total isSigned (BitVec.ofInt (w * 2) (getMax w isSigned))
  obtain ⟨mn, hmn⟩ := lits_total isSigned (BitVec.ofInt (w * 2) (getMin w isSigned))
  have hex : ∀ p q : Int, ∃ i, S.logic1 .or p q = i := fun p q => ⟨_, rfl⟩
  have hev : (flag op w isSigned).evalInt S .wrapped ρ =
      some (S.logic1 .or (pred S .wrapped (if isSigned then .sgt else .ugt) (w * 2) a mx)
        (pred S .wrapped (if isSigned then .slt else .ult) (w * 2) a mn)) := by
    simp [flag, Expr.evalInt, ha, hmx, hmn]
  refine ⟨_, hev, ?_⟩
  have hty : (flag op w isSigned).WellTyped := by
    have he : ∀ n, (extend w isSigned n).WellTyped := by
      intro n; cases isSigned <;> simp [extend, Expr.WellTyped] <;> omega
    have : (wide op w isSigned).WellTyped := by cases op <;> simp [wide, Expr.WellTyped, he]
    simp only [flag, Expr.WellTyped, this, true_and]
    omega
  have hne : ∀ n, (extend w isSigned n).NormalCond ρ := by
    intro n; cases isSigned <;> simp [extend, Expr.NormalCond]
  have hnw : (wide op w isSigned).NormalCond ρ := by cases op <;> simp [wide, Expr.NormalCond, hne]
  have hnc : (flag op w isSigned).NormalCond ρ := by simp [flag, Expr.NormalCond, hnw, Expr.Truth]
  have hse : ∀ n, (extend w isSigned n).NoSdiv := by
    intro n; cases isSigned <;> simp [extend, Expr.NoSdiv]
  have hsw : (wide op w isSigned).NoSdiv := by cases op <;> simp [wide, Expr.NoSdiv, hse]
  have hns : (flag op w isSigned).NoSdiv := by simp [flag, Expr.NoSdiv, hsw]
  have h := c01_wrapped_congruent S ρ (flag op w isSigned) _ _ hty hnc hns (flag_eval hw _ op isSigned) hev
  have hp : ∀ p q : Bool, ∃ r : Bool, S.logic1 .or (if p then 1 else 0) (if q then 1 else 0) = (if r then 1 else 0) := by
    intro p q
    have := S.logic1_ax .or p q
    refine ⟨p || q, ?_⟩
    cases p <;> cases q <;> exact this
  obtain ⟨r, hr⟩ := hp (predBool S .wrapped (if isSigned then .sgt else .ugt) (w * 2) a mx)
    (predBool S .wrapped (if isSigned then .slt else .ult) (w * 2) a mn)
  have hr' : S.logic1 .or (pred S .wrapped (if isSigned then .sgt else .ugt) (w * 2) a mx)
      (pred S .wrapped (if isSigned then .slt else .ult) (w * 2) a mn) = (if r then 1 else 0) := hr
  rw [hr'] at h ⊢
  rw [ofBool_ofInt] at h
  have hinj : ∀ a b : Bool, BitVec.ofBool a = BitVec.ofBool b → a = b := by decide
  rw [hinj _ _ h]
  split <;> rename_i h1 <;> split <;> rename_i h2 <;> simp_all

/-- C15 in the unbounded integer encoding: when the operands hold their natural values, the flag is 1 exactly when the result
is not representable, and otherwise the value is the mathematical result. -/
theorem c15_check_unbounded (S : Smt) (ρ : Nat → Int) {w : Nat} (hw : 1 ≤ w) (op : Op) (isSigned : Bool) :
    ∃ i, (flag op w isSigned).evalInt S .unbounded ρ = some i ∧
      (i = if Fits w isSigned (op.apply (ρ 0) (ρ 1)) then 0 else 1) ∧
      (result op w isSigned).evalInt S .unbounded ρ = some (op.apply (ρ 0) (ρ 1)) := by
  have hwide : (wide op w isSigned).evalInt S .unbounded ρ = some (op.apply (ρ 0) (ρ 1)) := by
    cases op <;> cases isSigned <;> rfl
  have hw2 : 2 ≤ w * 2 := by omega
  obtain ⟨b1, b2, b3, b4⟩ := bound_values hw
  have hun : ∀ c : BitVec (w * 2), litInt (!false) true c = some (c.toNat : Int) := by
    intro c; unfold litInt litNeg; rw [if_pos (by omega)]; simp
  have hmx : litInt (!isSigned) true (BitVec.ofInt (w * 2) (getMax w isSigned)) = some (getMax w isSigned) := by
    cases isSigned
    · rw [hun, b3]; simp [getMax]
    · rw [Bool.not_true, c06_lit_signed_exact hw2, b1]; simp [getMax]
  have hmn : litInt (!isSigned) true (BitVec.ofInt (w * 2) (getMin w isSigned)) = some (getMin w isSigned) := by
    cases isSigned
    · rw [hun, b4]; simp [getMin]
    · rw [Bool.not_true, c06_lit_signed_exact hw2, b2]; simp [getMin]
  have hev : (flag op w isSigned).evalInt S .unbounded ρ =
      some (S.logic1 .or (pred S .unbounded (if isSigned then .sgt else .ugt) (w * 2) (op.apply (ρ 0) (ρ 1)) (getMax w isSigned))
        (pred S .unbounded (if isSigned then .slt else .ult) (w * 2) (op.apply (ρ 0) (ρ 1)) (getMin w isSigned))) := by
    simp [flag, Expr.evalInt, hwide, hmx, hmn]
  refine ⟨_, hev, ?_, ?_⟩
  · generalize op.apply (ρ 0) (ρ 1) = v
    have htoInt : ∀ b : Bool, b.toInt = if b then 1 else 0 := by decide
    have h1 : pred S .unbounded (if isSigned then .sgt else .ugt) (w * 2) v (getMax w isSigned) =
        (decide (v > getMax w isSigned)).toInt := by
      have : predBool S .unbounded (if isSigned then .sgt else .ugt) (w * 2) v (getMax w isSigned) =
          decide (v > getMax w isSigned) := by cases isSigned <;> rfl
      unfold pred; rw [this]; exact (htoInt _).symm
    have h2 : pred S .unbounded (if isSigned then .slt else .ult) (w * 2) v (getMin w isSigned) =
        (decide (v < getMin w isSigned)).toInt := by
      have : predBool S .unbounded (if isSigned then .slt else .ult) (w * 2) v (getMin w isSigned) =
          decide (v < getMin w isSigned) := by cases isSigned <;> rfl
      unfold pred; rw [this]; exact (htoInt _).symm
    rw [h1, h2, S.logic1_ax]
    have hp := two_pow_pos (w - 1)
    have hp2 := two_pow_pos w
    simp only [Logic.onBool]
    by_cases hf : Fits w isSigned v
    · rw [if_pos hf]
      have : (decide (v > getMax w isSigned) || decide (v < getMin w isSigned)) = false := by
        rw [Bool.or_eq_false_iff]
        cases isSigned <;> simp [Fits, getMax, getMin] at hf ⊢ <;> omega
      rw [this]; rfl
    · rw [if_neg hf]
      have : (decide (v > getMax w isSigned) || decide (v < getMin w isSigned)) = true := by
        rw [Bool.or_eq_true]
        cases isSigned <;> simp [Fits, getMax, getMin] at hf ⊢ <;> omega
      rw [this]; rfl
  · simp [result, Expr.evalInt, hwide, trunc, wrapped]

/-- C15: the generated assertion holds exactly when the mathematical result is representable (both integer encodings; in
the unbounded one the variables hold the operand values themselves). -/
theorem c15_assertion (S : Smt) (ρ : Nat → Int) {w : Nat} (hw : 1 ≤ w) (op : Op) (isSigned : Bool) :
    ((check op w isSigned).evalInt S .wrapped ρ = some 1 ↔
      Fits w isSigned (op.apply (number isSigned (BitVec.ofInt w (ρ 0))) (number isSigned (BitVec.ofInt w (ρ 1))))) ∧
    ((check op w isSigned).evalInt S .unbounded ρ = some 1 ↔ Fits w isSigned (op.apply (ρ 0) (ρ 1))) := by
  have hl : litInt false false 0#32 = some 0 := by decide
  constructor
  · obtain ⟨i, hi, hv⟩ := c15_check_encoded S ρ hw op isSigned
    have hev : (check op w isSigned).evalInt S .wrapped ρ = some (pred S .wrapped .eq 32 (zext S .wrapped 1 32 i) 0) := by
      simp [check, Expr.evalInt, hi, hl]
    rw [hev, hv]
    split
    · rename_i h; simp only [h, iff_true]; rfl
    · rename_i h; simp only [h, iff_false]
      intro hc
      have : pred S .wrapped .eq 32 (zext S .wrapped 1 32 1) 0 = 0 := rfl
      rw [this] at hc; cases hc
  · obtain ⟨i, hi, hv, _⟩ := c15_check_unbounded S ρ hw op isSigned
    have hev : (check op w isSigned).evalInt S .unbounded ρ = some (pred S .unbounded .eq 32 (zext S .unbounded 1 32 i) 0) := by
      simp [check, Expr.evalInt, hi, hl]
    rw [hev, hv]
    split
    · rename_i h; simp only [h, iff_true]; rfl
    · rename_i h; simp only [h, iff_false]
      intro hc
      have : pred S .unbounded .eq 32 (zext S .unbounded 1 32 1) 0 = 0 := rfl
      rw [this] at hc; cases hc

/-- In the unbounded encoding the value after an overflow is not wrapped: `127 + 1` in 8 bits is 128 instead of -128. -/
theorem c15_unbounded_value_fails (S : Smt) :
    (result .add 8 true).evalInt S .unbounded (fun n => if n = 0 then 127 else 1) = some 128 ∧
    (result .add 8 true).evalBv (fun n w => BitVec.ofInt w (if n = 0 then 127 else 1)) = some (-128#8) := by
  exact ⟨rfl, by decide⟩

example : Fits 8 true (Op.add.apply 100 27) ∧ ¬ Fits 8 true (Op.add.apply 100 28) := by decide

end Smack.Overflow
