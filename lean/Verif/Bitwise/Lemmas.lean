import Verif.Bitwise.Spec

namespace Smack.Bitwise

theorem iter_succ' (f : St → St) (n : Nat) : ∀ s, iter f (n + 1) s = f (iter f n s) := by
  induction n with
  | zero => intro s; rfl
  | succ n ih => intro s; rw [iter, ih (f s)]; rfl

theorem conv_toInt (w : Nat) (v : Int) : conv w v = (BitVec.ofInt w v).toInt := by
  unfold conv; rw [BitVec.toInt_ofInt]

theorem neg_iff_msb {w : Nat} (x : BitVec w) : x.toInt < 0 ↔ x.msb = true := by
  rw [BitVec.msb_eq_toInt]; simp

theorem pow_split {w : Nat} (hw : 1 ≤ w) : (2:Int) ^ w = 2 * 2 ^ (w - 1) := by
  obtain ⟨n, rfl⟩ : ∃ n, w = n + 1 := ⟨w - 1, by omega⟩
  rw [Int.pow_succ]; simp; omega

theorem toInt_bounds {w : Nat} (_hw : 1 ≤ w) (x : BitVec w) :
    -(2:Int) ^ (w - 1) ≤ x.toInt ∧ x.toInt < (2:Int) ^ (w - 1) := by
  have h1 := BitVec.le_toInt x
  have h2 := BitVec.toInt_lt (x := x)
  exact ⟨h1, h2⟩

/-- The remainder statement only changes the most negative value, into zero. -/
theorem tmod_toInt {w : Nat} (hw : 1 ≤ w) (x : BitVec w) :
    x.toInt.tmod (2 ^ (w - 1)) = if x.toInt = -(2:Int) ^ (w - 1) then 0 else x.toInt := by
  have hb := toInt_bounds hw x
  have hp : (0:Int) < 2 ^ (w - 1) := Int.pow_pos (by decide)
  split
  · rename_i h
    rw [h, Int.neg_tmod, Int.tmod_self]; rfl
  · rename_i h
    rcases Int.le_total 0 x.toInt with h0 | h0
    · exact Int.tmod_eq_of_lt h0 hb.2
    · have : x.toInt = -(-x.toInt) := by omega
      rw [this, Int.neg_tmod, Int.tmod_eq_of_lt (by omega) (by omega)]

theorem ofInt_toInt_add {w : Nat} (x y : BitVec w) : BitVec.ofInt w (x.toInt + y.toInt) = x + y := by
  rw [BitVec.ofInt_add, BitVec.ofInt_toInt, BitVec.ofInt_toInt]

theorem double_min {w : Nat} (hw : 1 ≤ w) (x : BitVec w) (h : x.toInt = -(2:Int) ^ (w - 1)) : x + x = 0#w := by
  rw [← ofInt_toInt_add, h]
  have : -(2:Int) ^ (w - 1) + -(2:Int) ^ (w - 1) = -(2 ^ w) := by rw [pow_split hw]; omega
  rw [this]
  apply BitVec.eq_of_toInt_eq
  rw [BitVec.toInt_ofInt, BitVec.toInt_zero]
  have c2 : (2 ^ w : Int) = ((2 ^ w : Nat) : Int) := by simp
  rw [c2, Int.bmod_def, Int.neg_emod_self]
  have : 0 < 2 ^ w := Nat.two_pow_pos w
  simp
  omega

theorem double_mod {w : Nat} (hw : 1 ≤ w) (x : BitVec w) :
    conv w (conv w (x.toInt.tmod (2 ^ (w - 1))) + conv w (x.toInt.tmod (2 ^ (w - 1)))) = (x + x).toInt := by
  rw [tmod_toInt hw]
  split
  · rename_i h
    rw [double_min hw x h]
    simp [conv]
  · rw [conv_toInt w x.toInt, BitVec.ofInt_toInt, conv_toInt, ofInt_toInt_add]

theorem andIter_bv {w : Nat} (hw : 1 ≤ w) (x y c : BitVec w) :
    andIter (conv w) (2 ^ (w - 1)) ⟨x.toInt, y.toInt, c.toInt⟩ =
      ⟨(x + x).toInt, (y + y).toInt, (c + c + (BitVec.ofBool (x.msb && y.msb)).setWidth w).toInt⟩ := by
  have hy : ¬ y.toInt > 2 ^ (w - 1) - 1 := by have := (toInt_bounds hw y).2; omega
  simp only [andIter, double_mod hw, hy, or_false]
  have hone : conv w (conv w (c.toInt + c.toInt) + 1) = (c + c + 1#w).toInt := by
    rw [conv_toInt w (c.toInt + c.toInt), ofInt_toInt_add, conv_toInt, BitVec.ofInt_add, BitVec.ofInt_toInt]
    rfl
  have hzero : conv w (c.toInt + c.toInt) = (c + c).toInt := by rw [conv_toInt, ofInt_toInt_add]
  rw [hone, hzero]
  congr 1
  cases hx : x.msb <;> cases hy : y.msb
  · rw [if_neg (by rw [neg_iff_msb, hx]; simp)]; simp
  · rw [if_neg (by rw [neg_iff_msb, hx]; simp)]; simp
  · rw [if_pos (by rw [neg_iff_msb, hx]), if_neg (by rw [neg_iff_msb, hy]; simp)]; simp
  · rw [if_pos (by rw [neg_iff_msb, hx]), if_pos (by rw [neg_iff_msb, hy])]
    congr 2
    apply BitVec.eq_of_toNat_eq
    simp

/-- The result variable after `k` groups. -/
def accAt {w : Nat} (z : BitVec w) (k : Nat) : BitVec w := if k ≤ w then z >>> (w - k) else z <<< (k - w)

theorem double_shl {w : Nat} (x : BitVec w) (k : Nat) : (x <<< k) + (x <<< k) = x <<< (k + 1) := by
  have h : ∀ y : BitVec w, y + y = y <<< 1 := by
    intro y
    apply BitVec.eq_of_toNat_eq
    rw [BitVec.toNat_shiftLeft, BitVec.toNat_add, Nat.shiftLeft_eq]
    congr 1; omega
  rw [h, ← BitVec.shiftLeft_add]

theorem msb_shl {w : Nat} (hw : 1 ≤ w) (x : BitVec w) (k : Nat) :
    (x <<< k).msb = (decide (k < w) && x.getLsbD (w - 1 - k)) := by
  rw [BitVec.msb_eq_getLsbD_last, BitVec.getLsbD_shiftLeft]
  by_cases hk : k < w
  · have h1 : ¬ (w - 1 < k) := by omega
    have h2 : w - 1 < w := by omega
    simp [h1, h2, hk]
  · have h1 : (w - 1 < k) := by omega
    simp [h1, hk]

theorem bit_toNat {w : Nat} (z : BitVec w) (i : Nat) : (z.getLsbD i).toNat = z.toNat / 2 ^ i % 2 := by
  rw [BitVec.getLsbD, Nat.testBit]
  simp only [Nat.shiftRight_eq_div_pow, Nat.one_and_eq_mod_two]
  rcases Nat.mod_two_eq_zero_or_one (z.toNat / 2 ^ i) with h | h <;> simp [h]

theorem accAt_step {w : Nat} (hw : 1 ≤ w) (z : BitVec w) (k : Nat) :
    accAt z (k + 1) = accAt z k + accAt z k +
      (BitVec.ofBool (decide (k < w) && z.getLsbD (w - 1 - k))).setWidth w := by
  by_cases hk : k < w
  · have h1 : k + 1 ≤ w := by omega
    have h2 : k ≤ w := by omega
    simp only [accAt, if_pos h1, if_pos h2, hk, decide_true, Bool.true_and]
    apply BitVec.eq_of_toNat_eq
    have hb := bit_toNat z (w - 1 - k)
    have e : w - (k + 1) = w - 1 - k := by omega
    have e2 : w - k = (w - 1 - k) + 1 := by omega
    have hd : z.toNat / 2 ^ (w - 1 - k) < 2 ^ w := Nat.lt_of_le_of_lt (Nat.div_le_self _ _) z.isLt
    have hbool : (BitVec.setWidth w (BitVec.ofBool (z.getLsbD (w - 1 - k)))).toNat = (z.getLsbD (w - 1 - k)).toNat := by
      rw [BitVec.toNat_setWidth, BitVec.toNat_ofBool]
      apply Nat.mod_eq_of_lt
      have : 2 ^ 1 ≤ 2 ^ w := Nat.pow_le_pow_right (by decide) hw
      cases z.getLsbD (w - 1 - k) <;> simp <;> omega
    rw [BitVec.toNat_add, BitVec.toNat_add, hbool, hb]
    simp only [BitVec.toNat_ushiftRight, Nat.shiftRight_eq_div_pow]
    rw [e, e2, Nat.pow_succ, ← Nat.div_div_eq_div_mul]
    generalize z.toNat / 2 ^ (w - 1 - k) = D at *
    rw [Nat.mod_add_mod, Nat.mod_eq_of_lt (by omega)]
    omega
  · have h1 : ¬ k + 1 ≤ w := by omega
    simp only [accAt, if_neg h1, hk, decide_false, Bool.false_and]
    have hz : BitVec.setWidth w (BitVec.ofBool false) = 0#w := by
      apply BitVec.eq_of_toNat_eq; simp
    rw [hz, BitVec.add_zero]
    by_cases h2 : k ≤ w
    · have : k = w := by omega
      subst this
      rw [if_pos h2, Nat.sub_self]
      have := double_shl z 0
      simp at this ⊢
      exact this.symm
    · rw [if_neg h2, double_shl]
      congr 1; omega

theorem and_iter {w : Nat} (hw : 1 ≤ w) (x y : BitVec w) (k : Nat) :
    iter (andIter (conv w) (2 ^ (w - 1))) k ⟨x.toInt, y.toInt, 0⟩ =
      ⟨(x <<< k).toInt, (y <<< k).toInt, (accAt (x &&& y) k).toInt⟩ := by
  induction k with
  | zero =>
    have : accAt (x &&& y) 0 = 0#w := by
      simp only [accAt, Nat.zero_le, if_true, Nat.sub_zero]
      apply BitVec.eq_of_toNat_eq
      rw [BitVec.toNat_ushiftRight, Nat.shiftRight_eq_div_pow, Nat.div_eq_of_lt (BitVec.isLt _)]
      simp
    rw [this]; simp [iter]
  | succ k ih =>
    rw [iter_succ', ih, andIter_bv hw, double_shl, double_shl, msb_shl hw, msb_shl hw, accAt_step hw]
    have : (decide (k < w) && x.getLsbD (w - 1 - k) && (decide (k < w) && y.getLsbD (w - 1 - k))) =
        (decide (k < w) && (x &&& y).getLsbD (w - 1 - k)) := by
      rw [BitVec.getLsbD_and]
      cases decide (k < w) <;> simp
    rw [this]

/-- The remainder after doubling in the `or` loop. -/
def dropMin {w : Nat} (x : BitVec w) : BitVec w := if x.toInt = -(2:Int) ^ (w - 1) then 0#w else x

theorem orIter_bv {w : Nat} (hw : 1 ≤ w) (x y c : BitVec w) :
    orIter (conv w) (2 ^ (w - 1)) ⟨x.toInt, y.toInt, c.toInt⟩ =
      ⟨(dropMin (x + x)).toInt, (dropMin (y + y)).toInt, (c + c + (BitVec.ofBool (x.msb || y.msb)).setWidth w).toInt⟩ := by
  have hd : ∀ z : BitVec w, conv w ((conv w (z.toInt + z.toInt)).tmod (2 ^ (w - 1))) = (dropMin (z + z)).toInt := by
    intro z
    rw [conv_toInt w (z.toInt + z.toInt), ofInt_toInt_add, tmod_toInt hw]
    unfold dropMin
    split
    · simp [conv]
    · rw [conv_toInt, BitVec.ofInt_toInt]
  have hone : conv w (conv w (c.toInt + c.toInt) + 1) = (c + c + 1#w).toInt := by
    rw [conv_toInt w (c.toInt + c.toInt), ofInt_toInt_add, conv_toInt, BitVec.ofInt_add, BitVec.ofInt_toInt]
    rfl
  have hzero : conv w (c.toInt + c.toInt) = (c + c).toInt := by rw [conv_toInt, ofInt_toInt_add]
  have h1 : (1#1).setWidth w = 1#w := by apply BitVec.eq_of_toNat_eq; simp
  simp only [orIter, hd]
  rw [hone, hzero]
  congr 1
  cases hx : x.msb <;> cases hy : y.msb
  · rw [if_neg (by rw [neg_iff_msb, hx]; simp), if_neg (by rw [neg_iff_msb, hy]; simp)]; simp
  · rw [if_neg (by rw [neg_iff_msb, hx]; simp), if_pos (by rw [neg_iff_msb, hy])]; simp [h1]
  · rw [if_pos (by rw [neg_iff_msb, hx])]; simp [h1]
  · rw [if_pos (by rw [neg_iff_msb, hx])]; simp [h1]

/-- The operand after `k` groups of the `or` loop. -/
def orArg {w : Nat} (x : BitVec w) (k : Nat) : BitVec w := if k = 0 then x else dropMin (x <<< k)

theorem zero_ne_min {w : Nat} : (0#w).toInt ≠ -(2:Int) ^ (w - 1) := by
  have hp : (0:Int) < 2 ^ (w - 1) := Int.pow_pos (by decide)
  simp; omega

theorem orArg_step {w : Nat} (hw : 1 ≤ w) (x : BitVec w) (k : Nat) :
    dropMin (orArg x k + orArg x k) = orArg x (k + 1) := by
  have h0 : dropMin (0#w) = 0#w := by unfold dropMin; rw [if_neg zero_ne_min]
  unfold orArg
  rw [if_neg (Nat.succ_ne_zero k)]
  by_cases hk : k = 0
  · subst hk
    rw [if_pos rfl]
    have := double_shl x 0
    simp at this ⊢; rw [this]
  · rw [if_neg hk]
    by_cases hm : (x <<< k).toInt = -(2:Int) ^ (w - 1)
    · rw [show dropMin (x <<< k) = 0#w by unfold dropMin; rw [if_pos hm], ← double_shl, double_min hw _ hm]
      simp [h0]
    · rw [show dropMin (x <<< k) = x <<< k by unfold dropMin; rw [if_neg hm], double_shl]

/-- The most negative word, by bits. -/
theorem eq_min_iff {w : Nat} (hw : 1 ≤ w) (x : BitVec w) :
    x.toInt = -(2:Int) ^ (w - 1) ↔ x.msb = true ∧ ∀ j, j < w - 1 → x.getLsbD j = false := by
  have hmin : (BitVec.intMin w).toInt = -(2:Int) ^ (w - 1) := by
    rw [BitVec.toInt_intMin_eq_bmod, Int.bmod_def]
    have hp := pow_split hw
    have hpos : (0:Int) < 2 ^ (w - 1) := Int.pow_pos (by decide)
    have c1 : ((2 ^ (w-1) : Nat) : Int) = 2 ^ (w-1) := by simp
    have c2 : ((2 ^ w : Nat) : Int) = 2 ^ w := by simp
    rw [c2]
    have : (-2 ^ (w-1) : Int) % 2 ^ w = 2 ^ (w-1) := by
      rw [hp, ← Int.add_emod_right]
      rw [Int.emod_eq_of_lt] <;> omega
    rw [this, if_neg (by omega)]; omega
  constructor
  · intro h
    have : x = BitVec.intMin w := BitVec.eq_of_toInt_eq (by rw [h, hmin])
    subst this
    constructor
    · rw [BitVec.msb_eq_getLsbD_last, BitVec.getLsbD_intMin]; simp; omega
    · intro j hj
      simp [BitVec.getLsbD_intMin]; omega
  · rintro ⟨h1, h2⟩
    have : x = BitVec.intMin w := by
      apply BitVec.eq_of_getLsbD_eq
      intro i hi
      rw [BitVec.getLsbD_intMin]
      by_cases hl : i = w - 1
      · subst hl
        rw [← BitVec.msb_eq_getLsbD_last, h1]; simp; omega
      · rw [h2 i (by omega)]; simp; omega
    rw [this, hmin]

/-- The bit of `x` that group `k` of the `or` loop sees. -/
theorem orArg_msb {w : Nat} (hw : 1 ≤ w) (x : BitVec w) (k : Nat) (hk : k < w) :
    (orArg x k).msb = true ↔ survives x (w - 1 - k) := by
  unfold orArg survives
  by_cases h0 : k = 0
  · subst h0
    simp [BitVec.msb_eq_getLsbD_last]
  · rw [if_neg h0]
    have hs := msb_shl hw x k
    simp only [hk, decide_true, Bool.true_and] at hs
    unfold dropMin
    by_cases hm : (x <<< k).toInt = -(2:Int) ^ (w - 1)
    · rw [if_pos hm]
      rw [eq_min_iff hw] at hm
      simp
      intro hb
      refine ⟨by omega, ?_⟩
      intro j hj
      have := hm.2 (j + k) (by omega)
      rw [BitVec.getLsbD_shiftLeft] at this
      have a1 : j + k < w := by omega
      have a2 : ¬ (j + k < k) := by omega
      simpa [a1, a2] using this
    · rw [if_neg hm, hs]
      constructor
      · intro hb
        refine ⟨hb, Or.inr ?_⟩
        apply Classical.byContradiction
        intro hn
        apply hm
        rw [eq_min_iff hw]
        refine ⟨by rw [hs, hb], ?_⟩
        intro j hj
        rw [BitVec.getLsbD_shiftLeft]
        by_cases hjk : j < k
        · simp [hjk]
        · cases hx : x.getLsbD (j - k)
          · simp
          · exact absurd ⟨j - k, by omega, hx⟩ hn
      · exact fun h => h.1

/-- The word with exactly the surviving bits of `x` or `y`. -/
theorem or_iter {w : Nat} (hw : 1 ≤ w) (x y z : BitVec w)
    (hz : ∀ i, i < w → (z.getLsbD i = true ↔ survives x i ∨ survives y i)) (k : Nat) (hkw : k ≤ w) :
    iter (orIter (conv w) (2 ^ (w - 1))) k ⟨x.toInt, y.toInt, 0⟩ =
      ⟨(orArg x k).toInt, (orArg y k).toInt, (accAt z k).toInt⟩ := by
  induction k with
  | zero =>
    have : accAt z 0 = 0#w := by
      simp only [accAt, Nat.zero_le, if_true, Nat.sub_zero]
      apply BitVec.eq_of_toNat_eq
      rw [BitVec.toNat_ushiftRight, Nat.shiftRight_eq_div_pow, Nat.div_eq_of_lt (BitVec.isLt _)]
      simp
    rw [this]; simp [iter, orArg]
  | succ k ih =>
    have hk : k < w := by omega
    rw [iter_succ', ih (by omega), orIter_bv hw, orArg_step hw, orArg_step hw, accAt_step hw]
    have hb : ((orArg x k).msb || (orArg y k).msb) = (decide (k < w) && z.getLsbD (w - 1 - k)) := by
      rw [Bool.eq_iff_iff, Bool.or_eq_true, orArg_msb hw x k hk, orArg_msb hw y k hk]
      simp only [hk, decide_true, Bool.true_and]
      exact (hz _ (by omega)).symm
    rw [hb]

theorem exists_bits {w : Nat} (p : Nat → Prop) : ∃ z : BitVec w, ∀ i, i < w → (z.getLsbD i = true ↔ p i) := by
  classical
  induction w with
  | zero => exact ⟨0#0, fun i hi => absurd hi (Nat.not_lt_zero i)⟩
  | succ w ih =>
    obtain ⟨z, hz⟩ := ih
    refine ⟨BitVec.cons (decide (p w)) z, ?_⟩
    intro i hi
    rw [BitVec.getLsbD_cons]
    by_cases h : i = w
    · subst h; simp
    · rw [if_neg h]; exact hz i (by omega)

end Smack.Bitwise
