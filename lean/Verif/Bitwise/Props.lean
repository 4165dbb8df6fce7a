/-
C12, C13, C14.
-/
import Verif.Bitwise.Lemmas
import Verif.IntOps.Props

namespace Smack.Bitwise

open Smack.IntOps (Smt Enc)

/-! ### C12 -/

theorem two_pow_mono {m n : Nat} (h : m ≤ n) : (2:Int) ^ m ≤ 2 ^ n := by
  have : 2 ^ m ≤ 2 ^ n := Nat.pow_le_pow_right (by decide) h
  have c1 : ((2 ^ m : Nat) : Int) = 2 ^ m := by simp
  have c2 : ((2 ^ n : Nat) : Int) = 2 ^ n := by simp
  omega

theorem one_shl_toNat {w k : Nat} (hk : k < w) : (1#w <<< k).toNat = 2 ^ k := by
  have h1 : 2 ^ 1 ≤ 2 ^ w := Nat.pow_le_pow_right (by decide) (by omega)
  have h2 : 2 ^ k < 2 ^ w := Nat.pow_lt_pow_right (by decide) hk
  rw [BitVec.toNat_shiftLeft, Nat.shiftLeft_eq, BitVec.toNat_ofNat, Nat.mod_eq_of_lt (a := 1) (by omega), Nat.one_mul,
    Nat.mod_eq_of_lt h2]

theorem one_shl_toInt {w k : Nat} (hk : k < w) :
    (1#w <<< k).toInt = if k = w - 1 then -(2:Int) ^ (w - 1) else 2 ^ k := by
  rw [BitVec.toInt_eq_toNat_cond, one_shl_toNat hk]
  have hs := pow_split (w := w) (by omega)
  by_cases h : k = w - 1
  · subst h
    have : (2:Nat) * 2 ^ (w - 1) = 2 ^ w := by
      obtain ⟨n, rfl⟩ : ∃ n, w = n + 1 := ⟨w - 1, by omega⟩
      rw [Nat.pow_succ]; simp; omega
    rw [if_neg (by omega), if_pos rfl]
    have c1 : ((2 ^ (w-1) : Nat) : Int) = 2 ^ (w-1) := by simp
    have c2 : ((2 ^ w : Nat) : Int) = 2 ^ w := by simp
    rw [c1, c2]; omega
  · have : (2:Nat) * 2 ^ k < 2 ^ w := by
      have : (2:Nat) * 2 ^ k = 2 ^ (k + 1) := by rw [Nat.pow_succ]; omega
      rw [this]
      exact Nat.pow_lt_pow_right (by decide) (by omega)
    rw [if_pos this, if_neg h]
    simp

/-- C12 (left shifts): the multiplication that replaces `shl` has the same value for every width, amount and operand for
which the shift has a value. -/
theorem c12_shl_preserved {w : Nat} (x amount v : BitVec w) (h : Shift.shl.eval x amount = some v) :
    (rewriteShift .shl amount).eval x = some v := by
  unfold Shift.eval at h
  split at h
  · rename_i ha
    simp only [rewriteShift, Rewritten.eval, one_shl_toNat ha]
    exact h
  · cases h

/-- C12 (arithmetic right shifts, partial): the division that replaces `ashr` has the same value exactly when the operand
is non-negative, or the amount is smaller than `width - 1` and no set bit is shifted out. The claim is false in all other
cases, because LLVM's division rounds towards zero. -/
theorem c12_ashr_iff_partial {w : Nat} (hw : 2 ≤ w) (x amount : BitVec w) (ha : amount.toNat < w) :
    (rewriteShift .ashr amount).eval x = Shift.ashr.eval x amount ↔
      (0 ≤ x.toInt ∨ (amount.toNat < w - 1 ∧ (2:Int) ^ amount.toNat ∣ x.toInt)) := by
  have hb := toInt_bounds (w := w) (by omega) x
  have hwp : (0:Int) < 2 ^ (w - 1) := Int.pow_pos (by decide)
  have hw1 : (2:Int) ≤ 2 ^ (w - 1) := by
    have : (2:Int) ^ 1 ≤ 2 ^ (w - 1) := two_pow_mono (by omega)
    simpa using this
  have hs := pow_split (w := w) (by omega)
  have inj : ∀ a b : Int, -(2:Int) ^ (w - 1) ≤ a → a < 2 ^ (w - 1) → -(2:Int) ^ (w - 1) ≤ b → b < 2 ^ (w - 1) →
      (BitVec.ofInt w a = BitVec.ofInt w b ↔ a = b) := by
    intro a b ha1 ha2 hb1 hb2
    constructor
    · intro h
      have := congrArg BitVec.toInt h
      rw [IntOps.toInt_ofInt_range (by omega) ha1 ha2, IntOps.toInt_ofInt_range (by omega) hb1 hb2] at this
      exact this
    · rintro rfl; rfl
  simp only [rewriteShift, Rewritten.eval, Shift.eval, if_pos ha, one_shl_toInt ha]
  by_cases hk : amount.toNat = w - 1
  · rw [if_pos hk, if_neg (by omega)]
    rw [hk, Option.some.injEq]
    have hlt : ¬ (w - 1 < w - 1) := Nat.lt_irrefl _
    simp only [hlt, false_and, or_false]
    by_cases h0 : 0 ≤ x.toInt
    · simp only [h0, iff_true]
      rw [Int.ediv_eq_zero_of_lt h0 hb.2]
      rw [Int.tdiv_neg, Int.tdiv_eq_zero_of_lt h0 hb.2]; rfl
    · simp only [h0, iff_false]
      have he : x.toInt / 2 ^ (w - 1) = -1 := by
        rw [Int.ediv_eq_neg_one_of_neg_of_le (by omega) (by omega)]
      rw [he]
      by_cases hm : x.toInt = -(2:Int) ^ (w - 1)
      · rw [hm, Int.tdiv_self (by omega)]
        rw [inj] <;> omega
      · have : x.toInt.tdiv (-2 ^ (w - 1)) = 0 := by
          have e : x.toInt = -(-x.toInt) := by omega
          rw [e, Int.neg_tdiv_neg, Int.tdiv_eq_zero_of_lt (by omega) (by omega)]
        rw [this, inj] <;> omega
  · rw [if_neg hk]
    have hkp : (0:Int) < 2 ^ amount.toNat := Int.pow_pos (by decide)
    rw [if_neg (by omega), Option.some.injEq]
    have hlt : amount.toNat < w - 1 := by omega
    simp only [hlt, true_and]
    have hq : -(2:Int) ^ (w - 1) ≤ x.toInt / 2 ^ amount.toNat ∧ x.toInt / 2 ^ amount.toNat < 2 ^ (w - 1) := by
      constructor
      · rw [Int.le_ediv_iff_mul_le hkp]
        have : -(2:Int) ^ (w - 1) * 2 ^ amount.toNat ≤ -(2:Int) ^ (w - 1) * 1 :=
          Int.mul_le_mul_of_nonpos_left (by omega) (by omega)
        omega
      · rw [Int.ediv_lt_iff_lt_mul hkp]
        have : (2:Int) ^ (w - 1) * 1 ≤ 2 ^ (w - 1) * 2 ^ amount.toNat :=
          Int.mul_le_mul_of_nonneg_left (by omega) (by omega)
        omega
    rw [Int.tdiv_eq_ediv]
    by_cases hc : 0 ≤ x.toInt ∨ (2:Int) ^ amount.toNat ∣ x.toInt
    · rw [if_pos hc]; simp only [hc, Int.add_zero]
    · rw [if_neg hc]
      simp only [hc, iff_false]
      have hsg : (2 ^ amount.toNat : Int).sign = 1 := Int.sign_eq_one_of_pos hkp
      rw [hsg, inj]
      · omega
      · omega
      · have : x.toInt / 2 ^ amount.toNat < 0 := Int.ediv_neg_of_neg_of_pos (by omega) hkp
        omega
      · exact hq.1
      · exact hq.2

/-- C12 (logical right shifts, partial): the division that replaces `lshr` has the same value exactly when the operand is
non-negative, or the amount is 0, or the amount is `width - 1` and only the sign bit is set. -/
theorem c12_lshr_iff_partial {w : Nat} (hw : 2 ≤ w) (x amount : BitVec w) (ha : amount.toNat < w) :
    (rewriteShift .lshr amount).eval x = Shift.lshr.eval x amount ↔
      (0 ≤ x.toInt ∨ amount.toNat = 0 ∨ (amount.toNat = w - 1 ∧ x.toInt = -(2:Int) ^ (w - 1))) := by
  have hb := toInt_bounds (w := w) (by omega) x
  have hwp : (0:Int) < 2 ^ (w - 1) := Int.pow_pos (by decide)
  have hw1 : (2:Int) ≤ 2 ^ (w - 1) := by
    have : (2:Int) ^ 1 ≤ 2 ^ (w - 1) := two_pow_mono (by omega)
    simpa using this
  have hs := pow_split (w := w) (by omega)
  have hxn : (x.toNat : Int) = if 0 ≤ x.toInt then x.toInt else x.toInt + 2 ^ w := by
    have hc : ((2 ^ w : Nat) : Int) = 2 ^ w := by simp
    have := BitVec.toInt_eq_toNat_cond x
    have hl := x.isLt
    split at this
    · rw [if_pos (by omega)]; omega
    · rw [if_neg (by omega)]; omega
  have hcast : ((2 ^ amount.toNat : Nat) : Int) = 2 ^ amount.toNat := by simp
  have key : BitVec.ofNat w (x.toNat / 2 ^ amount.toNat) = BitVec.ofInt w ((x.toNat : Int) / 2 ^ amount.toNat) := by
    rw [← hcast, ← Int.natCast_ediv]; rfl
  have range : ∀ a : Int, -(2:Int) ^ (w - 1) ≤ a → a < 2 ^ (w - 1) → (BitVec.ofInt w a).toInt = a :=
    fun a h1 h2 => IntOps.toInt_ofInt_range (by omega) h1 h2
  simp only [rewriteShift, Rewritten.eval, Shift.eval, if_pos ha, one_shl_toInt ha]
  rw [key]
  have hkp : (0:Int) < 2 ^ amount.toNat := Int.pow_pos (by decide)
  by_cases h0 : 0 ≤ x.toInt
  · simp only [h0, true_or, iff_true]
    rw [if_pos h0] at hxn
    rw [hxn]
    by_cases hk : amount.toNat = w - 1
    · rw [if_pos hk, if_neg (by omega), hk, Int.ediv_eq_zero_of_lt h0 hb.2,
        Int.tdiv_neg, Int.tdiv_eq_zero_of_lt h0 hb.2]; rfl
    · rw [if_neg hk, if_neg (by omega), Int.tdiv_eq_ediv_of_nonneg h0]
  · simp only [h0, false_or]
    rw [if_neg h0] at hxn
    by_cases hz : amount.toNat = 0
    · have hne : amount.toNat ≠ w - 1 := by omega
      simp only [hz, true_or, iff_true]
      rw [if_neg (by omega), if_neg (by omega)]
      rw [hxn]
      simp only [Int.pow_zero, Int.tdiv_one, Int.ediv_one]
      rw [BitVec.ofInt_add]
      congr 1
      have : BitVec.ofInt w (2 ^ w) = 0#w := by
        apply BitVec.eq_of_toNat_eq
        rw [BitVec.toNat_ofInt]
        have hc : ((2 ^ w : Nat) : Int) = 2 ^ w := by simp
        rw [hc, Int.emod_self]; simp
      rw [this, BitVec.add_zero]
    · simp only [hz, false_or]
      by_cases hk : amount.toNat = w - 1
      · rw [if_pos hk, if_neg (by omega), hk, Option.some.injEq]
        have he : (x.toNat : Int) / 2 ^ (w - 1) = 1 := by
          rw [Int.ediv_eq_iff_of_pos (by omega)]
          omega
        rw [he]
        simp only [true_and]
        by_cases hm : x.toInt = -(2:Int) ^ (w - 1)
        · rw [hm, Int.tdiv_self (by omega)]; simp
        · have : x.toInt.tdiv (-2 ^ (w - 1)) = 0 := by
            have e : x.toInt = -(-x.toInt) := by omega
            rw [e, Int.neg_tdiv_neg, Int.tdiv_eq_zero_of_lt (by omega) (by omega)]
          rw [this]
          simp only [hm, iff_false]
          intro h
          have := congrArg BitVec.toNat h
          simp at this
          omega
      · rw [if_neg hk, if_neg (by omega), Option.some.injEq]
        simp only [hk, false_and, iff_false]
        intro h
        have hle : x.toInt.tdiv (2 ^ amount.toNat) ≤ 0 := by
          have e : x.toInt = -(-x.toInt) := by omega
          rw [e, Int.neg_tdiv]
          have := Int.tdiv_nonneg (a := -x.toInt) (b := 2 ^ amount.toNat) (by omega) (by omega)
          omega
        have hge : -(2:Int) ^ (w - 1) ≤ x.toInt.tdiv (2 ^ amount.toNat) := by
          rw [Int.tdiv_eq_ediv]
          have : -(2:Int) ^ (w - 1) ≤ x.toInt / 2 ^ amount.toNat := by
            rw [Int.le_ediv_iff_mul_le hkp]
            have : -(2:Int) ^ (w - 1) * 2 ^ amount.toNat ≤ -(2:Int) ^ (w - 1) * 1 :=
              Int.mul_le_mul_of_nonpos_left (by omega) (by omega)
            omega
          have hsg : (2 ^ amount.toNat : Int).sign = 1 := Int.sign_eq_one_of_pos hkp
          split <;> omega
        have h2 : (2:Int) ≤ 2 ^ amount.toNat := by
          have : (2:Int) ^ 1 ≤ 2 ^ amount.toNat := two_pow_mono (by omega)
          simpa using this
        have hk2 : (2:Int) ^ amount.toNat ≤ 2 ^ (w - 1) := two_pow_mono (by omega)
        have hq1 : 1 ≤ (x.toNat : Int) / 2 ^ amount.toNat := by
          rw [Int.le_ediv_iff_mul_le hkp]; omega
        have hq2 : (x.toNat : Int) / 2 ^ amount.toNat < 2 ^ (w - 1) := by
          rw [Int.ediv_lt_iff_lt_mul hkp]
          have : (2:Int) ^ (w - 1) * 2 ≤ 2 ^ (w - 1) * 2 ^ amount.toNat :=
            Int.mul_le_mul_of_nonneg_left (by omega) (by omega)
          omega
        have := congrArg BitVec.toInt h
        rw [range _ hge (by omega), range _ (by omega) hq2] at this
        omega

/-- C12: an amount that is not smaller than the width turns a shift without a value into a division by zero. -/
theorem c12_large_amount_fails {w : Nat} (s : Shift) (hs : s ≠ .shl) (x amount : BitVec w) (ha : w ≤ amount.toNat) :
    s.eval x amount = none ∧ (rewriteShift s amount).eval x = none ∧ rewriteShift s amount = .sdiv 0#w := by
  have hz : 1#w <<< amount.toNat = 0#w := BitVec.shiftLeft_eq_zero ha
  refine ⟨?_, ?_, ?_⟩
  · unfold Shift.eval; rw [if_neg (by omega)]
  · cases s
    · exact absurd rfl hs
    · simp [rewriteShift, Rewritten.eval, hz]
    · simp [rewriteShift, Rewritten.eval, hz]
  · cases s
    · exact absurd rfl hs
    · simp [rewriteShift, hz]
    · simp [rewriteShift, hz]

/-- C12 is false for right shifts of negative numbers: `-3 >> 1` becomes `-3 / 2`, and the logical shift of `-3` by 1 too. -/
theorem c12_right_shift_fails :
    (rewriteShift .ashr (1#32)).eval (-3#32) = some (-1#32) ∧ Shift.ashr.eval (-3#32) (1#32) = some (-2#32) ∧
    (rewriteShift .lshr (1#32)).eval (-3#32) = some (-1#32) ∧
    Shift.lshr.eval (-3#32) (1#32) = some (2147483646#32) := by
  decide

/-- C12, end to end: together with the integer encoding of division (which rounds downwards, see `c02_sdiv_fails`), the
rewritten arithmetic shift yields the correct value after all: for every representative `a` of the operand and every amount
smaller than `width - 1`, the Boogie term `$sdiv.iW(a, 2^amount)` is the value of the shift. -/
theorem c12_ashr_encoded (S : Smt) {w : Nat} (hw : 1 ≤ w) (x amount : BitVec w) (ha : amount.toNat < w - 1) (a : Int)
    (hax : BitVec.ofInt w a = x) :
    ∃ v, Shift.ashr.eval x amount = some v ∧
      BitVec.ofInt w (IntOps.sdiv S .wrapped w a (2 ^ amount.toNat)) = v := by
  have h2 : (1#w <<< amount.toNat).toInt = 2 ^ amount.toNat := by
    rw [one_shl_toInt (by omega), if_neg (by omega)]
  have hp : (BitVec.ofInt w (2 ^ amount.toNat)).toInt = 2 ^ amount.toNat := by
    rw [← h2, BitVec.ofInt_toInt]
  have hkp : (0:Int) < 2 ^ amount.toNat := Int.pow_pos (by decide)
  refine ⟨BitVec.ofInt w (x.toInt / 2 ^ amount.toNat), ?_, ?_⟩
  · simp only [Shift.eval]; rw [if_pos (by omega)]
  · rw [IntOps.sdiv_eq S hw a _ (by rw [hp]; omega), hp, hax]

theorem c12_ashr_encoded_unbounded (S : Smt) {w : Nat} (x amount : BitVec w) (ha : amount.toNat < w) :
    ∃ v, Shift.ashr.eval x amount = some v ∧
      BitVec.ofInt w (IntOps.sdiv S .unbounded w x.toInt (2 ^ amount.toNat)) = v := by
  have hkp : (0:Int) < 2 ^ amount.toNat := Int.pow_pos (by decide)
  refine ⟨_, by simp only [Shift.eval]; rw [if_pos ha], ?_⟩
  simp only [IntOps.sdiv, IntOps.wrapped]
  rw [IntOps.idiv_of_ne (by omega)]

example : (5#8).toNat < 8 ∧ Shift.shl.eval (3#8) (5#8) = some (96#8) ∧
    (rewriteShift .ashr (2#8)).eval (-8#8) = Shift.ashr.eval (-8#8) (2#8) := by decide

/-! ### C13 -/

theorem isPowerOf2_iff {w : Nat} (x : BitVec w) : isPowerOf2 x = true ↔ ∃ j, j < w ∧ x.toNat = 2 ^ j := by
  unfold isPowerOf2
  constructor
  · intro h
    have hl : ((List.range w).filter (fun i => x.getLsbD i)).length = 1 := by simpa using h
    obtain ⟨j, hj⟩ := List.length_eq_one_iff.mp hl
    have hm : ∀ i, (i < w ∧ x.getLsbD i = true) ↔ i = j := by
      intro i
      have : i ∈ (List.range w).filter (fun i => x.getLsbD i) ↔ i ∈ [j] := by rw [hj]
      simpa using this
    have hjw := (hm j).mpr rfl
    refine ⟨j, hjw.1, ?_⟩
    have : x = BitVec.twoPow w j := by
      apply BitVec.eq_of_getLsbD_eq
      intro i hi
      rw [BitVec.getLsbD_twoPow, Bool.eq_iff_iff]
      have := hm i
      simp [hi] at this ⊢
      rw [this]
      constructor
      · rintro rfl; exact ⟨hi, rfl⟩
      · rintro ⟨_, rfl⟩; rfl
    rw [this, BitVec.toNat_twoPow, Nat.mod_eq_of_lt (Nat.pow_lt_pow_right (by decide) hjw.1)]
  · rintro ⟨j, hj, hx⟩
    have : x = BitVec.twoPow w j := by
      apply BitVec.eq_of_toNat_eq
      rw [hx, BitVec.toNat_twoPow, Nat.mod_eq_of_lt (Nat.pow_lt_pow_right (by decide) hj)]
    subst this
    have hf : ∀ n, (List.range n).filter (fun i => (BitVec.twoPow w j).getLsbD i) = if j < n then [j] else [] := by
      intro n
      induction n with
      | zero => simp
      | succ n ih =>
        rw [List.range_succ, List.filter_append, ih, List.filter_cons, List.filter_nil, BitVec.getLsbD_twoPow]
        by_cases h1 : j < n
        · have h2 : j < n + 1 := by omega
          have h3 : ¬ (j = n) := by omega
          simp [h1, h2, h3]
        · by_cases h3 : j = n
          · subst h3; simp [hj]
          · have h2 : ¬ (j < n + 1) := by omega
            simp [h1, h2, h3]
    rw [hf w, if_pos hj]; simp

/-- C13: whenever the pass replaces `and mask x`, the remainder that replaces it has a value and it is the bitwise and. -/
theorem c13_mask_preserved {w : Nat} (c x : BitVec w) (r : Rewritten w) (h : rewriteAnd c = some r) :
    r.eval x = some (c &&& x) := by
  unfold rewriteAnd at h
  split at h
  · rename_i hc
    cases h
    obtain ⟨j, hj, hp⟩ := (isPowerOf2_iff _).mp hc
    have hpos : 0 < 2 ^ j := Nat.two_pow_pos j
    simp only [Rewritten.eval, hp]
    rw [if_neg (by omega)]
    have hlt : 2 ^ j < 2 ^ w := Nat.pow_lt_pow_right (by decide) hj
    have hcn : c.toNat = 2 ^ j - 1 := by
      rw [BitVec.toNat_add, BitVec.toNat_ofNat] at hp
      have h1 : 2 ^ 1 ≤ 2 ^ w := Nat.pow_le_pow_right (by decide) (by omega)
      have := c.isLt
      rw [Nat.mod_eq_of_lt (a := 1) (by omega)] at hp
      rcases Nat.lt_or_ge (c.toNat + 1) (2 ^ w) with hl | hl
      · rw [Nat.mod_eq_of_lt hl] at hp; omega
      · have : c.toNat + 1 = 2 ^ w := by omega
        rw [this, Nat.mod_self] at hp; omega
    congr 1
    apply BitVec.eq_of_toNat_eq
    rw [BitVec.toNat_and, hcn, Nat.and_comm, Nat.and_two_pow_sub_one_eq_mod, BitVec.toNat_ofNat]
    exact Nat.mod_eq_of_lt (Nat.lt_trans (Nat.mod_lt _ hpos) hlt)
  · cases h

/-- C13: the masks that are replaced are exactly the constants `2^j - 1` with `j` smaller than the width. -/
theorem c13_mask_applies {w : Nat} (hw : 1 ≤ w) (c : BitVec w) :
    (rewriteAnd c).isSome = true ↔ ∃ j, j < w ∧ c.toNat = 2 ^ j - 1 := by
  unfold rewriteAnd
  have h1 : 2 ^ 1 ≤ 2 ^ w := Nat.pow_le_pow_right (by decide) hw
  have hc := c.isLt
  have hadd : (c + 1#w).toNat = if c.toNat + 1 = 2 ^ w then 0 else c.toNat + 1 := by
    rw [BitVec.toNat_add, BitVec.toNat_ofNat, Nat.mod_eq_of_lt (a := 1) (by omega)]
    split
    · rename_i h; rw [h, Nat.mod_self]
    · exact Nat.mod_eq_of_lt (by omega)
  have : (if isConstantInt c then some (Rewritten.urem (c + 1#w)) else none).isSome = true ↔ isPowerOf2 (c + 1#w) = true := by
    unfold isConstantInt; split <;> simp_all
  rw [this, isPowerOf2_iff, hadd]
  constructor
  · rintro ⟨j, hj, h⟩
    have hpos : 0 < 2 ^ j := Nat.two_pow_pos j
    refine ⟨j, hj, ?_⟩
    split at h <;> omega
  · rintro ⟨j, hj, h⟩
    have hpos : 0 < 2 ^ j := Nat.two_pow_pos j
    have hlt : 2 ^ j < 2 ^ w := Nat.pow_lt_pow_right (by decide) hj
    refine ⟨j, hj, ?_⟩
    rw [if_neg (by omega)]; omega

example : rewriteAnd (255#32) = some (.urem (256#32)) ∧ rewriteAnd (254#32) = none := by decide

/-! ### C14 -/

/-- C14: `__SMACK_and8` returns the bitwise and of its arguments (two's complement `char`). -/
theorem c14_and8 (x y : BitVec 8) : and8 conv x.toInt y.toInt = (x &&& y).toInt := by
  have := and_iter (w := 8) (by decide) x y 8
  have h2 : ((2:Int) ^ (8 - 1)) = 128 := by decide
  rw [h2] at this
  unfold and8; rw [this]; simp [accAt]

/-- C14: `__SMACK_and16` returns the bitwise and of its arguments (two's complement `short`). -/
theorem c14_and16 (x y : BitVec 16) : and16 conv x.toInt y.toInt = (x &&& y).toInt := by
  have := and_iter (w := 16) (by decide) x y 16
  have h2 : ((2:Int) ^ (16 - 1)) = 32768 := by decide
  rw [h2] at this
  unfold and16; rw [this]; simp [accAt]

/-- C14 is false for 32 bits: `__SMACK_and32` repeats its statement group 64 times and returns 0 for all arguments. -/
theorem c14_and32_fails (x y : BitVec 32) : and32 conv x.toInt y.toInt = 0 := by
  have := and_iter (w := 32) (by decide) x y 64
  have h2 : ((2:Int) ^ (32 - 1)) = 2147483648 := by decide
  rw [h2] at this
  unfold and32; rw [this]; simp [accAt]

/-- C14 is false for 64 bits: `__SMACK_and64` returns 0 for all arguments. -/
theorem c14_and64_fails (x y : BitVec 64) : and64 conv x.toInt y.toInt = 0 := by
  unfold and64
  rw [conv_toInt 32 x.toInt, conv_toInt 32 y.toInt, c14_and32_fails]
  simp [conv]

/-- C14 (partial): what `__SMACK_or32` computes. Bit `i` of the result is set iff bit `i` of one of the arguments is set and it
is either the sign bit or not the lowest set bit of that argument. The claim asks for the plain bitwise or; the lowest set bit
of each argument is lost. -/
theorem c14_or32_bits_partial (x y : BitVec 32) :
    ∃ z : BitVec 32, or32 conv x.toInt y.toInt = z.toInt ∧
      ∀ i, i < 32 → (z.getLsbD i = true ↔ survives x i ∨ survives y i) := by
  obtain ⟨z, hz⟩ := exists_bits (w := 32) (fun i => survives x i ∨ survives y i)
  refine ⟨z, ?_, hz⟩
  have := or_iter (w := 32) (by decide) x y z hz 32 (by decide)
  have h2 : ((2:Int) ^ (32 - 1)) = 2147483648 := by decide
  rw [h2] at this
  unfold or32; rw [this]; simp [accAt]

/-- C14 is false for `__SMACK_or32`: with second argument 0 it never returns its first argument, unless that is 0 or only has
the sign bit set. -/
theorem c14_or32_fails (x : BitVec 32) (hx : x ≠ 0#32) (hm : x.toInt ≠ -(2:Int) ^ 31) :
    or32 conv x.toInt 0 ≠ x.toInt := by
  intro h
  obtain ⟨z, hz, hb⟩ := c14_or32_bits_partial x 0#32
  have h0 : (0#32).toInt = 0 := by decide
  rw [h0, h] at hz
  have hzx : z = x := BitVec.eq_of_toInt_eq hz.symm
  subst hzx
  have hs : ∀ i, i < 32 → (z.getLsbD i = true ↔ survives z i) := by
    intro i hi
    rw [hb i hi]
    simp [survives]
  -- every set bit below the sign bit has a set bit below it, so there is none
  have hnone : ∀ i, i < 31 → z.getLsbD i = false := by
    intro i
    induction i using Nat.strongRecOn with
    | _ i ih =>
      intro hi
      cases hc : z.getLsbD i
      · rfl
      · rcases ((hs i (by omega)).mp hc).2 with h | ⟨j, hj, hjb⟩
        · omega
        · rw [ih j hj (by omega)] at hjb; cases hjb
  by_cases hmsb : z.msb = true
  · exact hm ((eq_min_iff (w := 32) (by decide) z).mpr ⟨hmsb, fun j hj => hnone j hj⟩)
  · apply hx
    apply BitVec.eq_of_getLsbD_eq
    intro i hi
    by_cases h31 : i = 31
    · subst h31
      rw [BitVec.msb_eq_getLsbD_last] at hmsb
      simpa using hmsb
    · rw [hnone i (by omega)]; simp

/-- C14 (partial): `__SMACK_or64` computes with the low 32 bits of its arguments only, as `__SMACK_or32` does, and extends the sign of the result. -/
theorem c14_or64_bits_partial (x y : BitVec 64) :
    ∃ z : BitVec 32, or64 conv x.toInt y.toInt = z.toInt ∧
      ∀ i, i < 32 → (z.getLsbD i = true ↔ survives (x.setWidth 32) i ∨ survives (y.setWidth 32) i) := by
  have e : ∀ x : BitVec 64, conv 32 x.toInt = (x.setWidth 32).toInt := by
    intro x
    rw [conv_toInt, BitVec.toInt_ofInt, BitVec.toInt_setWidth, BitVec.toInt_eq_toNat_bmod, Int.bmod_bmod_of_dvd (by decide)]
  obtain ⟨z, h1, h2⟩ := c14_or32_bits_partial (x.setWidth 32) (y.setWidth 32)
  refine ⟨z, ?_, h2⟩
  unfold or64
  rw [e, e, h1]
  have := BitVec.toInt_lt (x := z); have := BitVec.le_toInt z
  simp only [conv]
  exact Int.bmod_eq_of_le (by omega) (by omega)

theorem or_narrow {w : Nat} (hw : w ≤ 32) (x y : BitVec w) :
    ∃ z : BitVec 32, conv w (or32 conv (conv 32 x.toInt) (conv 32 y.toInt)) = (z.setWidth w).toInt ∧
      ∀ i, i < 32 → (z.getLsbD i = true ↔ survives (x.signExtend 32) i ∨ survives (y.signExtend 32) i) := by
  have e : ∀ x : BitVec w, conv 32 x.toInt = (x.signExtend 32).toInt := by
    intro x
    rw [conv_toInt]; rfl
  obtain ⟨z, h1, h2⟩ := c14_or32_bits_partial (x.signExtend 32) (y.signExtend 32)
  refine ⟨z, ?_, h2⟩
  rw [e, e, h1, conv_toInt, BitVec.toInt_ofInt, BitVec.toInt_setWidth, BitVec.toInt_eq_toNat_bmod]
  exact Int.bmod_bmod_of_dvd (Nat.pow_dvd_pow 2 hw)

/-- C14 (partial): `__SMACK_or16` and `__SMACK_or8` return the low bits of what `__SMACK_or32` computes for the arguments with extended sign. -/
theorem c14_or16_bits_partial (x y : BitVec 16) :
    ∃ z : BitVec 32, or16 conv x.toInt y.toInt = (z.setWidth 16).toInt ∧
      ∀ i, i < 32 → (z.getLsbD i = true ↔ survives (x.signExtend 32) i ∨ survives (y.signExtend 32) i) := or_narrow (by decide) x y

/-- C14 (partial), 8 bits. -/
theorem c14_or8_bits_partial (x y : BitVec 8) :
    ∃ z : BitVec 32, or8 conv x.toInt y.toInt = (z.setWidth 8).toInt ∧
      ∀ i, i < 32 → (z.getLsbD i = true ↔ survives (x.signExtend 32) i ∨ survives (y.signExtend 32) i) := or_narrow (by decide) x y
/-- C14 is false for the narrower and wider `or` functions, which call `__SMACK_or32`. -/
theorem c14_or_fails :
    or8 conv 1 0 = 0 ∧ or16 conv 1 0 = 0 ∧ or64 conv 1 0 = 0 ∧ or64 conv 4294967296 0 = 0 := by decide +kernel

theorem iter_unbounded (m : Int) (n : Nat) : ∀ a b : Int, 0 ≤ a →
    (iter (andIter id m) n ⟨a, b, 0⟩).c = 0 := by
  induction n with
  | zero => intro a b _; rfl
  | succ n ih =>
    intro a b ha
    simp only [iter, andIter, id, if_neg (show ¬ a < 0 by omega)]
    apply ih
    have := Int.tmod_nonneg m ha
    omega

/-- C14 is false in the default (unbounded) integer encoding, where the rewriting is used: integers are not wrapped, and the
`and` of any non-negative first argument with anything is 0 at every width. -/
theorem c14_unbounded_fails (a b : Int) (ha : 0 ≤ a) :
    and8 (fun _ v => v) a b = 0 ∧ and16 (fun _ v => v) a b = 0 ∧ and32 (fun _ v => v) a b = 0 ∧
    and64 (fun _ v => v) a b = 0 :=
  ⟨iter_unbounded _ _ a b ha, iter_unbounded _ _ a b ha, iter_unbounded _ _ a b ha,
   iter_unbounded _ _ a b ha⟩

example : or16 conv 12 10 = 8 ∧ or64 conv (-4294967284) 10 = 8 ∧ or8 conv (-2) 0 = -4 := by decide +kernel

example : and8 conv 12 10 = 8 ∧ and8 conv (-1) (-128) = -128 ∧ or32 conv 12 10 = 8 := by decide +kernel

end Smack.Bitwise
