/- Auxiliary lemmas. -/
import Verif.Math.Spec

namespace Smack.Math

variable {F : Fmt}

/-! ## Representable numbers -/

theorem rep_zero : Rep F 0 := ⟨0, 0, Nat.two_pow_pos _, Nat.zero_le _, by simp⟩

theorem rep_mod {a b : Nat} (ha : Rep F a) (hb : Rep F b) (h0 : 0 < b) :
    Rep F (a % b) ∧ (b ≤ 2 * (a % b) → Rep F (b - a % b)) := by
  obtain ⟨c, i, hc, hi, rfl⟩ := ha
  obtain ⟨d, j, hd, hj, rfl⟩ := hb
  have pj : 0 < 2 ^ j := Nat.two_pow_pos _
  have pi : 0 < 2 ^ i := Nat.two_pow_pos _
  have hd0 : 0 < d := Nat.pos_of_ne_zero (by rintro rfl; simp at h0)
  rcases Nat.le_total j i with h | h
  · have e : c * 2 ^ i = (c * 2 ^ (i - j)) * 2 ^ j := by
      rw [Nat.mul_assoc, ← Nat.pow_add, Nat.sub_add_cancel h]
    rw [e, Nat.mul_mod_mul_right]
    have hlt := Nat.mod_lt (c * 2 ^ (i - j)) hd0
    refine ⟨⟨_, j, Nat.lt_trans hlt hd, hj, rfl⟩, fun _ => ⟨d - c * 2 ^ (i - j) % d, j, Nat.lt_of_le_of_lt (Nat.sub_le _ _) hd, hj, ?_⟩⟩
    rw [Nat.sub_mul]
  · have e : d * 2 ^ j = (d * 2 ^ (j - i)) * 2 ^ i := by
      rw [Nat.mul_assoc, ← Nat.pow_add, Nat.sub_add_cancel h]
    rw [e, Nat.mul_mod_mul_right]
    have hle := Nat.mod_le c (d * 2 ^ (j - i))
    refine ⟨⟨_, i, Nat.lt_of_le_of_lt hle hc, hi, rfl⟩, fun h2 => ⟨d * 2 ^ (j - i) - c % (d * 2 ^ (j - i)), i, ?_, hi, ?_⟩⟩
    · rw [← Nat.mul_assoc 2] at h2
      have := Nat.le_of_mul_le_mul_right h2 pi
      omega
    · rw [Nat.sub_mul]

theorem unit_le_top (hF : F.Ok) : F.unit ≤ 2 ^ F.e - 3 := by
  have h1 := hF.e
  have h2 := hF.m
  have h3 : 2 ^ F.e = 2 * 2 ^ (F.e - 1) := by
    rw [← Nat.pow_succ']; congr 1; omega
  have h4 : 2 ≤ 2 ^ (F.e - 1) := by
    calc 2 = 2 ^ 1 := rfl
      _ ≤ 2 ^ (F.e - 1) := Nat.pow_le_pow_right (by decide) (by omega)
  unfold Fmt.unit
  omega

theorem one_pos : 0 < F.one := Nat.two_pow_pos _

theorem rep_one_mul (hF : F.Ok) {q : Nat} (h : q < 2 ^ (F.m + 1)) : Rep F (q * F.one) := ⟨q, F.unit, h, unit_le_top hF, rfl⟩

theorem rep_one (hF : F.Ok) : Rep F F.one := by
  have := rep_one_mul hF (q := 1) (by
    calc 1 < 2 ^ 1 := by decide
      _ ≤ 2 ^ (F.m + 1) := Nat.pow_le_pow_right (by decide) (by omega))
  rwa [Nat.one_mul] at this

/-- A number is a whole number, or its whole part is less than `2 ^ m`. -/
theorem rep_cases {n : Nat} (h : Rep F n) : n % F.one = 0 ∨ n / F.one < 2 ^ F.m := by
  obtain ⟨c, k, hc, _, rfl⟩ := h
  rcases Nat.le_total F.unit k with h1 | h1
  · left
    have : c * 2 ^ k = (c * 2 ^ (k - F.unit)) * F.one := by
      show _ = _ * 2 ^ F.unit
      rw [Nat.mul_assoc, ← Nat.pow_add, Nat.sub_add_cancel h1]
    rw [this]; exact Nat.mul_mod_left _ _
  · by_cases e : k = F.unit
    · left; subst e; exact Nat.mul_mod_left _ _
    · right
      have h2 : F.one = 2 ^ (F.unit - k) * 2 ^ k := by
        show 2 ^ F.unit = _
        rw [← Nat.pow_add, Nat.sub_add_cancel h1]
      rw [h2, Nat.mul_div_mul_right _ _ (Nat.two_pow_pos k)]
      apply Nat.div_lt_of_lt_mul
      have h3 : 2 ≤ 2 ^ (F.unit - k) := by
        calc 2 = 2 ^ 1 := rfl
          _ ≤ _ := Nat.pow_le_pow_right (by decide) (by omega)
      have h4 := Nat.mul_le_mul_right (2 ^ F.m) h3
      rw [Nat.pow_succ] at hc
      omega

theorem rep_round (hF : F.Ok) {n : Nat} (h : Rep F n) (rm : RMode) (s : Bool) :
    Rep F ((if rm.up s (n / F.one) (n % F.one) F.one then n / F.one + 1 else n / F.one) * F.one) := by
  have hm : 2 ^ (F.m + 1) = 2 * 2 ^ F.m := by rw [Nat.pow_succ]; omega
  have hp : 0 < 2 ^ F.m := Nat.two_pow_pos _
  rcases rep_cases h with h1 | h1
  · have hu : rm.up s (n / F.one) (n % F.one) F.one = false := by
      have := one_pos (F := F)
      rw [h1]
      cases rm <;> simp [RMode.up] <;> omega
    rw [hu]
    have : n / F.one * F.one = n := by
      have := Nat.div_add_mod n F.one
      rw [h1, Nat.mul_comm] at this; simpa using this
    simpa [this] using h
  · split <;> exact rep_one_mul hF (by omega)

/-! ## Encodings -/

theorem twoPow_getLsbD {w k i : Nat} (h : k < w) : (BitVec.twoPow w k).getLsbD i = decide (i = k) := by
  rw [BitVec.getLsbD_twoPow]
  by_cases e : i = k
  · subst e; simp [h]
  · simp [e, Ne.symm e]

theorem decode_flip (b : F.Bits) : decode F (b ^^^ BitVec.twoPow _ (F.e + F.m)) = Smt.neg (decode F b) := by
  have h1 : (b ^^^ BitVec.twoPow _ (F.e + F.m)).getLsbD (F.e + F.m) = !b.getLsbD (F.e + F.m) := by
    rw [BitVec.getLsbD_xor, twoPow_getLsbD (by omega)]; simp
  have h2 : ((b ^^^ BitVec.twoPow _ (F.e + F.m)) >>> F.m).setWidth F.e = (b >>> F.m).setWidth F.e := by
    apply BitVec.eq_of_getLsbD_eq
    intro i hi
    simp only [BitVec.getLsbD_setWidth, BitVec.getLsbD_ushiftRight, BitVec.getLsbD_xor, twoPow_getLsbD (show F.e + F.m < F.e + F.m + 1 by omega)]
    have : decide (F.m + i = F.e + F.m) = false := by simp; omega
    rw [this]; simp
  have h3 : (b ^^^ BitVec.twoPow _ (F.e + F.m)).setWidth F.m = b.setWidth F.m := by
    apply BitVec.eq_of_getLsbD_eq
    intro i hi
    simp only [BitVec.getLsbD_setWidth, BitVec.getLsbD_xor, twoPow_getLsbD (show F.e + F.m < F.e + F.m + 1 by omega)]
    have : decide (i = F.e + F.m) = false := by simp; omega
    rw [this]; simp
  unfold decode
  simp only [h1, h2, h3]
  split
  · split <;> rfl
  · split <;> rfl

/-- The sign of a value that is not a NaN. -/
def sign : Val → Bool
  | .nan => false
  | .inf s => s
  | .fin s _ => s

theorem decode_sign {b : F.Bits} (h : decode F b ≠ .nan) : sign (decode F b) = b.getLsbD (F.e + F.m) := by
  unfold decode at *
  simp only at *
  split at h
  · next h1 =>
    split at h
    · next h2 => rw [if_pos h1, if_pos h2]; rfl
    · exact absurd rfl h
  · next h1 =>
    rw [if_neg h1]
    split <;> rfl

theorem shift_top {w : Nat} (b : BitVec (w + 1)) : (b >>> w).toNat = if b.getLsbD w then 1 else 0 := by
  have h1 : b.toNat < 2 ^ (w + 1) := b.isLt
  rw [BitVec.toNat_ushiftRight, Nat.shiftRight_eq_div_pow, BitVec.getLsbD, Nat.testBit_eq_decide_div_mod_eq]
  have h2 : b.toNat / 2 ^ w < 2 := by
    apply Nat.div_lt_of_lt_mul; rw [Nat.pow_succ] at h1; omega
  generalize b.toNat / 2 ^ w = q at *
  match q, h2 with
  | 0, _ => rfl
  | 1, _ => rfl

theorem signbit_eq {E : Env F} (hE : E.Precise) {v : Val} (h : v.Ok F) (hn : v ≠ .nan) : signbit E v = if sign v then 1 else 0 := by
  have h1 := hE.inv v h
  rw [hE.dec] at h1
  unfold signbit
  rw [shift_top]
  have := decode_sign (F := F) (b := E.bits v) (by rw [h1]; exact hn)
  rw [h1] at this
  rw [this]

theorem flip_eq {E : Env F} (hE : E.Precise) {v : Val} (h : v.Ok F) : E.unbits (E.bits v ^^^ BitVec.twoPow _ (F.e + F.m)) = Smt.neg v := by
  have h1 := hE.inv v h
  rw [hE.dec] at h1 ⊢
  rw [decode_flip, h1]

/-! ## Rounding to whole numbers -/

theorem int_eq (s : Bool) (n : Nat) : Smt.int s n = signed s n := by cases s <;> rfl

theorem unit_eq (hF : F.Ok) : F.m + 2 ^ (F.e - 1) - 2 = F.unit := by
  have h4 : 2 ≤ 2 ^ (F.e - 1) := by
    calc 2 = 2 ^ 1 := rfl
      _ ≤ 2 ^ (F.e - 1) := Nat.pow_le_pow_right (by decide) (by have := hF.e; omega)
  unfold Fmt.unit; omega

theorem integral_iff (hF : F.Ok) {z : Int} : Integral F z ↔ ((F.one : Nat) : Int) ∣ z := by
  unfold Integral
  rw [unit_eq hF]; rfl

theorem integral_mul (hF : F.Ok) (s : Bool) (q : Nat) : Integral F (signed s (q * F.one)) := by
  rw [integral_iff hF]
  cases s
  · exact ⟨q, by simp [signed, Int.mul_comm]⟩
  · exact ⟨-q, by simp [signed, Int.mul_comm, Int.neg_mul]⟩

/-- Multiples of `d` are at most `q * d` or at least the next one. -/
theorem multiple_split {d : Nat} (hd : 0 < d) {u : Int} (h : (d : Int) ∣ u) (q : Nat) :
    u ≤ ((q * d : Nat) : Int) ∨ ((q * d : Nat) : Int) + d ≤ u := by
  obtain ⟨t, rfl⟩ := h
  rcases (show (q : Int) < t ∨ t ≤ q by omega) with h1 | h1
  · right
    have := Int.mul_le_mul_of_nonneg_left (show (q : Int) + 1 ≤ t from h1) (show (0 : Int) ≤ d by omega)
    rw [Int.mul_add, Int.mul_one] at this
    rw [Int.natCast_mul, Int.mul_comm (q : Int)]
    exact this
  · left
    have := Int.mul_le_mul_of_nonneg_left h1 (show (0 : Int) ≤ d by omega)
    rw [Int.natCast_mul, Int.mul_comm (q : Int)]
    exact this

theorem integral_neg {u : Int} (h : Integral F u) : Integral F (-u) := Int.dvd_neg.mpr h

/-- Position of a whole number relative to `a` and `a + d`. -/
def Outside (a d : Nat) (u : Int) : Prop := (u ≤ (a : Int) ∨ (a : Int) + d ≤ u) ∧ (-u ≤ (a : Int) ∨ (a : Int) + d ≤ -u)

theorem near_down {a d r : Nat} {u : Int} (o : Outside a d u) (h : 2 * r ≤ d) (s : Bool) :
    (signed s a - signed s (a + r)).natAbs ≤ (u - signed s (a + r)).natAbs := by
  obtain ⟨s1, s2⟩ := o
  cases s <;> simp only [signed, if_true, if_false, Bool.false_eq_true] <;> omega

theorem near_up {a d r : Nat} {u : Int} (o : Outside a d u) (h : d ≤ 2 * r) (hr : r < d) (s : Bool) :
    (signed s (a + d) - signed s (a + r)).natAbs ≤ (u - signed s (a + r)).natAbs := by
  obtain ⟨s1, s2⟩ := o
  cases s <;> simp only [signed, if_true, if_false, Bool.false_eq_true] <;> omega

theorem near_down_unique {a d r : Nat} {u : Int} (o : Outside a d u) (h : 2 * r < d) (s : Bool)
    (e : (u - signed s (a + r)).natAbs = (signed s a - signed s (a + r)).natAbs) : u.natAbs ≤ a := by
  obtain ⟨s1, s2⟩ := o
  cases s <;> simp only [signed, if_true, if_false, Bool.false_eq_true] at * <;> omega

theorem near_down_eq {a d r : Nat} {u : Int} (o : Outside a d u) (h : 2 * r < d) (s : Bool)
    (e : (u - signed s (a + r)).natAbs = (signed s a - signed s (a + r)).natAbs) : u = signed s a := by
  obtain ⟨s1, s2⟩ := o
  cases s <;> simp only [signed, if_true, if_false, Bool.false_eq_true] at * <;> omega

theorem near_up_eq {a d r : Nat} {u : Int} (o : Outside a d u) (h : d < 2 * r) (hr : r < d) (s : Bool)
    (e : (u - signed s (a + r)).natAbs = (signed s (a + d) - signed s (a + r)).natAbs) : u = signed s (a + d) := by
  obtain ⟨s1, s2⟩ := o
  cases s <;> simp only [signed, if_true, if_false, Bool.false_eq_true] at * <;> omega

theorem near_up_max {a d r : Nat} {u : Int} (h : d ≤ 2 * r) (hr : r < d) (s : Bool)
    (e : (u - signed s (a + r)).natAbs = (signed s (a + d) - signed s (a + r)).natAbs) : u.natAbs ≤ (signed s (a + d)).natAbs := by
  cases s <;> simp only [signed, if_true, if_false, Bool.false_eq_true] at * <;> omega

theorem rint_spec (hF : F.Ok) (rm : RMode) (s : Bool) (n : Nat) :
    IsRint F rm (signed s n) (signed s ((if rm.up s (n / F.one) (n % F.one) F.one then n / F.one + 1 else n / F.one) * F.one)) := by
  have hd : 0 < F.one := one_pos
  have hn : n / F.one * F.one + n % F.one = n := by rw [Nat.mul_comm]; exact Nat.div_add_mod n F.one
  have hr := Nat.mod_lt n hd
  have hint : ∀ q, Integral F (signed s (q * F.one)) := integral_mul hF s
  generalize n / F.one = q at *
  generalize n % F.one = r at *
  subst hn
  have hs : (q + 1) * F.one = q * F.one + F.one := by rw [Nat.add_mul, Nat.one_mul]
  have sp : ∀ u, Integral F u → Outside (q * F.one) F.one u := fun u hu =>
    ⟨multiple_split hd ((integral_iff hF).mp hu) q, multiple_split hd ((integral_iff hF).mp (integral_neg hu)) q⟩
  have h0 := hint q
  have h1 := hint (q + 1)
  rw [hs] at h1
  have even : ∀ k, k % 2 = 0 → ∃ v, Integral F v ∧ signed s (k * F.one) = 2 * v := by
    intro k hk
    refine ⟨signed s (k / 2 * F.one), hint _, ?_⟩
    have : k * F.one = 2 * (k / 2 * F.one) := by
      rw [← Nat.mul_assoc]; congr 1; omega
    cases s <;> simp only [signed] <;> rw [this] <;> simp <;> omega
  have ev0 := even q
  have ev1 := even (q + 1)
  rw [hs] at ev1
  clear even hint
  generalize hA : q * F.one = a at *
  generalize F.one = d at *
  have fl : s = false → IsFloor F (signed s (a + r)) (signed s a) := by
    rintro rfl
    clear ev0 ev1
    refine ⟨h0, ?_, fun u hu hz => ?_⟩
    · simp only [signed, Bool.false_eq_true, if_false]; omega
    · obtain ⟨s1, s2⟩ := sp u hu
      simp only [signed, Bool.false_eq_true, if_false] at *; omega
  have ce : s = true → IsCeil F (signed s (a + r)) (signed s a) := by
    rintro rfl
    clear ev0 ev1
    refine ⟨h0, ?_, fun u hu hz => ?_⟩
    · simp only [signed, if_true]; omega
    · obtain ⟨s1, s2⟩ := sp u hu
      simp only [signed, if_true] at *; omega
  have fl' : s = true → 0 < r → IsFloor F (signed s (a + r)) (signed s (a + d)) := by
    rintro rfl h
    clear ev0 ev1
    refine ⟨h1, ?_, fun u hu hz => ?_⟩
    · simp only [signed, if_true]; omega
    · obtain ⟨s1, s2⟩ := sp u hu
      simp only [signed, if_true] at *; omega
  have ce' : s = false → 0 < r → IsCeil F (signed s (a + r)) (signed s (a + d)) := by
    rintro rfl h
    clear ev0 ev1
    refine ⟨h1, ?_, fun u hu hz => ?_⟩
    · simp only [signed, Bool.false_eq_true, if_false]; omega
    · obtain ⟨s1, s2⟩ := sp u hu
      simp only [signed, Bool.false_eq_true, if_false] at *; omega
  have z : r = 0 → IsFloor F (signed s (a + r)) (signed s a) ∧ IsCeil F (signed s (a + r)) (signed s a) := by
    rintro rfl
    exact ⟨⟨h0, Int.le_refl _, fun u _ hz => hz⟩, ⟨h0, Int.le_refl _, fun u _ hz => hz⟩⟩
  cases rm with
  | rne =>
    simp only [RMode.up, IsRint, IsNearestEven, IsNearest]
    by_cases c1 : d < 2 * r
    · simp only [c1, decide_true, Bool.true_or, if_true, hs]
      exact ⟨⟨h1, fun u hu => near_up (sp u hu) (by omega) hr s⟩, fun u hu e ne => absurd (near_up_eq (sp u hu) c1 hr s e) ne⟩
    · by_cases c2 : 2 * r = d
      · by_cases c3 : q % 2 = 1
        · simp only [c2, c3, decide_true, Bool.and_true, Bool.or_true, if_true, hs]
          exact ⟨⟨h1, fun u hu => near_up (sp u hu) (by omega) hr s⟩, fun u hu e ne => ev1 (by omega)⟩
        · simp only [c1, c3, decide_false, Bool.and_false, Bool.or_false, Bool.false_eq_true, if_false, hA]
          exact ⟨⟨h0, fun u hu => near_down (sp u hu) (by omega) s⟩, fun u hu e ne => ev0 (by omega)⟩
      · simp only [c1, c2, decide_false, Bool.false_and, Bool.or_false, Bool.false_eq_true, if_false, hA]
        exact ⟨⟨h0, fun u hu => near_down (sp u hu) (by omega) s⟩,
          fun u hu e ne => absurd (near_down_eq (sp u hu) (by omega) s e) ne⟩
  | rna =>
    simp only [RMode.up, IsRint, IsRound, IsNearest]
    by_cases c1 : d ≤ 2 * r
    · simp only [c1, decide_true, if_true, hs]
      exact ⟨⟨h1, fun u hu => near_up (sp u hu) c1 hr s⟩, fun u hu e => near_up_max c1 hr s e⟩
    · simp only [c1, decide_false, Bool.false_eq_true, if_false, hA]
      refine ⟨⟨h0, fun u hu => near_down (sp u hu) (by omega) s⟩, fun u hu e => ?_⟩
      rw [near_down_eq (sp u hu) (by omega) s e]; exact Nat.le_refl _
  | rtp =>
    simp only [RMode.up, IsRint]
    by_cases c1 : 0 < r
    · cases s
      · simpa [c1, hs] using ce' rfl c1
      · simpa [hA] using ce rfl
    · simpa [c1, hA] using (z (by omega)).2
  | rtn =>
    simp only [RMode.up, IsRint]
    by_cases c1 : 0 < r
    · cases s
      · simpa [hA] using fl rfl
      · simpa [c1, hs] using fl' rfl c1
    · simpa [c1, hA] using (z (by omega)).1
  | rtz =>
    simp only [RMode.up, IsRint, IsTrunc, Bool.false_eq_true, if_false, hA]
    clear ev0 ev1
    refine ⟨fun hz => ?_, fun hz => ?_⟩
    · by_cases c1 : r = 0
      · exact (z c1).1
      · cases s
        · exact fl rfl
        · simp only [signed, if_true] at hz; omega
    · by_cases c1 : r = 0
      · exact (z c1).2
      · cases s
        · simp only [signed, Bool.false_eq_true, if_false] at hz; omega
        · exact ce rfl

/-! ## The fully specified unit -/

theorem decode_pack {s : Bool} {e f : Nat} (he : e < 2 ^ F.e) (hf : f < 2 ^ F.m) : decode F (pack F s e f) =
    (if e = 2 ^ F.e - 1 then (if f = 0 then .inf s else .nan) else if e = 0 then .fin s f else .fin s ((2 ^ F.m + f) * 2 ^ (e - 1))) := by
  have pm : 0 < 2 ^ F.m := Nat.two_pow_pos _
  have hef : e * 2 ^ F.m + f < 2 ^ (F.e + F.m) := by
    have := Nat.mul_le_mul_right (2 ^ F.m) (show e + 1 ≤ 2 ^ F.e from he)
    rw [Nat.add_mul, Nat.one_mul, ← Nat.pow_add] at this
    omega
  have ht : (pack F s e f).toNat = (if s then 2 ^ (F.e + F.m) else 0) + (e * 2 ^ F.m + f) := by
    unfold pack
    rw [BitVec.toNat_ofNat, Nat.mod_eq_of_lt]
    have : 2 ^ (F.e + F.m + 1) = 2 * 2 ^ (F.e + F.m) := by rw [Nat.pow_succ]; omega
    split <;> omega
  have h1 : (pack F s e f).getLsbD (F.e + F.m) = s := by
    rw [BitVec.getLsbD, Nat.testBit_eq_decide_div_mod_eq, ht]
    cases s
    · simp only [Bool.false_eq_true, if_false, Nat.zero_add, Nat.div_eq_of_lt hef]; rfl
    · simp only [if_true]
      rw [Nat.add_div_left _ (Nat.two_pow_pos _), Nat.div_eq_of_lt hef]; rfl
  have h2 : (((pack F s e f) >>> F.m).setWidth F.e).toNat = e := by
    rw [BitVec.toNat_setWidth, BitVec.toNat_ushiftRight, Nat.shiftRight_eq_div_pow, ht]
    have : (if s then 2 ^ (F.e + F.m) else 0) + (e * 2 ^ F.m + f) = f + ((if s then 2 ^ F.e else 0) + e) * 2 ^ F.m := by
      rw [Nat.add_mul]
      cases s
      · simp; omega
      · simp only [if_true]; rw [← Nat.pow_add]; omega
    rw [this, Nat.add_mul_div_right _ _ pm, Nat.div_eq_of_lt hf, Nat.zero_add]
    cases s
    · simpa using Nat.mod_eq_of_lt he
    · simp only [if_true]
      rw [Nat.add_mod_left, Nat.mod_eq_of_lt he]
  have h3 : ((pack F s e f).setWidth F.m).toNat = f := by
    rw [BitVec.toNat_setWidth, ht]
    have : (if s then 2 ^ (F.e + F.m) else 0) + (e * 2 ^ F.m + f) = f + ((if s then 2 ^ F.e else 0) + e) * 2 ^ F.m := by
      rw [Nat.add_mul]
      cases s
      · simp; omega
      · simp only [if_true]; rw [← Nat.pow_add]; omega
    rw [this, Nat.add_mul_mod_self_right, Nat.mod_eq_of_lt hf]
  unfold decode
  simp only [h1, h2, h3]

theorem log_shift {n : Nat} (h : Rep F n) (hm : 2 ^ F.m ≤ n) : ∃ q, 2 ^ F.m ≤ q ∧ q < 2 ^ (F.m + 1) ∧ n = q * 2 ^ (n.log2 - F.m) ∧
    n.log2 - F.m ≤ 2 ^ F.e - 3 := by
  obtain ⟨c, k, hc, hk, e⟩ := h
  have pm : 0 < 2 ^ F.m := Nat.two_pow_pos _
  have hn : n ≠ 0 := by omega
  have l1 := Nat.log2_self_le hn
  have l2 := Nat.lt_log2_self (n := n)
  have l3 : F.m ≤ n.log2 := (Nat.le_log2 hn).mpr hm
  have hle : n.log2 - F.m ≤ k := by
    have h1 : n < 2 ^ (F.m + 1 + k) := by
      rw [e, Nat.pow_add]
      exact Nat.mul_lt_mul_of_pos_right hc (Nat.two_pow_pos _)
    have h2 := Nat.lt_of_le_of_lt l1 h1
    have := (Nat.pow_lt_pow_iff_right (by decide : 1 < 2)).mp h2
    omega
  generalize hL : n.log2 - F.m = L at *
  have hlog : n.log2 = F.m + L := by omega
  rw [hlog] at l1 l2
  have e' : n = (c * 2 ^ (k - L)) * 2 ^ L := by
    rw [Nat.mul_assoc, ← Nat.pow_add, Nat.sub_add_cancel hle]; exact e
  refine ⟨c * 2 ^ (k - L), ?_, ?_, e', by omega⟩
  · rw [e', Nat.pow_add] at l1
    exact Nat.le_of_mul_le_mul_right l1 (Nat.two_pow_pos _)
  · rw [e', show F.m + L + 1 = F.m + 1 + L by omega, Nat.pow_add] at l2
    exact Nat.lt_of_mul_lt_mul_right l2

theorem decode_encode (hF : F.Ok) {v : Val} (h : v.Ok F) : decode F (encode F v) = v := by
  have pm : 0 < 2 ^ F.m := Nat.two_pow_pos _
  have pe : 4 ≤ 2 ^ F.e := by
    calc 4 = 2 ^ 2 := rfl
      _ ≤ _ := Nat.pow_le_pow_right (by decide) hF.e
  have p1 : 1 < 2 ^ F.m := by
    calc 1 < 2 ^ 1 := by decide
      _ ≤ _ := Nat.pow_le_pow_right (by decide) hF.frac
  cases v with
  | nan =>
    show decode F (pack F _ _ _) = _
    rw [decode_pack (by omega) p1, if_pos rfl, if_neg (by decide)]
  | inf s =>
    show decode F (pack F _ _ _) = _
    rw [decode_pack (by omega) pm, if_pos rfl, if_pos rfl]
  | fin s n =>
    show decode F (pack F _ _ _) = _
    by_cases hm : n < 2 ^ F.m
    · have : field F n = (0, n) := by simp [field, hm]
      rw [this, decode_pack (by omega) hm, if_neg (by show (0 : Nat) ≠ _; omega), if_pos rfl]
    · obtain ⟨q, q1, q2, q3, q4⟩ := log_shift h (by omega)
      have e1 : n / 2 ^ (n.log2 - F.m) = q := by
        conv => lhs; lhs; rw [q3]
        exact Nat.mul_div_cancel _ (Nat.two_pow_pos _)
      have : field F n = (n.log2 - F.m + 1, q - 2 ^ F.m) := by simp [field, hm, e1]
      rw [this]
      rw [Nat.pow_succ] at q2
      rw [decode_pack (by show n.log2 - F.m + 1 < _; omega) (by show q - 2 ^ F.m < _; omega)]
      rw [if_neg (by show n.log2 - F.m + 1 ≠ _; omega), if_neg (by show n.log2 - F.m + 1 ≠ 0; omega)]
      have e2 : 2 ^ F.m + (q - 2 ^ F.m) = q := by omega
      show Val.fin s ((2 ^ F.m + (q - 2 ^ F.m)) * 2 ^ (n.log2 - F.m)) = _
      rw [e2, ← q3]

theorem decode_ok (b : F.Bits) : (decode F b).Ok F := by
  have hf : (b.setWidth F.m).toNat < 2 ^ F.m := (b.setWidth F.m).isLt
  have he : ((b >>> F.m).setWidth F.e).toNat < 2 ^ F.e := ((b >>> F.m).setWidth F.e).isLt
  have hm : 2 ^ (F.m + 1) = 2 * 2 ^ F.m := by rw [Nat.pow_succ]; omega
  unfold decode
  simp only
  split
  · split <;> trivial
  · split
    · exact ⟨(b.setWidth F.m).toNat, 0, by omega, Nat.zero_le _, by rw [Nat.pow_zero, Nat.mul_one]⟩
    · exact ⟨_, _, by omega, by omega, rfl⟩

theorem std_precise (hF : F.Ok) (rm : RMode) : (Env.std F rm).Precise := ⟨fun _ => rfl, fun _ h => decode_encode hF h⟩

theorem ieeeRound_exact {rm : RMode} {s : Bool} {n : Nat} (h : Rep F n) : ieeeRound F rm s n = .fin s n := by
  have hz : n % 2 ^ (n.log2 - F.m) = 0 := by
    by_cases hm : n < 2 ^ F.m
    · have : n.log2 - F.m = 0 := by
        by_cases h0 : n = 0
        · subst h0; simp
        · have := (Nat.log2_lt h0).mpr hm
          omega
      rw [this]; simp [Nat.mod_one]
    · obtain ⟨q, _, _, q3, _⟩ := log_shift h (by omega)
      conv => lhs; lhs; rw [q3]
      exact Nat.mul_mod_left _ _
  have hu : rm.up s (n / 2 ^ (n.log2 - F.m)) (n % 2 ^ (n.log2 - F.m)) (2 ^ (n.log2 - F.m)) = false := by
    have : 0 < 2 ^ (n.log2 - F.m) := Nat.two_pow_pos _
    rw [hz]
    cases rm <;> simp [RMode.up] <;> omega
  have hn : n / 2 ^ (n.log2 - F.m) * 2 ^ (n.log2 - F.m) = n := by
    have := Nat.div_add_mod n (2 ^ (n.log2 - F.m))
    rw [hz, Nat.mul_comm] at this; simpa using this
  have hlt : n < 2 ^ (F.m + 1 + (2 ^ F.e - 3)) := by
    obtain ⟨c, k, hc, hk, rfl⟩ := h
    rw [Nat.pow_add]
    calc c * 2 ^ k < 2 ^ (F.m + 1) * 2 ^ k := Nat.mul_lt_mul_of_pos_right hc (Nat.two_pow_pos _)
      _ ≤ _ := Nat.mul_le_mul_left _ (Nat.pow_le_pow_right (by decide) hk)
  unfold ieeeRound
  simp only [hu, Bool.false_eq_true, if_false, hn, if_pos hlt]

theorem std_ieee (rm : RMode) : (Env.std F rm).Ieee := by
  refine ⟨fun rm s n _ h => ieeeRound_exact h, fun rm s n h => ?_⟩
  show ieeeRound F rm s n = _ ∨ ∃ k, 0 < k ∧ ieeeRound F rm s n = _
  have hg : 0 < 2 ^ (n.log2 - F.m) := Nat.two_pow_pos _
  have hle : 2 ^ (n.log2 - F.m) ≤ n :=
    Nat.le_trans (Nat.pow_le_pow_right (by decide) (Nat.sub_le _ _)) (Nat.log2_self_le (by omega))
  have hq : 0 < n / 2 ^ (n.log2 - F.m) := Nat.div_pos hle hg
  have hbig : 0 < (2 ^ (F.m + 1) - 1) * 2 ^ (2 ^ F.e - 3) := by
    apply Nat.mul_pos _ (Nat.two_pow_pos _)
    have : 2 ≤ 2 ^ (F.m + 1) := by
      calc 2 = 2 ^ 1 := rfl
        _ ≤ _ := Nat.pow_le_pow_right (by decide) (by omega)
    omega
  have hr : ∀ c : Bool, 0 < (if c then n / 2 ^ (n.log2 - F.m) + 1 else n / 2 ^ (n.log2 - F.m)) * 2 ^ (n.log2 - F.m) := by
    intro c
    apply Nat.mul_pos _ hg
    split <;> omega
  unfold ieeeRound
  simp only
  generalize rm.up s (n / 2 ^ (n.log2 - F.m)) (n % 2 ^ (n.log2 - F.m)) (2 ^ (n.log2 - F.m)) = c
  have hc := hr c
  generalize (if c then n / 2 ^ (n.log2 - F.m) + 1 else n / 2 ^ (n.log2 - F.m)) * 2 ^ (n.log2 - F.m) = r at *
  by_cases h1 : r < 2 ^ (F.m + 1 + (2 ^ F.e - 3))
  · rw [if_pos h1]; exact Or.inr ⟨_, hc, rfl⟩
  · rw [if_neg h1]
    cases rm <;> cases s <;> first | exact Or.inl rfl | exact Or.inr ⟨_, hbig, rfl⟩

theorem float_ok : Fmt.float.Ok := ⟨by decide, by decide, by decide⟩
theorem double_ok : Fmt.double.Ok := ⟨by decide, by decide, by decide⟩
theorem longDouble_ok : Fmt.longDouble.Ok := ⟨by decide, by decide, by decide⟩

end Smack.Math
