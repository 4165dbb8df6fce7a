/-
C75: the C mathematics library model meets the C standard.
-/
import Verif.Math.Lemmas

namespace Smack.Math

variable {F : Fmt} {E : Env F}

/-- `1.5` and such in units of `Fmt.float`. -/
local notation "F32" => Fmt.float

/-! ## The numbers -/

/-- **C75, the values**: the values considered are exactly those with an encoding. -/
theorem c75_values (hF : F.Ok) (v : Val) : v.Ok F ↔ ∃ b, decode F b = v :=
  ⟨fun h => ⟨encode F v, decode_encode hF h⟩, fun ⟨b, e⟩ => e ▸ decode_ok b⟩

example : decode F32 0x3fc00000#32 = .fin false (3 * 2 ^ 148) := by decide +kernel

/-- **C75, the assumptions can be met**: by IEEE rounding and encoding. -/
theorem c75_unit_exists (hF : F.Ok) (rm : RMode) : ∃ E : Env F, E.rm = rm ∧ E.Ieee ∧ E.Precise :=
  ⟨Env.std F rm, rfl, std_ieee (F := F) rm, std_precise hF rm⟩

example : Fmt.float.Ok ∧ Fmt.double.Ok ∧ Fmt.longDouble.Ok := ⟨float_ok, double_ok, longDouble_ok⟩

/-! ## Rounding functions -/

theorem roundsBy_rint (hF : F.Ok) (rm : RMode) : RoundsBy F (Smt.roundToIntegral F rm) (IsRint F rm) :=
  ⟨rfl, fun _ => rfl, fun s n h => ⟨_, rfl, rep_round hF h rm s, rint_spec hF rm s n⟩⟩

/-- **C75 for `floor`, `ceil`, `trunc`, `round`**: the greatest whole number not above, the least not below, the nearest toward zero, the
nearest with halfway cases away from zero; the sign is kept also for zero results, infinities and NaNs are kept. -/
theorem c75_rounding (hF : F.Ok) : RoundsBy F (floor F) (IsFloor F) ∧ RoundsBy F (ceil F) (IsCeil F) ∧ RoundsBy F (trunc F) (IsTrunc F) ∧
    RoundsBy F (round F) (IsRound F) :=
  ⟨roundsBy_rint hF .rtn, roundsBy_rint hF .rtp, roundsBy_rint hF .rtz, roundsBy_rint hF .rna⟩

/-- −1.5 -/
example : floor F32 (.fin true (3 * 2 ^ 148)) = .fin true (2 * 2 ^ 149) ∧ ceil F32 (.fin true (3 * 2 ^ 148)) = .fin true (1 * 2 ^ 149) ∧
    round F32 (.fin true (3 * 2 ^ 148)) = .fin true (2 * 2 ^ 149) ∧ trunc F32 (.fin true 5) = .fin true 0 := by decide +kernel

/-- **C75 for `rint` and `nearbyint`**: rounding in the current mode. -/
theorem c75_rint (hF : F.Ok) : RoundsBy F (rint E) (IsRint F E.rm) := roundsBy_rint hF E.rm

/-- 2.5 to 2 -/
example : rint (Env.std F32 .rne) (.fin false (5 * 2 ^ 148)) = .fin false (2 * 2 ^ 149) := by decide +kernel

theorem toSbv_of_integral {s : Bool} {k : Nat} (h : -(2 ^ 63) ≤ signed s k ∧ signed s k < 2 ^ 63) :
    Smt.toSbv E (.fin s (k * F.one)) = signed s k := by
  unfold Smt.toSbv
  simp only [Nat.mul_div_cancel _ (one_pos (F := F)), int_eq]
  rw [if_pos h]

theorem rint_long (hF : F.Ok) (rm : RMode) (s : Bool) (n : Nat) : ∃ w : Int, IsRint F rm (signed s n) (w * F.one) ∧
    (-(2 ^ 63) ≤ w → w < 2 ^ 63 → Smt.toSbv E (Smt.roundToIntegral F rm (.fin s n)) = w) := by
  refine ⟨signed s (if rm.up s (n / F.one) (n % F.one) F.one then n / F.one + 1 else n / F.one), ?_, fun h1 h2 => toSbv_of_integral ⟨h1, h2⟩⟩
  have := rint_spec hF rm s n
  generalize (if rm.up s (n / F.one) (n % F.one) F.one then n / F.one + 1 else n / F.one) = k at *
  have e : signed s (k * F.one) = signed s k * F.one := by
    cases s <;> simp [signed, Int.neg_mul]
  rwa [e] at this

/-- **C75 for `lround` and `lrint`**: the same as a `long`, whenever it fits (otherwise C leaves the result unspecified). -/
theorem c75_lround (hF : F.Ok) (s : Bool) (n : Nat) :
    (∃ w : Int, IsRound F (signed s n) (w * 2 ^ (F.m + 2 ^ (F.e - 1) - 2)) ∧ (-(2 ^ 63) ≤ w → w < 2 ^ 63 → lround E (.fin s n) = w)) ∧
    (∃ w : Int, IsRint F E.rm (signed s n) (w * 2 ^ (F.m + 2 ^ (F.e - 1) - 2)) ∧ (-(2 ^ 63) ≤ w → w < 2 ^ 63 → lrint E (.fin s n) = w)) := by
  have e : ((F.one : Nat) : Int) = 2 ^ (F.m + 2 ^ (F.e - 1) - 2) := by
    rw [unit_eq hF]; unfold Fmt.one; simp
  rw [← e]
  exact ⟨rint_long hF .rna s n, rint_long hF E.rm s n⟩

example : lround (Env.std F32 .rtz) (.fin true (5 * 2 ^ 148)) = -3 ∧ lrint (Env.std F32 .rtz) (.fin true (5 * 2 ^ 148)) = -2 := by
  decide +kernel

/-! ## Remainders -/

/-- **C75 for `remainder`**: `x - k * y` for the whole number `k` nearest to `x / y`, even if two are; a zero has the sign of `x`; the
result is exact. Infinite `x`, zero `y` and NaNs give NaN; infinite `y` gives `x`. -/
theorem c75_remainder {s t : Bool} {a b : Nat} (ha : Rep F a) (hb : Rep F b) (h0 : 0 < b) :
    ∃ (u : Bool) (r : Nat) (k : Int), remainder (.fin s a) (.fin t b) = .fin u r ∧ Rep F r ∧ signed u r = signed s a - k * signed t b ∧
      2 * r ≤ b ∧ (2 * r = b → k % 2 = 0) ∧ (r = 0 → u = s) := by
  have hd := Nat.div_add_mod a b
  have hlt := Nat.mod_lt a h0
  have hk : ∀ q : Nat, signed s (b * q) = (signed s 1 * signed t 1 * (q : Int)) * signed t b := by
    intro q
    cases s <;> cases t <;> simp [signed, Int.mul_comm, Int.mul_neg]
  have h2 : ∀ q : Nat, q % 2 = 0 → (signed s 1 * signed t 1 * (q : Int)) % 2 = 0 := by
    intro q h
    have : signed s 1 * signed t 1 = 1 ∨ signed s 1 * signed t 1 = -1 := by cases s <;> cases t <;> simp [signed]
    rcases this with e | e <;> rw [e] <;> omega
  have hb0 : b ≠ 0 := by omega
  unfold remainder Smt.rem
  simp only [if_neg hb0]
  by_cases hup : RMode.rne.up s (a / b) (a % b) b = true
  · rw [if_pos hup]
    have hc : b < 2 * (a % b) ∨ (2 * (a % b) = b ∧ a / b % 2 = 1) := by
      simpa [RMode.up] using hup
    refine ⟨!s, b - a % b, signed s 1 * signed t 1 * ((a / b + 1 : Nat) : Int), rfl, (rep_mod ha hb h0).2 (by omega), ?_, by omega, ?_, by omega⟩
    · rw [← hk (a / b + 1)]
      rw [Nat.mul_add, Nat.mul_one]
      generalize b * (a / b) = x at *
      cases s <;> simp only [signed, Bool.not_true, Bool.not_false, if_true, if_false, Bool.false_eq_true] <;> omega
    · intro h
      exact h2 _ (by omega)
  · rw [if_neg hup]
    have hc : ¬ b < 2 * (a % b) ∧ ¬ (2 * (a % b) = b ∧ a / b % 2 = 1) := by
      simpa [RMode.up] using hup
    refine ⟨s, a % b, signed s 1 * signed t 1 * ((a / b : Nat) : Int), rfl, (rep_mod ha hb h0).1, ?_, by omega, ?_, fun _ => rfl⟩
    · rw [← hk (a / b)]
      generalize b * (a / b) = x at *
      cases s <;> simp only [signed, if_true, if_false, Bool.false_eq_true] <;> omega
    · intro h
      exact h2 _ (by omega)

/-- Special cases of `remainder`. -/
theorem c75_remainder_special (x y : Val) (s t : Bool) (a : Nat) : remainder .nan y = .nan ∧ remainder x .nan = .nan ∧
    remainder (.inf s) y = .nan ∧ remainder x (.fin t 0) = .nan ∧ remainder (.fin s a) (.inf t) = .fin s a := by
  refine ⟨rfl, ?_, ?_, ?_, rfl⟩
  · cases x <;> rfl
  · cases y <;> rfl
  · cases x <;> rfl

/-- `remainder(5, 3) = -1`, `remainder(-1, 2) = -1`. -/
example : remainder (.fin false (5 * 2 ^ 149)) (.fin false (3 * 2 ^ 149)) = .fin true (2 ^ 149) ∧
    remainder (.fin true (2 ^ 149)) (.fin false (2 ^ 150)) = .fin true (2 ^ 149) := by decide +kernel

theorem copysign_fin (hE : E.Precise) {s t : Bool} {n : Nat} {y : Val} (hx : Rep F n) (hy : y.Ok F) (ht : SignIs y t) :
    copysign E (.fin s n) y = .fin t n := by
  have hyn : y ≠ .nan := by rintro rfl; exact ht
  have hys : sign y = t := by cases y <;> first | exact absurd rfl hyn | exact ht
  unfold copysign
  rw [signbit_eq hE (v := .fin s n) hx (by simp), signbit_eq hE hy hyn, hys]
  show (if ((if s then 1 else 0) != (if t then 1 else 0)) then _ else _) = _
  rw [flip_eq hE (v := .fin s n) hx]
  cases s <;> cases t <;> rfl

theorem copysign_inf (hE : E.Precise) {s t : Bool} {y : Val} (hy : y.Ok F) (ht : SignIs y t) : copysign E (.inf s) y = .inf t := by
  have hyn : y ≠ .nan := by rintro rfl; exact ht
  have hys : sign y = t := by cases y <;> first | exact absurd rfl hyn | exact ht
  unfold copysign
  rw [signbit_eq hE (v := .inf s) trivial (by simp), signbit_eq hE hy hyn, hys]
  show (if ((if s then 1 else 0) != (if t then 1 else 0)) then _ else _) = _
  rw [flip_eq hE (v := .inf s) trivial]
  cases s <;> cases t <;> rfl

/-- **C75 for `fmod`**, in every rounding mode: `x - k * y` with the sign of `x` and magnitude less than that of `y`, exactly. -/
theorem c75_fmod (hE : E.Ieee) (hP : E.Precise) {s t : Bool} {a b : Nat} (ha : Rep F a) (hb : Rep F b) (h0 : 0 < b) :
    ∃ (r : Nat) (k : Int), fmod E (.fin s a) (.fin t b) = .fin s r ∧ Rep F r ∧ r < b ∧ signed s r = signed s a - k * signed t b := by
  have hd := Nat.div_add_mod a b
  have hlt := Nat.mod_lt a h0
  refine ⟨a % b, signed s 1 * signed t 1 * ((a / b : Nat) : Int), ?_, (rep_mod ha hb h0).1, hlt, ?_⟩
  · have hb0 : b ≠ 0 := by omega
    have hz : iszero (.fin t b) = 0 := by
      unfold iszero
      match b, hb0 with
      | b + 1, _ => rfl
    have key : (if signbit E (remainder (.fin false a) (.fin false b)) != 0
        then Smt.add E E.rm (remainder (.fin false a) (.fin false b)) (.fin false b) else remainder (.fin false a) (.fin false b)) =
        .fin false (a % b) := by
      unfold remainder Smt.rem
      simp only [if_neg hb0]
      by_cases hup : RMode.rne.up false (a / b) (a % b) b = true
      · have hc : b < 2 * (a % b) ∨ (2 * (a % b) = b ∧ a / b % 2 = 1) := by
          simpa [RMode.up] using hup
        rw [if_pos hup, signbit_eq hP (v := .fin (!false) (b - a % b)) ((rep_mod ha hb h0).2 (by omega)) (by simp)]
        show Smt.add E E.rm (.fin true (b - a % b)) (.fin false b) = _
        unfold Smt.add
        have e : Smt.int true (b - a % b) + Smt.int false b = ((a % b : Nat) : Int) := by
          simp only [Smt.int]; omega
        simp only [e]
        rw [if_neg (by omega), decide_eq_false (by omega)]
        exact hE.exact _ _ _ (by omega) (rep_mod ha hb h0).1
      · rw [if_neg hup, signbit_eq hP (v := .fin false (a % b)) (rep_mod ha hb h0).1 (by simp)]
        rfl
    unfold fmod
    rw [hz]
    show copysign E (if signbit E (remainder (.fin false a) (.fin false b)) != 0
        then Smt.add E E.rm (remainder (.fin false a) (.fin false b)) (.fin false b) else remainder (.fin false a) (.fin false b)) _ = _
    rw [key]
    exact copysign_fin hP (rep_mod ha hb h0).1 (y := .fin s a) ha rfl
  · have : signed s 1 * signed t 1 * ((a / b : Nat) : Int) * signed t b = signed s (b * (a / b)) := by
      cases s <;> cases t <;> simp [signed, Int.mul_comm, Int.mul_neg]
    rw [this]
    generalize b * (a / b) = x at *
    cases s <;> simp only [signed, if_true, if_false, Bool.false_eq_true] <;> omega

/-- Special cases of `fmod`. -/
theorem c75_fmod_special (hP : E.Precise) {x y : Val} {s t : Bool} {a : Nat} (ha : Rep F a) : fmod E .nan y = .nan ∧ fmod E x .nan = .nan ∧
    fmod E (.inf s) y = .nan ∧ fmod E x (.fin t 0) = .nan ∧ fmod E (.fin s a) (.inf t) = .fin s a := by
  refine ⟨rfl, ?_, ?_, ?_, ?_⟩
  · cases x <;> rfl
  · cases y with
    | fin u b => cases b <;> rfl
    | _ => rfl
  · cases x <;> rfl
  · show copysign E (if signbit E (.fin false a) != 0 then _ else (.fin false a)) _ = _
    rw [signbit_eq hP (v := .fin false a) ha (by simp)]
    exact copysign_fin hP ha (y := .fin s a) ha rfl

/-- `fmod(-5, 3) = -2`. -/
example : fmod (Env.std F32 .rtp) (.fin true (5 * 2 ^ 149)) (.fin false (3 * 2 ^ 149)) = .fin true (2 * 2 ^ 149) := by decide +kernel

/-- **C75 fails for the LLVM instruction `frem`**, translated to the IEEE remainder: it agrees with `fmod` only if the quotient is not rounded
up. -/
theorem c75_frem_fails (hE : E.Ieee) (hP : E.Precise) {s t : Bool} {a b : Nat} (ha : Rep F a) (hb : Rep F b) (h0 : 0 < b) :
    frem (.fin s a) (.fin t b) = fmod E (.fin s a) (.fin t b) ↔ (2 * (a % b) < b ∨ (2 * (a % b) = b ∧ a / b % 2 = 0)) := by
  have hlt := Nat.mod_lt a h0
  have hb0 : b ≠ 0 := by omega
  obtain ⟨r, k, e, _, hr, hk⟩ := c75_fmod hE hP (s := s) (t := t) ha hb h0
  rw [e]
  have hra : r = a % b := by
    have hdvd : (b : Int) ∣ (a : Int) - r := by
      have : (b : Int) ∣ signed t b := by cases t <;> simp [signed]
      have h2 : (b : Int) ∣ signed s a - signed s r := by
        rw [hk, show signed s a - (signed s a - k * signed t b) = k * signed t b by omega]
        exact Int.dvd_trans this (Int.dvd_mul_left _ _)
      cases s
      · simpa [signed] using h2
      · have := Int.dvd_neg.mpr h2
        simp only [signed, if_true] at this
        rwa [show -(-(a : Int) - -(r : Int)) = (a : Int) - r by omega] at this
    have h3 : ((a : Int) - r) % b = 0 := Int.emod_eq_zero_of_dvd hdvd
    have h4 := Int.emod_emod_of_dvd
    have h5 : (a : Int) % b = (r : Int) % b := Int.emod_eq_emod_iff_emod_sub_eq_zero.mpr h3
    have h6 : ((a % b : Nat) : Int) = ((r % b : Nat) : Int) := by simpa using h5
    rw [Nat.mod_eq_of_lt hr] at h6
    omega
  subst hra
  unfold frem Smt.rem
  simp only [if_neg hb0]
  by_cases hup : RMode.rne.up s (a / b) (a % b) b = true
  · have hc : b < 2 * (a % b) ∨ (2 * (a % b) = b ∧ a / b % 2 = 1) := by simpa [RMode.up] using hup
    rw [if_pos hup]
    constructor
    · intro h
      exfalso
      have h1 := (Val.fin.inj h).1
      revert h1; cases s <;> decide
    · intro h; omega
  · have hc : ¬ b < 2 * (a % b) ∧ ¬ (2 * (a % b) = b ∧ a / b % 2 = 1) := by simpa [RMode.up] using hup
    rw [if_neg hup]
    refine ⟨fun _ => by omega, fun _ => rfl⟩

/-- `5 % 3` is `-1` in the translation. -/
example : frem (.fin false (5 * 2 ^ 149)) (.fin false (3 * 2 ^ 149)) ≠ fmod (Env.std F32 .rne) (.fin false (5 * 2 ^ 149)) (.fin false (3 * 2 ^ 149)) := by
  decide +kernel

/-- **C75 for `modf`**, in every rounding mode: whole part and fractional part, both with the sign of `x`, exactly. -/
theorem c75_modf (hF : F.Ok) (hE : E.Ieee) (hP : E.Precise) (s : Bool) {n : Nat} (hn : Rep F n) :
    (∃ k r, modf E (.fin s n) = (.fin s r, .fin s k) ∧ Rep F k ∧ Rep F r ∧ IsTrunc F (signed s n) (signed s k) ∧
      signed s n = signed s k + signed s r) ∧
    modf E (.inf s) = (.fin s 0, .inf s) ∧ modf E .nan = (.nan, .nan) := by
  have hd := Nat.div_add_mod n F.one
  have hr : Rep F (n % F.one) := (rep_mod hn (rep_one hF) one_pos).1
  have hk : Rep F (n / F.one * F.one) := rep_round hF hn .rtz s
  have ht := rint_spec hF .rtz s n
  refine ⟨⟨n / F.one * F.one, n % F.one, ?_, hk, hr, ht, ?_⟩, ?_, rfl⟩
  · have hs : signbit E (.fin s n) = if s then 1 else 0 := signbit_eq hP (v := .fin s n) hn (by simp)
    have hi : isinf (.fin s n) = 0 := rfl
    have e : Smt.sub E E.rm (.fin s n) (trunc F (.fin s n)) = if n % F.one = 0 then .fin (E.rm == .rtn) 0 else .fin s (n % F.one) := by
      show Smt.add E E.rm (.fin s n) (.fin (!s) (n / F.one * F.one)) = _
      unfold Smt.add
      simp only
      rw [Nat.mul_comm]
      generalize n / F.one = q at *
      generalize n % F.one = r at *
      subst hd
      by_cases h0 : r = 0
      · rw [if_pos h0, if_pos (by cases s <;> simp only [Smt.int, Bool.not_true, Bool.not_false] <;> omega)]
        cases s <;> rfl
      · rw [if_neg h0, if_neg (by cases s <;> simp only [Smt.int, Bool.not_true, Bool.not_false] <;> omega)]
        have e1 : (Smt.int s (F.one * q + r) + Smt.int (!s) (F.one * q)).natAbs = r := by
          cases s <;> simp only [Smt.int, Bool.not_true, Bool.not_false] <;> omega
        have e2 : decide (Smt.int s (F.one * q + r) + Smt.int (!s) (F.one * q) < 0) = s := by
          cases s <;> simp only [Smt.int, Bool.not_true, Bool.not_false] <;> simp <;> omega
        rw [e1, e2]
        exact hE.exact _ _ _ (by omega) hr
    unfold modf
    simp only [hi, hs, e]
    by_cases h0 : n % F.one = 0
    · simp only [if_pos h0]
      rw [h0]
      cases s <;> rfl
    · simp only [if_neg h0]
      have : iszero (.fin s (n % F.one)) = 0 := by
        unfold iszero
        match n % F.one, h0 with
        | k + 1, _ => rfl
      show ((if iszero (.fin s (n % F.one)) != 0 then _ else (Val.fin s (n % F.one))), Val.fin s (n / F.one * F.one)) = _
      rw [this]
      rfl
  · rw [Nat.mul_comm] at hd
    generalize n / F.one * F.one = x at *
    cases s <;> simp only [signed, if_true, if_false, Bool.false_eq_true] <;> omega
  · have hs : signbit E (.inf s) = if s then 1 else 0 := signbit_eq hP (v := .inf s) trivial (by simp)
    have hi : isinf (.inf s) = 1 := rfl
    unfold modf
    simp only [hi, hs]
    cases s <;> rfl

/-- `modf(-2.5)`, `modf(-2)`. -/
example : modf (Env.std F32 .rtn) (.fin true (5 * 2 ^ 148)) = (.fin true (2 ^ 148), .fin true (2 * 2 ^ 149)) ∧
    modf (Env.std F32 .rtn) (.fin false (2 ^ 150)) = (.fin false 0, .fin false (2 ^ 150)) := by decide +kernel

/-! ## Minimum, maximum, positive difference -/

theorem lt_iff {x y : Val} : Smt.lt x y = true ↔ Below x y := by
  cases x <;> cases y <;> simp [Smt.lt, Below, int_eq]

theorem below_asymm {x y : Val} (h : Below x y) : ¬ Below y x := by
  cases x <;> cases y <;> simp only [Below] at * <;> first | (intro h2; simp_all; done) | omega

/-- **C75 for `fmin` and `fmax`**: the smaller and the larger argument; a single NaN is ignored. Either zero may be taken for zeros of
different sign. -/
theorem c75_fmin_fmax (x y : Val) :
    (fmin E x .nan = x ∧ fmin E .nan y = y ∧ fmax E x .nan = x ∧ fmax E .nan y = y) ∧
    (x ≠ .nan → y ≠ .nan → ((fmin E x y = x ∨ fmin E x y = y) ∧ ¬ Below x (fmin E x y) ∧ ¬ Below y (fmin E x y)) ∧
      ((fmax E x y = x ∨ fmax E x y = y) ∧ ¬ Below (fmax E x y) x ∧ ¬ Below (fmax E x y) y)) := by
  have irr : ∀ v, ¬ Below v v := fun v h => below_asymm h h
  refine ⟨⟨?_, ?_, ?_, ?_⟩, fun hx hy => ?_⟩
  · cases x <;> rfl
  · cases y <;> rfl
  · cases x <;> rfl
  · cases y <;> rfl
  · have gen : (¬ ∃ s t, x = .fin s 0 ∧ y = .fin t 0) →
        fmin E x y = (if Smt.lt x y then x else y) ∧ fmax E x y = (if Smt.lt x y then y else x) := by
      intro h
      cases x with
      | nan => exact absurd rfl hx
      | inf s => cases y <;> first | exact absurd rfl hy | exact ⟨rfl, rfl⟩
      | fin s a =>
        cases y with
        | nan => exact absurd rfl hy
        | inf t => cases a <;> exact ⟨rfl, rfl⟩
        | fin t b =>
          cases a with
          | zero =>
            cases b with
            | zero => exact absurd ⟨s, t, rfl, rfl⟩ h
            | succ b => exact ⟨rfl, rfl⟩
          | succ a => cases b <;> exact ⟨rfl, rfl⟩
    by_cases h : ∃ s t, x = .fin s 0 ∧ y = .fin t 0
    · obtain ⟨s, t, rfl, rfl⟩ := h
      have e1 : fmin E (.fin s 0) (.fin t 0) = if s = t then .fin s 0 else .fin (E.zmin s t) 0 := rfl
      have e2 : fmax E (.fin s 0) (.fin t 0) = if s = t then .fin s 0 else .fin (E.zmax s t) 0 := rfl
      rw [e1, e2]
      have z : ∀ u v, ¬ Below (.fin u 0) (.fin v 0) := by
        intro u v; cases u <;> cases v <;> simp [Below, signed]
      have two : ∀ c, (if s = t then Val.fin s 0 else .fin c 0) = .fin s 0 ∨ (if s = t then Val.fin s 0 else .fin c 0) = .fin t 0 := by
        intro c; cases s <;> cases t <;> cases c <;> simp
      have hz : ∀ c, ∃ u, (if s = t then Val.fin s 0 else .fin c 0) = .fin u 0 := by
        intro c; split <;> exact ⟨_, rfl⟩
      refine ⟨⟨two _, ?_, ?_⟩, ⟨two _, ?_, ?_⟩⟩
      · obtain ⟨u, hu⟩ := hz (E.zmin s t); rw [hu]; exact z _ _
      · obtain ⟨u, hu⟩ := hz (E.zmin s t); rw [hu]; exact z _ _
      · obtain ⟨u, hu⟩ := hz (E.zmax s t); rw [hu]; exact z _ _
      · obtain ⟨u, hu⟩ := hz (E.zmax s t); rw [hu]; exact z _ _
    · obtain ⟨e1, e2⟩ := gen h
      rw [e1, e2]
      by_cases hl : Smt.lt x y = true
      · rw [if_pos hl, if_pos hl]
        rw [lt_iff] at hl
        exact ⟨⟨Or.inl rfl, irr _, below_asymm hl⟩, ⟨Or.inr rfl, below_asymm hl, irr _⟩⟩
      · rw [if_neg hl, if_neg hl]
        rw [lt_iff] at hl
        exact ⟨⟨Or.inr rfl, hl, irr _⟩, ⟨Or.inl rfl, irr _, hl⟩⟩

example : fmin (Env.std F32 .rne) (.fin true 5) (.fin false 3) = .fin true 5 ∧ fmax (Env.std F32 .rne) .nan (.inf true) = .inf true := by decide

/-- **C75 for `fdim`**: the rounded difference if `y` is below `x`, otherwise zero; NaN for NaNs. Missing: that the zero is `+0`. -/
theorem c75_fdim_partial (hE : E.Ieee) (x y : Val) :
    fdim E .nan y = .nan ∧ fdim E x .nan = .nan ∧
    (Below y x → fdim E x y = Smt.sub E E.rm x y) ∧ (x ≠ .nan → y ≠ .nan → ¬ Below y x → ∃ s, fdim E x y = .fin s 0) := by
  refine ⟨rfl, ?_, fun h => ?_, fun hx hy h => ?_⟩
  · cases x <;> rfl
  · have hx : x ≠ .nan := by rintro rfl; cases y <;> exact h
    have hy : y ≠ .nan := by rintro rfl; exact h
    have e : fdim E x y = fmax E (.fin false 0) (Smt.sub E E.rm x y) := by
      cases x <;> cases y <;> first | exact absurd rfl hx | exact absurd rfl hy | rfl
    rw [e]
    cases x with
    | nan => exact absurd rfl hx
    | inf s =>
      cases y with
      | nan => exact absurd rfl hy
      | inf t =>
        obtain ⟨h1, h2⟩ := h
        subst h1 h2; rfl
      | fin t b => cases (show s = false from h); rfl
    | fin s a =>
      cases y with
      | nan => exact absurd rfl hy
      | inf t => cases (show t = true from h); rfl
      | fin t b =>
        have hz : signed t b < signed s a := h
        have e1 : Smt.int s a + Smt.int (!t) b = signed s a - signed t b := by
          cases s <;> cases t <;> simp only [Smt.int, signed, Bool.not_true, Bool.not_false, if_true, if_false, Bool.false_eq_true] <;> omega
        have e2 : Smt.sub E E.rm (.fin s a) (.fin t b) = E.rnd E.rm false (signed s a - signed t b).natAbs := by
          show Smt.add E E.rm (.fin s a) (.fin (!t) b) = _
          unfold Smt.add
          simp only [e1]
          rw [if_neg (by omega), decide_eq_false (by omega)]
        rw [e2]
        rcases hE.sign E.rm false (signed s a - signed t b).natAbs (by omega) with e3 | ⟨k, hk, e3⟩
        · rw [e3]; rfl
        · rw [e3]
          match k, hk with
          | k + 1, _ =>
            show (if Smt.lt (.fin false 0) (.fin false (k + 1)) then _ else _) = _
            rw [if_pos (by simp only [Smt.lt, Smt.int]; exact decide_eq_true (by omega))]
  · have e : fdim E x y = fmax E (.fin false 0) (Smt.sub E E.rm x y) := by
      cases x <;> cases y <;> first | exact absurd rfl hx | exact absurd rfl hy | rfl
    rw [e]
    cases x with
    | nan => exact absurd rfl hx
    | inf s =>
      cases y with
      | nan => exact absurd rfl hy
      | inf t =>
        cases s <;> cases t
        · exact ⟨false, rfl⟩
        · exact absurd ⟨rfl, rfl⟩ h
        · exact ⟨false, rfl⟩
        · exact ⟨false, rfl⟩
      | fin t b =>
        cases s
        · exact absurd rfl h
        · exact ⟨false, rfl⟩
    | fin s a =>
      cases y with
      | nan => exact absurd rfl hy
      | inf t =>
        cases t
        · exact ⟨false, rfl⟩
        · exact absurd rfl h
      | fin t b =>
        have hz : ¬ signed t b < signed s a := h
        have e1 : Smt.int s a + Smt.int (!t) b = signed s a - signed t b := by
          cases s <;> cases t <;> simp only [Smt.int, signed, Bool.not_true, Bool.not_false, if_true, if_false, Bool.false_eq_true] <;> omega
        have e2 : Smt.sub E E.rm (.fin s a) (.fin t b) = if signed s a - signed t b = 0 then .fin (if s = !t then s else E.rm == .rtn) 0
            else E.rnd E.rm (decide (signed s a - signed t b < 0)) (signed s a - signed t b).natAbs := by
          show Smt.add E E.rm (.fin s a) (.fin (!t) b) = _
          unfold Smt.add
          simp only [e1]
        rw [e2]
        by_cases h0 : signed s a - signed t b = 0
        · rw [if_pos h0]
          generalize (if s = !t then s else E.rm == .rtn) = c
          show ∃ u, (if false = c then Val.fin false 0 else .fin (E.zmax false c) 0) = .fin u 0
          split
          · exact ⟨_, rfl⟩
          · exact ⟨_, rfl⟩
        · rw [if_neg h0, decide_eq_true (by omega)]
          rcases hE.sign E.rm true (signed s a - signed t b).natAbs (by omega) with e3 | ⟨k, hk, e3⟩
          · rw [e3]; exact ⟨false, rfl⟩
          · rw [e3]
            match k, hk with
            | k + 1, _ =>
              show ∃ u, (if Smt.lt (.fin false 0) (.fin true (k + 1)) then (Val.fin true (k + 1)) else (.fin false 0)) = Val.fin u 0
              rw [if_neg (by rw [lt_iff]; simp only [Below, signed, if_true, if_false, Bool.false_eq_true]; omega)]
              exact ⟨false, rfl⟩

example : fdim (Env.std F32 .rne) (.fin false 5) (.fin true 3) = .fin false 8 ∧ fdim (Env.std F32 .rne) (.fin true 5) (.inf false) = .fin false 0 ∧
    Below (.fin true 3) (.fin false 5) := by
  refine ⟨by decide +kernel, by decide +kernel, by simp [Below, signed]⟩

/-- **C75 fails for `fdim`**: `fdim(x, x)` when rounding downward, and `fdim(-0, +0)` in every mode, may be `-0`: SMT-LIB lets `fp.max(+0, -0)` be either zero. -/
theorem c75_fdim_fails (hF : F.Ok) (rm : RMode) : ∃ E : Env F, E.Ieee ∧ E.Precise ∧ E.rm = rm ∧ fdim E (.fin true 0) (.fin false 0) = .fin true 0 ∧
    (rm = .rtn → ∀ s n, fdim E (.fin s n) (.fin s n) = .fin true 0) := by
  refine ⟨{ Env.std F rm with zmax := fun _ _ => true }, ⟨(std_ieee (F := F) rm).1, (std_ieee (F := F) rm).2⟩, ⟨(std_precise hF rm).1, (std_precise hF rm).2⟩,
    rfl, rfl, ?_⟩
  rintro rfl s n
  show fmax _ (.fin false 0) (Smt.add _ RMode.rtn (.fin s n) (.fin (!s) n)) = _
  unfold Smt.add
  simp only
  rw [if_pos (by cases s <;> simp only [Smt.int, Bool.not_true, Bool.not_false] <;> omega), if_neg (by cases s <;> decide)]
  rfl

example : Fmt.double.Ok := double_ok

/-! ## Signs -/

/-- **C75 for `signbit` and `copysign`** with the bit-vector encoding: the sign, and `x` with the sign of `y`, unless NaNs are involved. -/
theorem c75_sign (hP : E.Precise) {x y : Val} {t : Bool} (hx : x.Ok F) (hy : y.Ok F) (ht : SignIs y t) :
    (signbit E y = if t then 1 else 0) ∧ copysign E x y = (match x with | .nan => .nan | .inf _ => .inf t | .fin _ n => .fin t n) := by
  have hyn : y ≠ .nan := by rintro rfl; exact ht
  have hys : sign y = t := by cases y <;> first | exact absurd rfl hyn | exact ht
  refine ⟨by rw [signbit_eq hP hy hyn, hys], ?_⟩
  cases x with
  | nan =>
    unfold copysign
    rw [flip_eq hP (v := .nan) trivial]
    simp only [Smt.neg]
    split <;> rfl
  | inf s => exact copysign_inf hP hy ht
  | fin s n => exact copysign_fin hP hx hy ht

example : copysign (Env.std F32 .rne) (.fin false 7) (.inf true) = .fin true 7 ∧ signbit (Env.std F32 .rne) (.fin true 0) = 1 := by decide +kernel

/-- **C75 fails for signs of NaNs**: SMT-LIB has one NaN, so no choice of `signbit(NaN)` fits all. -/
theorem c75_nan_sign_fails (hF : F.Ok) (hP : E.Precise) : ∃ b : F.Bits, decode F b = .nan ∧
    signbit E (E.unbits b) ≠ if b.getLsbD (F.e + F.m) then 1 else 0 := by
  have h1 : decode F (encode F .nan) = .nan := decode_encode hF (v := .nan) trivial
  have h2 := decode_flip (F := F) (encode F .nan)
  rw [h1] at h2
  have h3 : (encode F .nan ^^^ BitVec.twoPow _ (F.e + F.m)).getLsbD (F.e + F.m) = !(encode F .nan).getLsbD (F.e + F.m) := by
    rw [BitVec.getLsbD_xor, twoPow_getLsbD (by omega)]; simp
  by_cases h : signbit E .nan = if (encode F .nan).getLsbD (F.e + F.m) then 1 else 0
  · refine ⟨_, h2, ?_⟩
    rw [hP.dec, h2, h3]
    show signbit E .nan ≠ _
    rw [h]
    cases (encode F .nan).getLsbD (F.e + F.m) <;> decide
  · refine ⟨_, h1, ?_⟩
    rw [hP.dec, h1]
    exact h

example : (Env.std F32 .rne).Precise := std_precise float_ok _

/-- **C75 fails with the integer encoding**, where the bits of a number are unconstrained: `signbit(1)` may be 1 and `fmod(3, 2)` may be −1. -/
theorem c75_encoding_fails : ∃ E : Env Fmt.float, E.Ieee ∧ signbit E (.fin false (2 ^ 149)) = 1 ∧
    fmod E (.fin false (3 * 2 ^ 149)) (.fin false (2 * 2 ^ 149)) = .fin true (2 ^ 149) :=
  ⟨{ Env.std Fmt.float .rne with bits := fun v => if v = .fin false (2 ^ 149) then BitVec.twoPow _ 31 else 0#_ },
    ⟨(std_ieee (F := Fmt.float) .rne).1, (std_ieee (F := Fmt.float) .rne).2⟩, by decide +kernel, by decide +kernel⟩

/-! ## Classification -/

/-- **C75 for the classification macros**: NaN, infinity, zero, subnormal (below `2 ^ m` units) and normal, and the derived ones. -/
theorem c75_fpclassify (s : Bool) (n : Nat) :
    (fpclassify F .nan = FP_NAN ∧ fpclassify F (.inf s) = FP_INFINITE ∧ fpclassify F (.fin s 0) = FP_ZERO ∧
      (0 < n → n < 2 ^ F.m → fpclassify F (.fin s n) = FP_SUBNORMAL) ∧ (2 ^ F.m ≤ n → fpclassify F (.fin s n) = FP_NORMAL)) ∧
    [FP_NAN, FP_INFINITE, FP_ZERO, FP_SUBNORMAL, FP_NORMAL].Nodup := by
  refine ⟨⟨rfl, rfl, rfl, ?_, ?_⟩, by decide⟩
  · intro h1 h2
    match n, h1 with
    | n + 1, _ => simp [fpclassify, isnan, isinf, iszero, issubnormal, Smt.isNaN, Smt.isInfinite, Smt.isZero, Smt.isSubnormal, h2]
  · intro h1
    have : 0 < 2 ^ F.m := Nat.two_pow_pos _
    match n, (show 0 < n by omega) with
    | n + 1, _ =>
      simp [fpclassify, isnan, isinf, iszero, issubnormal, Smt.isNaN, Smt.isInfinite, Smt.isZero, Smt.isSubnormal]
      omega

/-- The single macros agree with `fpclassify`. -/
theorem c75_classes {x : Val} : (isnan x ≠ 0 ↔ fpclassify F x = FP_NAN) ∧ (isinf x ≠ 0 ↔ fpclassify F x = FP_INFINITE) ∧
    (isnormal F x ≠ 0 ↔ fpclassify F x = FP_NORMAL) ∧ (finite x ≠ 0 ↔ fpclassify F x ≠ FP_NAN ∧ fpclassify F x ≠ FP_INFINITE) := by
  have hp : 0 < 2 ^ F.m := Nat.two_pow_pos _
  cases x with
  | nan =>
    have e : fpclassify F .nan = FP_NAN := rfl
    simp [e, isnan, isinf, isnormal, finite, Smt.isNaN, Smt.isInfinite, Smt.isNormal, FP_NAN, FP_INFINITE, FP_NORMAL]
  | inf s =>
    have e : fpclassify F (.inf s) = FP_INFINITE := rfl
    simp [e, isnan, isinf, isnormal, finite, Smt.isNaN, Smt.isInfinite, Smt.isNormal, FP_NAN, FP_INFINITE, FP_NORMAL]
  | fin s n =>
    have c := c75_fpclassify (F := F) s n
    by_cases h0 : n = 0
    · subst h0
      rw [c.1.2.2.1]
      simp [isnan, isinf, isnormal, finite, Smt.isNaN, Smt.isInfinite, Smt.isNormal, FP_NAN, FP_INFINITE, FP_NORMAL, FP_ZERO]
    · by_cases h1 : n < 2 ^ F.m
      · rw [c.1.2.2.2.1 (by omega) h1]
        simp [isnan, isinf, isnormal, finite, Smt.isNaN, Smt.isInfinite, Smt.isNormal, FP_NAN, FP_INFINITE, FP_NORMAL, FP_SUBNORMAL, h1]
      · rw [c.1.2.2.2.2 (by omega)]
        simp [isnan, isinf, isnormal, finite, Smt.isNaN, Smt.isInfinite, Smt.isNormal, FP_NAN, FP_INFINITE, FP_NORMAL]
        omega

example : fpclassify F32 (.fin true 5) = FP_SUBNORMAL ∧ fpclassify F32 (.fin true (2 ^ 23)) = FP_NORMAL := by decide +kernel

/-- **C75 for `fabs`**. -/
theorem c75_fabs (s : Bool) (n : Nat) : fabs .nan = .nan ∧ fabs (.inf s) = .inf false ∧ fabs (.fin s n) = .fin false (signed s n).natAbs := by
  refine ⟨rfl, rfl, ?_⟩
  cases s <;> simp [fabs, Smt.abs, signed]

example : fabs (.fin true 5) = .fin false 5 := rfl

/-! ## Rounding modes -/

/-- **C75 for the rounding-mode functions**: setting a mode and asking for it; an invalid argument is refused and changes nothing; a mode with no
macro gives a negative number. -/
theorem c75_fenv {a ret : Int} {rm : RMode} (hr : ret < 0) :
    ((a = 0 ∨ a = 0x400 ∨ a = 0x800 ∨ a = 0xc00) → (fesetround a rm).1 = 0 ∧ fegetround ret (fesetround a rm).2 = a) ∧
    (¬ (a = 0 ∨ a = 0x400 ∨ a = 0x800 ∨ a = 0xc00) → (fesetround a rm).1 ≠ 0 ∧ (fesetround a rm).2 = rm) ∧
    (fegetround ret rm < 0 ∨ (fesetround (fegetround ret rm) rm).2 = rm) := by
  refine ⟨?_, ?_, ?_⟩
  · rintro (rfl | rfl | rfl | rfl) <;> exact ⟨rfl, rfl⟩
  · intro h
    have e : fesetround a rm = (1, rm) := by
      unfold fesetround FE_TONEAREST FE_DOWNWARD FE_UPWARD FE_TOWARDZERO
      rw [if_neg (by omega), if_neg (by omega), if_neg (by omega), if_neg (by omega)]
    rw [e]
    exact ⟨Nat.one_ne_zero ∘ (fun h => by cases h), rfl⟩
  · cases rm
    · right; rfl
    · left; exact hr
    · right; rfl
    · right; rfl
    · right; rfl

example : fesetround 0x800 .rne = (0, .rtp) ∧ fesetround 5 .rtz = (1, .rtz) := by decide

/-- **C75, the modes mean what the macros say**: `rint` after `fesetround` rounds to nearest even, down, up, or toward zero. -/
theorem c75_fesetround (hF : F.Ok) (old : RMode) :
    (∀ E : Env F, E.rm = (fesetround 0 old).2 → RoundsBy F (rint E) (IsNearestEven F)) ∧
    (∀ E : Env F, E.rm = (fesetround 0x400 old).2 → RoundsBy F (rint E) (IsFloor F)) ∧
    (∀ E : Env F, E.rm = (fesetround 0x800 old).2 → RoundsBy F (rint E) (IsCeil F)) ∧
    (∀ E : Env F, E.rm = (fesetround 0xc00 old).2 → RoundsBy F (rint E) (IsTrunc F)) := by
  refine ⟨?_, ?_, ?_, ?_⟩ <;> intro E h
  · have := c75_rint (E := E) hF; rw [show E.rm = .rne from h] at this; exact this
  · have := c75_rint (E := E) hF; rw [show E.rm = .rtn from h] at this; exact this
  · have := c75_rint (E := E) hF; rw [show E.rm = .rtp from h] at this; exact this
  · have := c75_rint (E := E) hF; rw [show E.rm = .rtz from h] at this; exact this

example : (Env.std F32 .rtp).rm = (fesetround 0x800 .rne).2 := rfl

/-! ## `long double` -/

/-- The x87 format of `long double`: 64-bit significands (explicit leading bit), 15-bit exponents. -/
def x87 : Fmt := ⟨15, 63⟩

/-- **C75 fails for `long double`**: `bvlongdouble` has a 65-bit significand, so `2 ^ 64 + 1` is a number of the model but not of the machine. -/
theorem c75_long_double_fails : Rep Fmt.longDouble ((2 ^ 64 + 1) * Fmt.longDouble.one) ∧
    ∀ k, Rep x87 k → k * Fmt.longDouble.one ≠ (2 ^ 64 + 1) * Fmt.longDouble.one * x87.one := by
  refine ⟨rep_one_mul longDouble_ok (by decide), fun k hk e => ?_⟩
  have h1 : k = (2 ^ 64 + 1) * x87.one := by
    rw [Nat.mul_assoc, Nat.mul_comm Fmt.longDouble.one, ← Nat.mul_assoc] at e
    exact Nat.eq_of_mul_eq_mul_right one_pos e
  obtain ⟨c, j, hc, _, rfl⟩ := hk
  have hc' : c < 2 ^ 64 := hc
  unfold Fmt.one at h1
  generalize x87.unit = u at h1
  rcases Nat.le_total j u with h | h
  · have : c = (2 ^ 64 + 1) * 2 ^ (u - j) := by
      have e2 : 2 ^ u = 2 ^ (u - j) * 2 ^ j := by rw [← Nat.pow_add, Nat.sub_add_cancel h]
      rw [e2, ← Nat.mul_assoc] at h1
      exact Nat.eq_of_mul_eq_mul_right (Nat.two_pow_pos _) h1
    have h2 : 0 < 2 ^ (u - j) := Nat.two_pow_pos _
    omega
  · have h3 : c * 2 ^ (j - u) = 2 ^ 64 + 1 := by
      have e2 : 2 ^ j = 2 ^ (j - u) * 2 ^ u := by rw [← Nat.pow_add, Nat.sub_add_cancel h]
      rw [e2, ← Nat.mul_assoc] at h1
      exact Nat.eq_of_mul_eq_mul_right (Nat.two_pow_pos _) h1
    rcases Nat.eq_zero_or_pos (j - u) with h4 | h4
    · rw [h4] at h3; omega
    · obtain ⟨i, hi⟩ : ∃ i, j - u = i + 1 := ⟨j - u - 1, by omega⟩
      rw [hi, Nat.pow_succ, ← Nat.mul_assoc] at h3
      omega

end Smack.Math
