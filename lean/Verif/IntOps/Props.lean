/-
Properties C01-C06: integer encodings.
-/
import Verif.IntOps.Lemmas

namespace Smack.IntOps

/-! ## C01 -/

/-- **C01.** Under the wrapped encoding, for every expression tree without signed division (all other integer
operators of LLVM that SMACK translates: add, sub, mul, udiv, urem, srem, min/max, trunc, zext, sext, the ten
comparisons, select and the `i1` connectives), of every width and for every assignment of (unnormalised)
integers `ρ` to the program variables, the value of the generated Boogie term is congruent modulo `2^w` to the
value LLVM assigns to the expression. LLVM's undefined behaviour (division by zero) is excluded by `evalBv = some v`;
`evalInt = some i` excludes a failed assertion of the translator (see `c01_total`).
Conditions of `select` and operands of `i1` connectives have to be truth values (`c01_select_fails` shows why). -/
theorem c01_wrapped_congruent (S : Smt) (ρ : Nat → Int) {w : Nat} (e : Expr w) (v : BitVec w) (i : Int)
    (hty : e.WellTyped) (hn : e.NormalCond ρ) (hs : e.NoSdiv)
    (hv : e.evalBv (fun n w => BitVec.ofInt w (ρ n)) = some v)
    (hi : e.evalInt S .wrapped ρ = some i) :
    BitVec.ofInt w i = v :=
  (wrapped_main S ρ _ (fun _ _ => rfl) e hty hn hs.exact v i hv hi).1

/-- A tree with wrap-around, comparison and truncation meets the hypotheses:
`(trunc8 (300 * x) <s y) ? x * x : zext8 y` with unnormalised variables. -/
example : let e : Expr 32 := .select
              (.icmp .slt (.trunc 8 (.mul (.lit true true 300#32) (.var 32 0))) (.var 8 1))
              (.mul (.var 32 0) (.var 32 0)) (.zext 32 (.var 8 1))
          e.WellTyped ∧ e.NormalCond (fun n => if n = 0 then 65536 else -129) ∧ e.NoSdiv ∧
          e.evalBv (fun n w => BitVec.ofInt w ((fun n => if n = 0 then 65536 else -129 : Nat → Int) n)) = some 0#32 ∧
          e.evalInt Smt.std .wrapped (fun n => if n = 0 then 65536 else -129) = some 4294967296 := by
  simp only [Expr.WellTyped, Expr.NormalCond, Expr.NoSdiv, Expr.Truth]
  decide

/-- **C01.** With constants of at most 64 bits the translator's assertions never fire, so the hypothesis
`evalInt = some i` can always be met. -/
theorem c01_total (S : Smt) (enc : Enc) (ρ : Nat → Int) {w : Nat} (e : Expr w) (h : e.NarrowLits) :
    ∃ i, e.evalInt S enc ρ = some i := evalInt_total S enc ρ e h

example : (Expr.add (.var 64 0) (.lit true false (-5#64))).NarrowLits := by
  simp [Expr.NarrowLits]

/-- **C01 with signed division (beyond the statement).** Signed divisions may occur as long as each of them has a
non-negative dividend or is exact. -/
theorem c01_wrapped_congruent_sdiv_exact (S : Smt) (ρ : Nat → Int) {w : Nat} (e : Expr w) (v : BitVec w) (i : Int)
    (hty : e.WellTyped) (hn : e.NormalCond ρ)
    (hs : e.SdivExact (fun n w => BitVec.ofInt w (ρ n)))
    (hv : e.evalBv (fun n w => BitVec.ofInt w (ρ n)) = some v)
    (hi : e.evalInt S .wrapped ρ = some i) :
    BitVec.ofInt w i = v :=
  (wrapped_main S ρ _ (fun _ _ => rfl) e hty hn hs v i hv hi).1

example : let e : Expr 8 := .sdiv (.var 8 0) (.lit false false 2#8)
    e.WellTyped ∧ e.NormalCond (fun _ => -6) ∧ e.SdivExact (fun _ w => BitVec.ofInt w (-6)) ∧
    e.evalBv (fun _ w => BitVec.ofInt w (-6)) = some (-3#8) := by
  refine ⟨by simp [Expr.WellTyped], by simp [Expr.NormalCond], ?_, by decide⟩
  refine ⟨trivial, trivial, ?_⟩
  intro x y hx hy
  simp only [Expr.evalBv, Option.some.injEq] at hx hy
  subst hx hy; decide

/-- Finding: `select` (and branch conditions) compare the `i1` operand with 1 without normalising it. The `i1`
sum `true + true + true` is true in LLVM, its integer value is 3, and the generated term picks the wrong arm. -/
theorem c01_select_fails : ∃ (e : Expr 8) (ρ : Nat → Int) (v : BitVec 8) (i : Int),
    e.WellTyped ∧ e.NoSdiv ∧ (∀ n, ρ n = 0 ∨ ρ n = 1) ∧
    e.evalBv (fun n w => BitVec.ofInt w (ρ n)) = some v ∧
    e.evalInt Smt.std .wrapped ρ = some i ∧ BitVec.ofInt 8 i ≠ v :=
  ⟨.select (.add (.add (.var 1 0) (.var 1 0)) (.var 1 0)) (.lit true true 7#8) (.lit true true 9#8),
    fun _ => 1, 7#8, 9, by simp [Expr.WellTyped], by simp [Expr.NoSdiv], fun _ => Or.inr rfl,
    by decide, by decide, by decide⟩

/-! ## C02 -/

/-- **C02 fails in full.** With both integer encodings the term for `sdiv` rounds towards minus infinity for negative
dividends and positive divisors: `-7 / 2` is `-4` instead of `-3`, and `quotient*divisor + remainder ≠ dividend`. -/
theorem c02_sdiv_fails : ∀ (S : Smt) (enc : Enc),
    sdiv S enc 32 (-7) 2 = -4 ∧ (-7 : Int).tdiv 2 = -3 ∧
    sdiv S enc 32 (-7) 2 * 2 + srem S enc 32 (-7) 2 = -9 := by
  intro S enc
  have h1 : sdiv S enc 32 (-7) 2 = -4 := by cases enc <;> rfl
  have h2 : srem S enc 32 (-7) 2 = -1 := by
    cases enc
    · rw [srem_unbounded S 32 (by decide)]; rfl
    · rw [srem_eq S (by decide) _ _ (by decide)]; decide
  rw [h1, h2]
  decide

/-- **C02 (partial).** Exactly when is the generated quotient the LLVM quotient: for every width and all
representatives, iff the dividend is non-negative or the division is exact. Missing: negative dividends with inexact
quotient, for which the claim is false (`c02_sdiv_fails`). -/
theorem c02_sdiv_iff_partial (S : Smt) {w : Nat} (hw : 1 ≤ w) (a b : Int)
    (hb : (BitVec.ofInt w b).toInt ≠ 0) :
    sdiv S .wrapped w a b = (BitVec.ofInt w a).toInt.tdiv (BitVec.ofInt w b).toInt ↔
      (0 ≤ (BitVec.ofInt w a).toInt ∨ (BitVec.ofInt w b).toInt ∣ (BitVec.ofInt w a).toInt) := by
  rw [sdiv_eq S hw a b hb, Int.tdiv_eq_ediv]
  constructor
  · intro h
    apply Classical.byContradiction
    intro hn
    rw [if_neg hn] at h
    have : (BitVec.ofInt w b).toInt.sign ≠ 0 := by
      intro h0; exact hb (Int.sign_eq_zero_iff_zero.mp h0)
    omega
  · intro h; rw [if_pos h]; omega

/-- the same for the unbounded encoding. -/
theorem c02_sdiv_unbounded_iff_partial (S : Smt) (w : Nat) (a b : Int) (hb : b ≠ 0) :
    sdiv S .unbounded w a b = a.tdiv b ↔ (0 ≤ a ∨ b ∣ a) := by
  simp only [sdiv, wrapped]
  rw [idiv_of_ne hb, Int.tdiv_eq_ediv]
  constructor
  · intro h
    apply Classical.byContradiction
    intro hn
    rw [if_neg hn] at h
    have : b.sign ≠ 0 := by
      intro h0; exact hb (Int.sign_eq_zero_iff_zero.mp h0)
    omega
  · intro h; rw [if_pos h]; omega

example : (BitVec.ofInt 32 (-3)).toInt ≠ 0 := by decide

/-- **C02, remainder part (in full).** The generated remainder is LLVM's `srem` for all representatives and all
non-zero divisors, including the most negative divisor. -/
theorem c02_srem (S : Smt) {w : Nat} (hw : 1 ≤ w) (a b : Int) (hb : (BitVec.ofInt w b).toInt ≠ 0) :
    srem S .wrapped w a b = (BitVec.ofInt w a).toInt.tmod (BitVec.ofInt w b).toInt :=
  srem_eq S hw a b hb

theorem c02_srem_unbounded (S : Smt) (w : Nat) (a b : Int) (hb : b ≠ 0) :
    srem S .unbounded w a b = a.tmod b := srem_unbounded S w hb

example : srem Smt.std .wrapped 8 (-7) 128 = -7 ∧ (BitVec.ofInt 8 128).toInt ≠ 0 := by decide

/-! ## C03 -/

/-- **C03.** Every predicate, on all unnormalised representatives `a`, `b` of the machine operands `x`, `y`,
returns 1 when LLVM's `icmp` is true and 0 otherwise. -/
theorem c03_pred_icmp (S : Smt) (p : Pred) {w : Nat} (hw : 1 ≤ w) (x y : BitVec w) (a b : Int)
    (ha : BitVec.ofInt w a = x) (hb : BitVec.ofInt w b = y) :
    pred S .wrapped p w a b = (if icmp p x y then 1 else 0) ∧
    predBool S .wrapped p w a b = icmp p x y := by
  subst ha hb
  unfold pred
  rw [predBool_eq S p hw]
  exact ⟨rfl, rfl⟩

/-- `255 + 256*3` represents `-1` at width 8, which is signed-less than 0 and unsigned-greater. -/
example : BitVec.ofInt 8 (255 + 256 * 3) = (-1#8) ∧
    pred Smt.std .wrapped .slt 8 (255 + 256 * 3) 512 = 1 ∧
    pred Smt.std .wrapped .ult 8 (255 + 256 * 3) 512 = 0 := by decide

/-! ## C04 -/

/-- **C04, signed.** `$tos` is the unique in-range representative. -/
theorem c04_tos (S : Smt) {w : Nat} (hw : 1 ≤ w) (i : Int) :
    (-(2:Int)^(w-1) ≤ tos S w i ∧ tos S w i < 2^(w-1)) ∧ (∃ k, tos S w i = i + k * 2^w) ∧
    (∀ r, -(2:Int)^(w-1) ≤ r → r < 2^(w-1) → (∃ k, r = i + k * 2^w) → r = tos S w i) := by
  have e := tos_eq S hw i
  have hl := BitVec.le_toInt (BitVec.ofInt w i)
  have hu := BitVec.toInt_lt (x := BitVec.ofInt w i)
  have hc : ((2^w : Nat) : Int) = (2:Int)^w := by push_cast; rfl
  rw [e]
  refine ⟨⟨hl, hu⟩, ?_, ?_⟩
  · rw [BitVec.toInt_ofInt]
    have h1 : (i.bmod (2^w)) % ((2^w : Nat) : Int) = i % ((2^w : Nat) : Int) := Int.bmod_emod
    rw [hc] at h1
    have h2 := Int.emod_emod_of_dvd
    refine ⟨(i.bmod (2^w)) / 2^w - i / 2^w, ?_⟩
    have h3 := Int.mul_ediv_add_emod (i.bmod (2^w)) (2^w)
    have h4 := Int.mul_ediv_add_emod i (2^w)
    rw [Int.sub_mul, Int.mul_comm (i.bmod (2^w) / 2^w), Int.mul_comm (i / 2^w)]
    omega
  · intro r h1 h2 ⟨k, hk⟩
    rw [BitVec.toInt_ofInt]
    apply bmod_char hw h1 h2
    rw [hk, Int.add_mul_emod_self_right]

/-- **C04, unsigned.** `$tou` is the unique in-range representative. -/
theorem c04_tou (S : Smt) (w : Nat) (i : Int) :
    (0 ≤ tou S w i ∧ tou S w i < 2^w) ∧ (∃ k, tou S w i = i + k * 2^w) ∧
    (∀ r, 0 ≤ r → r < 2^w → (∃ k, r = i + k * 2^w) → r = tou S w i) := by
  have hp := two_pow_pos w
  rw [tou_eq_emod]
  refine ⟨⟨Int.emod_nonneg _ (by omega), Int.emod_lt_of_pos _ hp⟩, ?_, ?_⟩
  · refine ⟨-(i / 2^w), ?_⟩
    have h4 := Int.mul_ediv_add_emod i (2^w)
    rw [Int.neg_mul, Int.mul_comm (i / 2^w)]
    omega
  · intro r h1 h2 ⟨k, hk⟩
    rw [← Int.emod_eq_of_lt h1 h2, hk, Int.add_mul_emod_self_right]

/-- **C04.** Idempotence, and in-range values are unchanged. -/
theorem c04_idempotent (S : Smt) {w : Nat} (hw : 1 ≤ w) (i : Int) :
    tos S w (tos S w i) = tos S w i ∧ tou S w (tou S w i) = tou S w i ∧
    (-(2:Int)^(w-1) ≤ i → i < 2^(w-1) → tos S w i = i) ∧ (0 ≤ i → i < 2^w → tou S w i = i) := by
  refine ⟨?_, ?_, ?_, ?_⟩
  · exact ((c04_tos S hw (tos S w i)).2.2 _ (c04_tos S hw i).1.1 (c04_tos S hw i).1.2 ⟨0, by omega⟩).symm
  · exact ((c04_tou S w (tou S w i)).2.2 _ (c04_tou S w i).1.1 (c04_tou S w i).1.2 ⟨0, by omega⟩).symm
  · intro h1 h2; exact ((c04_tos S hw i).2.2 _ h1 h2 ⟨0, by omega⟩).symm
  · intro h1 h2; exact ((c04_tou S w i).2.2 _ h1 h2 ⟨0, by omega⟩).symm

example : tos Smt.std 8 200 = -56 ∧ tou Smt.std 8 (-1) = 255 := by decide

/-! ## C05 -/

/-- **C05.** Under the unbounded encoding, if the expression is free of overflow (`exact` yields a value: no
intermediate result leaves the signed range of its type, unsigned operators see non-negative operands, truncations
fit, signed divisions are exact or have a non-negative dividend), then LLVM evaluates it without undefined behaviour
and the generated term denotes exactly the signed LLVM value (0/1 for truth values). -/
theorem c05_unbounded_exact (S : Smt) (ρ : Nat → Int) (m : Nat → (w : Nat) → BitVec w) {w : Nat} (e : Expr w)
    (x i : Int) (hty : e.WellTyped) (hr : e.Reads m ρ) (hx : e.exact m = some x)
    (hi : e.evalInt S .unbounded ρ = some i) :
    ∃ v, e.evalBv m = some v ∧ i = reading v := by
  obtain ⟨⟨v, hv, hvx⟩, h⟩ := exact_main S ρ m e hty hr x hx
  exact ⟨v, hv, by rw [h i hi, hvx]⟩

example : let e : Expr 32 := .sub (.mul (.var 32 0) (.lit false false (-7#32))) (.srem (.var 32 0) (.lit false false 5#32))
    e.WellTyped ∧ e.Reads (fun _ w => BitVec.ofInt w (-13)) (fun _ => -13) ∧
    e.exact (fun _ w => BitVec.ofInt w (-13)) = some 94 ∧ e.evalInt Smt.std .unbounded (fun _ => -13) = some 94 := by
  simp only [Expr.WellTyped, Expr.Reads]
  decide

/-- **C05, necessity of the hypothesis.** With an overflow the encoding disagrees with LLVM: for 32-bit `x = 2^31-1`,
LLVM's `x + 1 < x` is true, the generated term is 0. -/
theorem c05_overflow_disagrees : ∃ (e : Expr 1) (ρ : Nat → Int) (m : Nat → (w : Nat) → BitVec w),
    e.WellTyped ∧ e.Reads m ρ ∧ e.evalBv m = some 1#1 ∧ ∀ S, e.evalInt S .unbounded ρ = some 0 :=
  ⟨.icmp .slt (.add (.var 32 0) (.lit false false 1#32)) (.var 32 0), fun _ => 2147483647,
    fun _ w => BitVec.ofInt w 2147483647, by simp [Expr.WellTyped], by simp only [Expr.Reads]; decide, by decide,
    fun _ => rfl⟩

/-- Finding: `sext` of a true `i1` is 1 in the unbounded encoding, -1 in LLVM, although nothing overflows. -/
theorem c05_sext_i1_fails : ∃ (e : Expr 32) (ρ : Nat → Int) (m : Nat → (w : Nat) → BitVec w),
    e.WellTyped ∧ e.Reads m ρ ∧ e.evalBv m = some (-1#32) ∧ ∀ S, e.evalInt S .unbounded ρ = some 1 :=
  ⟨.sext 32 (.var 1 0), fun _ => 1, fun _ w => BitVec.ofInt w 1, by simp [Expr.WellTyped],
    by simp only [Expr.Reads]; decide, by decide, fun _ => rfl⟩

/-! ## C06 -/

/-- **C06, integer mode.** Whatever the signedness flags, a printed literal is congruent to the constant. -/
theorem c06_lit_congruent {w : Nat} (isUnsigned isUnsignedInst : Bool) (c : BitVec w) (i : Int)
    (h : litInt isUnsigned isUnsignedInst c = some i) : BitVec.ofInt w i = c := litInt_ofInt h

/-- **C06, integer mode, signed context.** The literal is exactly the signed value (width ≥ 2). -/
theorem c06_lit_signed_exact {w : Nat} (hw : 2 ≤ w) (isUnsignedInst : Bool) (c : BitVec w) :
    litInt false isUnsignedInst c = some c.toInt := by
  have hh : ∃ i, litInt false isUnsignedInst c = some i := by
    unfold litInt litNeg
    rw [if_pos (by omega)]
    simp
  obtain ⟨i, hi⟩ := hh
  rw [hi, litInt_reading hi (Or.inr rfl), reading_toInt (by omega)]

/-- **C06, bit-vector mode.** The literal is exactly the constant. -/
theorem c06_litBv_exact {w : Nat} (isUnsigned isUnsignedInst : Bool) (c v : BitVec w)
    (h : litBv isUnsigned isUnsignedInst c = some v) : v = c := by
  unfold litBv at h
  rw [Option.map_eq_some_iff] at h
  obtain ⟨neg, hn, rfl⟩ := h
  cases neg with
  | false => simp
  | true =>
    have : litInt isUnsigned isUnsignedInst c = some (0 - ((apAbs c).toNat : Int)) := by
      unfold litInt; rw [hn]; rfl
    have := litInt_ofInt this
    rw [ofInt_sub', BitVec.ofInt_natCast] at this
    simpa using this

/-- **C06.** For constants of at most 64 bits a literal is always printed (no assertion failure), in both modes. -/
theorem c06_lit_total {w : Nat} (hw : w ≤ 64) (isUnsigned isUnsignedInst : Bool) (c : BitVec w) :
    (∃ i, litInt isUnsigned isUnsignedInst c = some i) ∧ (∃ v, litBv isUnsigned isUnsignedInst c = some v) := by
  obtain ⟨i, hi⟩ := litInt_total hw isUnsigned isUnsignedInst c
  refine ⟨⟨i, hi⟩, ?_⟩
  unfold litInt at hi
  rw [Option.map_eq_some_iff] at hi
  obtain ⟨neg, hn, _⟩ := hi
  exact ⟨_, by unfold litBv; rw [hn]; rfl⟩

example : litInt false false (200#8) = some (-56) ∧ litInt true true (200#8) = some 200 ∧
    litInt true false (255#8) = some (-1) ∧ litBv true false (255#8) = some 255#8 := by decide

/-- Finding (totality beyond 64 bits fails): an unsigned-context 128-bit constant `2^100` makes `getSExtValue` assert. -/
theorem c06_lit_wide_fails : ∃ c : BitVec 128, litInt true false c = none ∧ litBv true false c = none :=
  ⟨BitVec.ofNat 128 (2^100), by decide, by decide⟩

/-- **C06.** The helper `integerLit` (used for offsets and sizes) denotes its argument for every 64-bit value except
the most negative one (undefined behaviour of `std::abs`). -/
theorem c06_integerLit (v : Int) (h0 : -(2:Int)^63 < v) :
    integerLitInt v = some v ∧ ∀ w, integerLitBv w v = some (BitVec.ofInt w v) := by
  by_cases hv : v ≥ 0
  · refine ⟨by simp [integerLitInt, hv], fun w => ?_⟩
    simp only [integerLitBv, hv, if_true, Option.some.injEq]
    rw [← BitVec.ofInt_natCast]; congr 1; omega
  · have hne : v ≠ -(2:Int)^63 := by omega
    refine ⟨by simp only [integerLitInt, hv, hne, if_false, isub, Option.some.injEq]; omega, fun w => ?_⟩
    simp only [integerLitBv, hv, hne, if_false, Option.some.injEq]
    rw [← BitVec.ofInt_natCast w v.natAbs, ← BitVec.ofInt_natCast w 0, ← ofInt_sub']
    congr 1; omega

example : -(2:Int)^63 < -4096 := by decide

end Smack.IntOps
