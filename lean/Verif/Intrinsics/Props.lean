import Verif.Intrinsics.Lemmas

namespace Smack.Intrinsics

/-! ### C30 bit reversal -/

/-- C30. For every width and argument the expression generated for `llvm.bitreverse` denotes the argument with
bit `i` at position `N-1-i`. -/
theorem c30_bitreverse (w : Nat) (hw : 1 ≤ w) (x : BitVec w) (u h : Bv) :
    ∃ y : Bv, (bitreverse w).eval ⟨⟨w, x⟩, u, h⟩ = some y ∧ IsBitReverse x y.2 := by
  obtain ⟨v, h1, h2, h3⟩ : Denotes ⟨⟨w, x⟩, u, h⟩ (bitreverse w) w (fun j => x.getLsbD (w - 1 - j)) := by
    unfold bitreverse
    dsimp only
    rw [Nat.and_one_is_mod]
    by_cases he : w % 2 = 0
    · rw [if_pos he, if_pos he]
      refine bitreverseLoop_denotes ⟨⟨w, x⟩, u, h⟩ w (w % 2) rfl (by omega) _ 1 _ (by omega) ?_
      have hhi := denotes_extract ⟨⟨w, x⟩, u, h⟩ (w / 2) (w / 2 - 1) (by omega) (by dsimp only; omega)
      have hlo := denotes_extract ⟨⟨w, x⟩, u, h⟩ (w / 2 + 1) (w / 2) (by omega) (by dsimp only; omega)
      refine (denotes_concat hhi hlo).congr (by omega) ?_
      intro i hi
      dsimp only
      split <;> congr 1 <;> omega
    · rw [if_neg he, if_neg he]
      refine bitreverseLoop_denotes ⟨⟨w, x⟩, u, h⟩ w (w % 2) rfl (by omega) _ 0 _ (by omega) ?_
      refine (denotes_extract ⟨⟨w, x⟩, u, h⟩ (w / 2 + 1) (w / 2) (by omega) (by dsimp only; omega)).congr
        (by omega) ?_
      intro i hi
      dsimp only
      congr 1
      omega
  exact ⟨v, h1, h2, h3⟩

/-- The hypotheses are met, at an odd and an even width. -/
example : (bitreverse 5).eval ⟨⟨5, 0b00110#5⟩, ⟨1, 0#1⟩, ⟨5, 0#5⟩⟩ = some ⟨5, 0b01100#5⟩ := by decide +kernel
example : (bitreverse 8).eval ⟨⟨8, 0b11010000#8⟩, ⟨1, 0#1⟩, ⟨8, 0#8⟩⟩ = some ⟨8, 0b00001011#8⟩ := by
  decide +kernel

/-- Applied twice, the generated expression gives the argument back. -/
theorem c30_involution (w : Nat) (hw : 1 ≤ w) (x : BitVec w) (u h : Bv) :
    ∃ y : BitVec w, (bitreverse w).eval ⟨⟨w, x⟩, u, h⟩ = some ⟨w, y⟩ ∧
      (bitreverse w).eval ⟨⟨w, y⟩, u, h⟩ = some ⟨w, x⟩ := by
  obtain ⟨⟨w1, y⟩, h1, hw1, h2⟩ := c30_bitreverse w hw x u h
  dsimp only at hw1 h2
  subst hw1
  obtain ⟨⟨w2, z⟩, h3, hw2, h4⟩ := c30_bitreverse w1 hw y u h
  dsimp only at hw2 h4
  subst hw2
  refine ⟨y, h1, h3.trans ?_⟩
  have : z = x := by
    apply BitVec.eq_of_getLsbD_eq
    intro i hi
    rw [h4 i hi, h2 _ (by omega)]
    congr 1
    omega
  rw [this]

/-! ### C31 byte swap -/

/-- C31. For every width that is a positive multiple of 16 and every argument the expression generated for
`llvm.bswap` denotes the argument with its bytes in opposite order. -/
theorem c31_bswap (w : Nat) (hw : 16 ≤ w) (hm : w % 16 = 0) (x : BitVec w) (u h : Bv) :
    ∃ y : Bv, (bswap w).eval ⟨⟨w, x⟩, u, h⟩ = some y ∧ IsByteSwap x y.2 := by
  obtain ⟨v, h1, h2, h3⟩ : Denotes ⟨⟨w, x⟩, u, h⟩ (bswap w) w
      (fun j => x.getLsbD (w - 8 - 8 * (j / 8) + j % 8)) := by
    refine bswapLoop_denotes ⟨⟨w, x⟩, u, h⟩ w (w / 16) rfl (by omega) _ 1 _ (by omega) (by omega) ?_
    have hhi := denotes_extract ⟨⟨w, x⟩, u, h⟩ (w / 2) (w / 2 - 8) (by omega) (by dsimp only; omega)
    have hlo := denotes_extract ⟨⟨w, x⟩, u, h⟩ (w / 2 + 8) (w / 2) (by omega) (by dsimp only; omega)
    refine (denotes_concat hhi hlo).congr (by omega) ?_
    intro i hi
    dsimp only
    split <;> congr 1 <;> omega
  refine ⟨v, h1, h2, ?_⟩
  intro q r hq hr
  rw [h3 _ (by omega)]
  show x.getLsbD _ = _
  congr 1
  omega

example : (bswap 32).eval ⟨⟨32, 0x12345678#32⟩, ⟨1, 0#1⟩, ⟨32, 0#32⟩⟩ = some ⟨32, 0x78563412#32⟩ := by
  decide +kernel

/-- The restriction to multiples of 16 is needed: at 24 bits, a width the language reference excludes, the
expression has a different width from the argument. -/
theorem c31_other_width_fails (x : BitVec 24) (u h : Bv) :
    ¬ ∃ y : Bv, (bswap 24).eval ⟨⟨24, x⟩, u, h⟩ = some y ∧ IsByteSwap x y.2 := by
  rintro ⟨y, hy, hw, _⟩
  have : (bswap 24).eval ⟨⟨24, x⟩, u, h⟩ = none := by
    simp [bswap, bswapLoop, E.eval]
  rw [this] at hy
  cases hy

/-! ### C32 leading and trailing zeros -/

/-- C32, leading zeros. The result is the number of leading zeros, `N` for zero, unless zero is declared undefined
and the argument is zero; then it is whatever value `h` the result variable was havoced to. -/
theorem c32_ctlz (w : Nat) (x : BitVec w) (u : BitVec 1) (h : BitVec w) :
    ∃ n, IsClz x n ∧ havocAssign ⟨w, x⟩ ⟨1, u⟩ ⟨w, h⟩ (ctlz w) =
      some ⟨w, if u = 1#1 ∧ x = 0#w then h else BitVec.ofNat w n⟩ ∧ (BitVec.ofNat w n).toNat = n := by
  obtain ⟨n, hn, he, _, hz, ho⟩ :=
    ctlzLoop_eval ⟨⟨w, x⟩, ⟨1, u⟩, ⟨w, h⟩⟩ w rfl w (Nat.le_refl _)
  refine ⟨n, ⟨hn, hz, ho⟩, zeroUndef_eval w x u h _ _ he, ?_⟩
  have := lt_pow w
  simp only [BitVec.toNat_ofNat]
  exact Nat.mod_eq_of_lt (by omega)

/-- C32, trailing zeros. -/
theorem c32_cttz (w : Nat) (x : BitVec w) (u : BitVec 1) (h : BitVec w) :
    ∃ n, IsCtz x n ∧ havocAssign ⟨w, x⟩ ⟨1, u⟩ ⟨w, h⟩ (cttz w) =
      some ⟨w, if u = 1#1 ∧ x = 0#w then h else BitVec.ofNat w n⟩ ∧ (BitVec.ofNat w n).toNat = n := by
  obtain ⟨n, hn, he, _, hz, ho⟩ :=
    cttzLoop_eval ⟨⟨w, x⟩, ⟨1, u⟩, ⟨w, h⟩⟩ w rfl w (Nat.le_refl _)
  refine ⟨n, ⟨hn, fun i hi => hz i (by omega) hi, ho⟩, zeroUndef_eval w x u h _ _ he, ?_⟩
  have := lt_pow w
  simp only [BitVec.toNat_ofNat]
  exact Nat.mod_eq_of_lt (by omega)

/-- The two counts are unique, so the theorems above determine the result. -/
theorem c32_unique {w : Nat} (x : BitVec w) (m n : Nat) :
    (IsClz x m → IsClz x n → m = n) ∧ (IsCtz x m → IsCtz x n → m = n) := by
  constructor
  · rintro ⟨a1, a2, a3⟩ ⟨b1, b2, b3⟩
    rcases Nat.lt_trichotomy m n with h | h | h
    · have := a3 (by omega)
      rw [b2 (w - 1 - m) (by omega) (by omega)] at this
      cases this
    · exact h
    · have := b3 (by omega)
      rw [a2 (w - 1 - n) (by omega) (by omega)] at this
      cases this
  · rintro ⟨a1, a2, a3⟩ ⟨b1, b2, b3⟩
    rcases Nat.lt_trichotomy m n with h | h | h
    · have := a3 (by omega)
      rw [b2 m h] at this
      cases this
    · exact h
    · have := b3 (by omega)
      rw [a2 n h] at this
      cases this

/-- With zero defined, zero has `N` leading and `N` trailing zeros. -/
theorem c32_zero (w : Nat) (h : BitVec w) :
    havocAssign ⟨w, 0#w⟩ ⟨1, 0#1⟩ ⟨w, h⟩ (ctlz w) = some ⟨w, BitVec.ofNat w w⟩ ∧
    havocAssign ⟨w, 0#w⟩ ⟨1, 0#1⟩ ⟨w, h⟩ (cttz w) = some ⟨w, BitVec.ofNat w w⟩ := by
  obtain ⟨n, hn, he, _⟩ := c32_ctlz w 0#w 0#1 h
  obtain ⟨m, hm, hf, _⟩ := c32_cttz w 0#w 0#1 h
  have hz : IsClz (0#w) w := ⟨Nat.le_refl _, fun i _ _ => by simp, fun h => absurd h (by omega)⟩
  have hz' : IsCtz (0#w) w := ⟨Nat.le_refl _, fun i _ => by simp, fun h => absurd h (by omega)⟩
  have e1 : n = w := (c32_unique _ _ _).1 hn hz
  have e2 : m = w := (c32_unique _ _ _).2 hm hz'
  subst e1
  rw [he, hf, e2]
  constructor <;> rfl

example : havocAssign ⟨8, 0b00010100#8⟩ ⟨1, 1#1⟩ ⟨8, 77#8⟩ (ctlz 8) = some ⟨8, 3#8⟩ := by decide +kernel
example : havocAssign ⟨8, 0b00010100#8⟩ ⟨1, 1#1⟩ ⟨8, 77#8⟩ (cttz 8) = some ⟨8, 2#8⟩ := by decide +kernel
example : havocAssign ⟨8, 0#8⟩ ⟨1, 1#1⟩ ⟨8, 77#8⟩ (cttz 8) = some ⟨8, 77#8⟩ := by decide +kernel

/-! ### C33 population count -/

theorem popcount_le {w : Nat} (x : BitVec w) : popcount x ≤ w := by
  have := List.countP_le_length (p := fun i => x.getLsbD i) (l := List.range w)
  simpa [popcount] using this

/-- C33, bit-vector mode, every width above one. -/
theorem c33_bv_partial (w : Nat) (hw : 2 ≤ w) (x : BitVec w) (u h : Bv) :
    ∃ y : BitVec w, (ctpopBv w).eval ⟨⟨w, x⟩, u, h⟩ = some ⟨w, y⟩ ∧ y.toNat = popcount x := by
  refine ⟨_, ctpopBvLoop_eval ⟨⟨w, x⟩, u, h⟩ w rfl (by omega) w (Nat.le_refl _), ?_⟩
  have h1 := lt_pow w
  have h2 := popcount_le x
  simp only [BitVec.toNat_ofNat]
  exact Nat.mod_eq_of_lt (by show popcount x < _; omega)

example : (ctpopBv 8).eval ⟨⟨8, 0b11010001#8⟩, ⟨1, 0#1⟩, ⟨8, 0#8⟩⟩ = some ⟨8, 4#8⟩ := by decide +kernel
example : popcount 0b11010001#8 = 4 := by decide +kernel

/-- At width one the bit-vector expression uses `$zext.bv1.bv1`, which the prelude does not declare. -/
theorem c33_bv_one_fails (x : BitVec 1) (u h : Bv) : (ctpopBv 1).eval ⟨⟨1, x⟩, u, h⟩ = none := by
  simp [ctpopBv, ctpopBvLoop, E.eval]

open IntOps in
/-- C33, integer mode with unbounded integers: whatever integer represents the argument, negative or not, the
result is the number of set bits. Up to 64 bits. -/
theorem c33_unbounded_partial (S : Smt) (w : Nat) (hw : w ≤ 64) (v : Int) :
    ctpopInt S .unbounded w v = some (popcount (BitVec.ofInt w v) : Int) :=
  ctpopIntLoop_eq S .unbounded w v (fun i hi => term_unbounded S w i v hi) w (Nat.le_refl _) hw

open IntOps in
/-- C33, integer mode with the wrapped encoding, for widths 2 to 64. -/
theorem c33_wrapped_partial (S : Smt) (w : Nat) (h2 : 2 ≤ w) (hw : w ≤ 64) (v : Int) :
    ctpopInt S .wrapped w v = some (popcount (BitVec.ofInt w v) : Int) :=
  ctpopIntLoop_eq S .wrapped w v (fun i hi => term_wrapped S w i v hi h2) w (Nat.le_refl _) hw

example : ctpopInt IntOps.Smt.std .wrapped 8 (-3) = some 7 := by decide +kernel
example : ctpopInt IntOps.Smt.std .unbounded 8 (-3) = some 7 := by decide +kernel

open IntOps in
/-- At width one in the wrapped encoding the divisor `2` of `$urem.i1` wraps to zero: the result is the solver's
uninterpreted `mod` by zero. For both arguments there are interpretations that make it wrong. -/
theorem c33_wrapped_one_fails (x : BitVec 1) :
    ∃ S : Smt, ctpopInt S .wrapped 1 x.toNat ≠ some (popcount x : Int) := by
  refine ⟨{ Smt.std with modZero := fun a => a + 2 }, ?_⟩
  have : x = 0#1 ∨ x = 1#1 := by
    have := x.isLt
    rcases (show x.toNat = 0 ∨ x.toNat = 1 by omega) with h | h
    · left; exact BitVec.eq_of_toNat_eq h
    · right; exact BitVec.eq_of_toNat_eq h
  rcases this with h | h <;> subst h <;> decide +kernel

open IntOps in
/-- Above 64 bits the generator itself evaluates `1ull << i` with `i ≥ 64`, which is undefined. -/
theorem c33_wide_fails (S : Smt) (enc : Enc) (w : Nat) (hw : 64 < w) (v : Int) : ctpopInt S enc w v = none := by
  have : ∀ k, 64 < k → ctpopIntLoop S enc w v k = none := by
    intro k hk
    induction k with
    | zero => omega
    | succ k ih =>
      unfold ctpopIntLoop
      by_cases h : 64 < k
      · rw [ih h]
      · have : ullShl k = none := by unfold ullShl; rw [if_neg (by omega)]
        rw [this]
        cases ctpopIntLoop S enc w v k <;> rfl
  exact this w hw

end Smack.Intrinsics
