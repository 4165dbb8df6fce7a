/-
Property C07: floating-point literals.
-/
import Verif.FloatLit.Lemmas

namespace Smack.FloatLit

/-- **C07 for half, float and double.** For every bit pattern the printed literal denotes the same datum: the same
sign and exactly the same rational magnitude (normal, subnormal and zero), the same infinity, or NaN; the format suffix
is the one the prelude declares for the type (Prelude.cpp:180-181).
Missing for the full claim: `x86_fp80`, for which it is false, see `c07_x86_fp80_fails`. -/
theorem c07_literal_exact_partial (t : FpType) (ht : t ≠ .x86_fp80) (bits : BitVec (t.expSize + t.sigSize)) :
    (litOf t bits).denotes = ieee t.expSize t.sigSize bits ∧
    (litOf t bits).format = (t.sigSize, t.expSize) := by
  cases t
  · exact lit_ieee 5 11 (by decide) (by decide) bits
  · exact lit_ieee 8 24 (by decide) (by decide) bits
  · exact lit_ieee 11 53 (by decide) (by decide) bits
  · exact absurd rfl ht

/-- The smallest positive subnormal float (pattern 1) is a non-trivial instance: its magnitude is `2^-149`. -/
example : ieee 8 24 (1#32) = .fin false (1 * 2 ^ (-149 : Int)) := by
  simp only [ieee]
  rw [if_neg (by decide), if_pos (by decide)]
  rfl

/-- The same for every format with at least 3 exponent bits and 5 significand bits (beyond the claim). -/
theorem c07_literal_exact_generic (e s : Nat) (he : 3 ≤ e) (hs : 5 ≤ s) (bits : BitVec (e + s)) :
    (lit e s bits).denotes = ieee e s bits := (lit_ieee e s he hs bits).1

/-- **C07 fails for x86 long double.** The code treats bit 63, which is the explicit integer bit, as a fraction bit and
adds a hidden bit. Every finite non-zero long double literal denotes a different number (e.g. 1.0L is printed as 1.5). -/
theorem c07_x86_fp80_fails (bits : BitVec 80) (hfin : bits.toNat / 2 ^ 64 % 2 ^ 15 ≠ 2 ^ 15 - 1)
    (hnz : bits.toNat % 2 ^ 64 ≠ 0) :
    (litOf .x86_fp80 bits).denotes ≠ x87 bits := by
  rw [show (litOf .x86_fp80 bits).denotes = _ from (lit_ieee 15 65 (by decide) (by decide) bits).1]
  have hM : bits.toNat % 2 ^ 64 < 2 ^ 64 := Nat.mod_lt _ (by decide)
  simp only [ieee, x87]
  rw [if_neg hfin]
  rw [show (65 - 1 : Nat) = 64 from rfl] at *
  rw [if_neg hfin]
  generalize bits.toNat / 2 ^ 64 % 2 ^ 15 = E at *
  generalize bits.toNat % 2 ^ 64 = M at *
  have key : ∀ (a b : Nat) (k : Int), a ≠ 2 * b → (a : Rat) * 2 ^ k ≠ (b : Rat) * 2 ^ (k + 1) := by
    intro a b k hab h
    rw [Int.add_comm, two_zpow, ← Rat.mul_assoc] at h
    have hk : (2:Rat) ^ k ≠ 0 := Rat.ne_of_gt (Rat.zpow_pos (by decide))
    have h2 : (a : Rat) = b * 2 ^ (1:Int) := by
      have := congrArg (· * ((2:Rat)^k)⁻¹) h
      simpa [Rat.mul_assoc, Rat.mul_inv_cancel _ hk] using this
    rw [Rat.zpow_one, Rat.mul_comm, show (2:Rat) = ((2:Nat):Rat) from rfl, ← Rat.natCast_mul] at h2
    exact hab (Rat.natCast_inj.mp h2)
  by_cases hE : E = 0
  · rw [if_pos hE, if_pos hE]
    intro h
    injection h with _ h
    exact key M M (1 - (2 ^ (15 - 1) - 1) - (((65:Nat):Int) - 1)) (by omega) (by rw [h]; congr 1)
  · rw [if_neg hE, if_neg hE]
    intro h
    injection h with _ h
    refine key (2 ^ 64 + M) M ((E:Int) - (2 ^ (15 - 1) - 1) - (((65:Nat):Int) - 1)) (by omega) ?_
    rw [h]
    congr 2
    have : (2:Int) ^ (15-1) = 16384 := by decide
    rw [this]
    omega

/-- 1.0L: exponent 16383, explicit integer bit set. -/
example : (0x3fff8000000000000000#80).toNat / 2 ^ 64 % 2 ^ 15 ≠ 2 ^ 15 - 1 ∧
    (0x3fff8000000000000000#80).toNat % 2 ^ 64 ≠ 0 := by decide

/-- A long double infinity (explicit integer bit set) is printed as NaN. -/
theorem c07_x86_fp80_inf_fails :
    x87 0x7fff8000000000000000#80 = .inf false ∧ (litOf .x86_fp80 0x7fff8000000000000000#80).denotes = .nan := by
  constructor
  · simp only [x87]; rw [if_pos (by decide), if_pos (by decide)]; rfl
  · rw [show (litOf .x86_fp80 0x7fff8000000000000000#80).denotes = _ from
      (lit_ieee 15 65 (by decide) (by decide) _).1]
    simp only [ieee]
    rw [if_pos (by decide), if_neg (by decide)]

end Smack.FloatLit
