import Verif.FloatLit.Spec

namespace Smack.FloatLit

theorem ofDigits_append (a : List Nat) (d : Nat) : ofDigits (a ++ [d]) = 16 * ofDigits a + d := by
  simp [ofDigits, List.foldl_append]

theorem hexDigits_eight (k : Nat) : ∀ M, M < 16 ^ k →
    ∃ ds, hexDigits (8 * 16 ^ k + M) = 8 :: ds ∧ ds.length = k ∧ ofDigits ds = M ∧ ∀ d ∈ ds, d < 16 := by
  induction k with
  | zero =>
    intro M hM
    have : M = 0 := by omega
    subst this
    refine ⟨[], ?_, rfl, rfl, by simp⟩
    rw [hexDigits]; simp
  | succ k ih =>
    intro M hM
    have hp : (16:Nat) ^ (k+1) = 16 * 16 ^ k := by rw [Nat.pow_succ, Nat.mul_comm]
    have hpos : 0 < (16:Nat)^k := Nat.pow_pos (by decide)
    obtain ⟨ds, h1, h2, h3, h4⟩ := ih (M / 16) (by omega)
    refine ⟨ds ++ [M % 16], ?_, by simp [h2], ?_, ?_⟩
    · rw [hexDigits, dif_neg (by omega)]
      have e1 : (8 * 16 ^ (k+1) + M) / 16 = 8 * 16 ^ k + M / 16 := by omega
      have e2 : (8 * 16 ^ (k+1) + M) % 16 = M % 16 := by omega
      rw [e1, e2, h1]; simp
    · rw [ofDigits_append, h3]; omega
    · intro d hd
      rcases List.mem_append.mp hd with h | h
      · exact h4 d h
      · simp at h; omega

theorem two_zpow (a b : Int) : (2 : Rat) ^ (a + b) = 2 ^ a * 2 ^ b :=
  Rat.zpow_add (by decide) a b

theorem sixteen_zpow (k : Int) : (16 : Rat) ^ k = 2 ^ (4 * k) := by
  have key : ∀ n : Nat, (16 : Rat) ^ n = 2 ^ (4 * n) := by
    intro n
    induction n with
    | zero => rfl
    | succ n ih =>
      rw [Rat.pow_succ, ih, show 4 * (n+1) = 4*n+1+1+1+1 by omega]
      simp only [Rat.pow_succ, Rat.mul_assoc]
      congr 1
      grind
  have keyz : ∀ n : Nat, (16 : Rat) ^ (n : Int) = 2 ^ (4 * (n:Int)) := by
    intro n
    rw [Rat.zpow_natCast, key, ← Rat.zpow_natCast]
    congr 1
  rcases Int.eq_nat_or_neg k with ⟨n, rfl | rfl⟩
  · exact keyz n
  · rw [Rat.zpow_neg, keyz, ← Rat.zpow_neg]
    congr 1; omega

theorem natCast_pow_mul (a n : Nat) : ((a * 2 ^ n : Nat) : Rat) = (a : Rat) * 2 ^ (n : Int) := by
  rw [Rat.natCast_mul, Rat.natCast_pow, Rat.zpow_natCast]
  rfl

/-- The difference between the biased exponent and the bias, as a signed number. -/
theorem diff_toInt {e : Nat} (he : 3 ≤ e) (exp : BitVec e) (h1 : exp.toNat ≠ 2 ^ e - 1) :
    (exp - (if exp = 0#e then BitVec.ofNat e (2 ^ (e - 1) - 1) - 1#e else BitVec.ofNat e (2 ^ (e - 1) - 1))).toInt
      = (if exp.toNat = 0 then 1 else (exp.toNat : Int)) - (2 ^ (e - 1) - 1) := by
  have hsplit : (2:Nat) ^ e = 2 * 2 ^ (e-1) := by
    obtain ⟨k, rfl⟩ : ∃ k, e = k + 1 := ⟨e - 1, by omega⟩
    simp [Nat.pow_succ, Nat.mul_comm]
  have h4 : (4:Nat) ≤ 2 ^ (e-1) := by
    have : (2:Nat)^2 ≤ 2^(e-1) := Nat.pow_le_pow_right (by decide) (by omega)
    omega
  have hlt := exp.isLt
  have hz : exp = 0#e ↔ exp.toNat = 0 := by
    rw [← BitVec.toNat_inj]; simp
  have hb1 : (BitVec.ofNat e (2 ^ (e - 1) - 1)).toNat = 2 ^ (e-1) - 1 := by
    rw [BitVec.toNat_ofNat, Nat.mod_eq_of_lt (by omega)]
  have h1n : (1#e).toNat = 1 := by
    rw [BitVec.toNat_ofNat, Nat.mod_eq_of_lt (by omega)]
  have hcast : ((2:Int) ^ (e-1)) = ((2 ^ (e-1) : Nat) : Int) := by push_cast; rfl
  rw [BitVec.toInt_eq_toNat_cond, BitVec.toNat_sub, hcast]
  by_cases h0 : exp.toNat = 0
  · rw [if_pos (hz.mpr h0), if_pos h0, BitVec.toNat_sub, hb1, h1n, h0]
    have e1 : (2 ^ e - 1 + (2 ^ (e-1) - 1)) % 2 ^ e = 2 ^ (e-1) - 2 := by
      rw [show 2 ^ e - 1 + (2 ^ (e-1) - 1) = 2 ^ e + (2 ^ (e-1) - 2) by omega, Nat.add_mod_left,
        Nat.mod_eq_of_lt (by omega)]
    rw [e1, Nat.mod_eq_of_lt (by omega), if_neg (by omega)]
    omega
  · rw [if_neg (fun h => h0 (hz.mp h)), if_neg h0, hb1]
    by_cases hge : 2 ^ (e-1) - 1 ≤ exp.toNat
    · rw [show 2 ^ e - (2 ^ (e-1) - 1) + exp.toNat = 2 ^ e + (exp.toNat - (2 ^ (e-1) - 1)) by omega,
        Nat.add_mod_left, Nat.mod_eq_of_lt (by omega), if_pos (by omega)]
      omega
    · rw [Nat.mod_eq_of_lt (by omega), if_neg (by omega)]
      omega

/-- `moveDec` and `finalExp` split the exponent difference `d` into `4 * finalExp + moveDec`. -/
theorem split_exp {e : Nat} (he : 3 ≤ e) (d : BitVec e) :
    ∃ m : Nat, m ≤ 3 ∧ (d &&& BitVec.ofNat e 3).toNat = m ∧
      4 * ((d - (d &&& BitVec.ofNat e 3)).sshiftRight 2).toInt + m = d.toInt := by
  have h8 : (2:Nat) ^ e = 4 * 2 ^ (e-2) := by
    obtain ⟨k, rfl⟩ : ∃ k, e = k + 2 := ⟨e - 2, by omega⟩
    simp [Nat.pow_succ]; omega
  have h9 : (2:Nat) ^ (e-2) = 2 * 2 ^ (e-3) := by
    obtain ⟨k, rfl⟩ : ∃ k, e = k + 3 := ⟨e - 3, by omega⟩
    simp [Nat.pow_succ]; omega
  have hpos : 0 < (2:Nat) ^ (e-3) := Nat.pow_pos (by decide)
  have hm : (d &&& BitVec.ofNat e 3).toNat = d.toNat % 4 := by
    rw [BitVec.toNat_and, BitVec.toNat_ofNat, Nat.mod_eq_of_lt (by omega)]
    exact Nat.and_two_pow_sub_one_eq_mod d.toNat 2
  refine ⟨d.toNat % 4, by omega, hm, ?_⟩
  have hlt := d.isLt
  have hsub : (d - (d &&& BitVec.ofNat e 3)).toNat = d.toNat - d.toNat % 4 := by
    rw [BitVec.toNat_sub_of_le]
    · rw [hm]
    · rw [BitVec.le_def, hm]; omega
  rw [BitVec.toInt_sshiftRight, BitVec.toInt_eq_toNat_cond, BitVec.toInt_eq_toNat_cond, hsub,
    Int.shiftRight_eq_div_pow]
  split <;> split <;> omega

theorem setWidth_small {a b : Nat} (x : BitVec a) (h : x.toNat < 2 ^ b) : (x.setWidth b).toNat = x.toNat := by
  rw [BitVec.toNat_setWidth, Nat.mod_eq_of_lt h]

theorem or_top {n : Nat} (hn : 1 ≤ n) (x : BitVec n) (h : x.toNat < 2 ^ (n-1)) :
    (x ||| (1#n <<< (n-1))).toNat = 2 ^ (n-1) + x.toNat := by
  have hlt : (2:Nat) ^ (n-1) < 2 ^ n := Nat.pow_lt_pow_right (by decide) (by omega)
  have h1 : (1#n).toNat = 1 := by
    rw [BitVec.toNat_ofNat, Nat.mod_eq_of_lt]
    have : 0 < (2:Nat)^(n-1) := Nat.pow_pos (by decide)
    omega
  rw [BitVec.toNat_or, BitVec.toNat_shiftLeft, h1, Nat.shiftLeft_eq, Nat.one_mul, Nat.mod_eq_of_lt hlt,
    Nat.or_comm]
  have := Nat.two_pow_add_eq_or_of_lt h 1
  rw [Nat.mul_one] at this
  exact this.symm

/-- The digit string written for a significand `G < 2^s` and exponent `4*f + m`. -/
theorem digits_value {s m G : Nat} (hs : 5 ≤ s) (hm : m ≤ 3) (hG : G < 2 ^ s) (sig : BitVec s)
    (hsig : sig.toNat = G) (f : Int) :
    let leftSize := 4 * (m / 4 + 1)
    let rightSize := 4 * ((s - m - 2) / 4 + 1)
    let sigW := leftSize + rightSize + 4
    let sg : BitVec sigW := sig.setWidth sigW <<< (rightSize + m + 1 - s)
    let hexSig := (hexDigits (sg ||| (1#sigW <<< (sigW - 1))).toNat).drop 1
    (ofDigits (hexSig.take (leftSize / 4) ++ hexSig.drop (leftSize / 4)) : Rat) *
      16 ^ (f - ((hexSig.drop (leftSize / 4)).length : Int)) = (G : Rat) * 2 ^ (4 * f + m - ((s : Int) - 1)) ∧
    (hexSig.take (leftSize / 4)).length = 1 := by
  intro leftSize rightSize sigW sg hexSig
  have hl : leftSize = 4 := by simp only [leftSize]; omega
  have hr : s - m - 1 ≤ rightSize := by simp only [rightSize]; omega
  have hr4 : rightSize = 4 * (rightSize / 4) := by simp only [rightSize]; omega
  have hW : sigW = rightSize + 8 := by simp only [sigW, hl]; omega
  obtain ⟨k, hk⟩ : ∃ k, k = rightSize + m + 1 - s := ⟨_, rfl⟩
  have hkk : rightSize + m + 1 = s + k := by omega
  have hle : s ≤ sigW := by omega
  have h1 : (sig.setWidth sigW).toNat = G := by
    rw [setWidth_small, hsig]
    rw [hsig]
    exact Nat.lt_of_lt_of_le hG (Nat.pow_le_pow_right (by decide) hle)
  have h2 : G * 2 ^ k < 2 ^ (rightSize + 4) := by
    have : G * 2 ^ k < 2 ^ s * 2 ^ k := Nat.mul_lt_mul_of_pos_right hG (Nat.pow_pos (by decide))
    rw [← Nat.pow_add, ← hkk] at this
    exact Nat.lt_of_lt_of_le this (Nat.pow_le_pow_right (by decide) (by omega))
  have h3 : sg.toNat = G * 2 ^ k := by
    have h5 : G * 2 ^ k < 2 ^ sigW :=
      Nat.lt_of_lt_of_le h2 (Nat.pow_le_pow_right (by decide) (by omega))
    show (sig.setWidth sigW <<< (rightSize + m + 1 - s)).toNat = _
    rw [← hk, BitVec.toNat_shiftLeft, h1, Nat.shiftLeft_eq, Nat.mod_eq_of_lt h5]
  have h4 : (sg ||| (1#sigW <<< (sigW - 1))).toNat = 8 * 16 ^ (rightSize / 4 + 1) + G * 2 ^ k := by
    rw [or_top (by omega), h3]
    · have : (16:Nat) ^ (rightSize / 4 + 1) = 2 ^ (rightSize + 4) := by
        rw [show (16:Nat) = 2 ^ 4 by rfl, ← Nat.pow_mul]; congr 1; omega
      rw [this, show sigW - 1 = (rightSize + 4) + 3 by omega, Nat.pow_add]
      omega
    · rw [h3]
      exact Nat.lt_of_lt_of_le h2 (Nat.pow_le_pow_right (by decide) (by omega))
  have h16 : (16:Nat) ^ (rightSize / 4 + 1) = 2 ^ (rightSize + 4) := by
    rw [show (16:Nat) = 2 ^ 4 by rfl, ← Nat.pow_mul]; congr 1; omega
  obtain ⟨ds, hd1, hd2, hd3, -⟩ := hexDigits_eight (rightSize / 4 + 1) (G * 2 ^ k) (by rw [h16]; exact h2)
  have hhex : hexSig = ds := by
    simp only [hexSig]; rw [h4, hd1]; rfl
  rw [hhex, List.take_append_drop, hl, hd3]
  have hlen : (ds.drop (4/4)).length = rightSize / 4 := by simp [hd2]
  refine ⟨?_, by simp [hd2]⟩
  rw [hlen, sixteen_zpow, natCast_pow_mul, Rat.mul_assoc, ← two_zpow]
  congr 2
  have : 4 * ((rightSize / 4 : Nat) : Int) = rightSize := by omega
  have h5 : (rightSize : Int) + m + 1 = s + k := by omega
  omega

theorem lit_ieee (e s : Nat) (he : 3 ≤ e) (hs : 5 ≤ s) (API : BitVec (e + s)) :
    (lit e s API).denotes = ieee e s API ∧ (lit e s API).format = (s, e) := by
  have hpe : 0 < (2:Nat) ^ e := Nat.pow_pos (by decide)
  have hexp : ((API >>> (s - 1)).setWidth e).toNat = API.toNat / 2 ^ (s-1) % 2 ^ e := by
    rw [BitVec.toNat_setWidth, BitVec.toNat_ushiftRight, Nat.shiftRight_eq_div_pow]
  have hFlt : API.toNat % 2 ^ (s-1) < 2 ^ (s-1) := Nat.mod_lt _ (Nat.pow_pos (by decide))
  have hss : (2:Nat) ^ (s-1) < 2 ^ s := Nat.pow_lt_pow_right (by decide) (by omega)
  have hsplit : (2:Nat) ^ s = 2 * 2 ^ (s-1) := by
    obtain ⟨k, rfl⟩ : ∃ k, s = k + 1 := ⟨s - 1, by omega⟩
    simp [Nat.pow_succ, Nat.mul_comm]
  have hsig : ((API.setWidth (s-1)).setWidth s).toNat = API.toNat % 2 ^ (s-1) := by
    rw [setWidth_small, BitVec.toNat_setWidth]
    rw [BitVec.toNat_setWidth]; omega
  unfold lit ieee
  generalize hEb : ((API >>> (s - 1)).setWidth e) = exp at *
  generalize hSb : ((API.setWidth (s-1)).setWidth s) = sig at *
  simp only [← hexp, ← hsig]
  rw [← hsig] at hFlt
  have hall : exp = BitVec.allOnes e ↔ exp.toNat = 2 ^ e - 1 := by
    rw [← BitVec.toNat_inj, BitVec.toNat_allOnes]
  have hz : exp = 0#e ↔ exp.toNat = 0 := by
    rw [← BitVec.toNat_inj]; simp
  have hzs : sig = 0#s ↔ sig.toNat = 0 := by
    rw [← BitVec.toNat_inj]; simp
  by_cases ha : exp = BitVec.allOnes e
  · rw [if_pos ha, if_pos (hall.mp ha)]
    by_cases hs0 : sig = 0#s
    · rw [if_neg (fun h => h hs0), if_pos (hzs.mp hs0)]
      cases API.msb <;> exact ⟨rfl, rfl⟩
    · rw [if_pos hs0, if_neg (fun h => hs0 (hzs.mpr h))]
      exact ⟨rfl, rfl⟩
  · have han : exp.toNat ≠ 2 ^ e - 1 := fun h => ha (hall.mpr h)
    rw [if_neg ha, if_neg han]
    have hd := diff_toInt he exp han
    generalize hdd : (exp - (if exp = 0#e then BitVec.ofNat e (2 ^ (e - 1) - 1) - 1#e else BitVec.ofNat e (2 ^ (e - 1) - 1))) = d at *
    obtain ⟨m, hm3, hm, hsp⟩ := split_exp he d
    rw [hm]
    generalize hf : ((d - (d &&& BitVec.ofNat e 3)).sshiftRight 2).toInt = f at *
    refine ⟨?_, rfl⟩
    simp only [FpLit.denotes]
    by_cases h0 : exp = 0#e
    · rw [if_pos (hz.mp h0)]
      have hG := (digits_value hs hm3 (G := sig.toNat) (by omega) sig rfl f).1
      simp only [h0, ne_eq, not_true_eq_false, if_false] at hG ⊢
      rw [hG]
      congr 3
      rw [if_pos (hz.mp h0)] at hd
      omega
    · rw [if_neg (fun h => h0 (hz.mpr h))]
      have hor := or_top (by omega) sig hFlt
      have hG := (digits_value hs hm3 (G := 2 ^ (s-1) + sig.toNat) (by omega) _ hor f).1
      rw [if_pos h0]
      rw [hG]
      congr 3
      rw [if_neg (fun h => h0 (hz.mpr h))] at hd
      omega

end Smack.FloatLit
