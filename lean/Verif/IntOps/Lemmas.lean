import Verif.IntOps.Spec

namespace Smack.IntOps

theorem two_pow_pos (n : Nat) : (0 : Int) < 2 ^ n := Int.pow_pos (by decide)

theorem two_pow_split {w : Nat} (hw : 1 ≤ w) : (2 : Int) ^ w = 2 * 2 ^ (w - 1) := by
  obtain ⟨k, rfl⟩ : ∃ k, w = k + 1 := ⟨w - 1, by omega⟩
  simp [Int.pow_succ, Int.mul_comm]

theorem intLimit_ne (n : Nat) : intLimit n ≠ 0 := by
  have := two_pow_pos n; unfold intLimit; omega

theorem smod_of_ne {S : Smt} {a b : Int} (h : b ≠ 0) : smod S a b = a % b := by
  simp [smod, h]; rfl
theorem idiv_of_ne {S : Smt} {a b : Int} (h : b ≠ 0) : idiv S a b = a / b := by
  simp [idiv, h]; rfl

theorem tou_eq_emod (S : Smt) (w : Nat) (i : Int) : tou S w i = i % 2 ^ w := by
  unfold tou
  split
  · rename_i h
    exact (Int.emod_eq_of_lt h.1 h.2).symm
  · rw [smod_of_ne (intLimit_ne w)]; rfl

theorem tou_eq (S : Smt) (w : Nat) (i : Int) : tou S w i = ((BitVec.ofInt w i).toNat : Int) := by
  rw [tou_eq_emod, BitVec.toNat_ofInt]
  have hp := two_pow_pos w
  have := Int.emod_nonneg i (b := (2:Int)^w) (by omega)
  push_cast
  omega

theorem bmod_char {w : Nat} (hw : 1 ≤ w) {i r : Int} (h1 : -(2:Int)^(w-1) ≤ r) (h2 : r < (2:Int)^(w-1))
    (h3 : r % 2^w = i % 2^w) : r = i.bmod (2^w) := by
  have hs := two_pow_split hw
  have hc : ((2^w : Nat) : Int) = (2:Int)^w := by push_cast; rfl
  have : r.bmod (2^w) = r := by
    apply Int.bmod_eq_of_le
    · rw [hc, hs]; omega
    · rw [hc, hs]; omega
  rw [← this, ← Int.emod_bmod, ← Int.emod_bmod i, hc, h3]

theorem tos_eq (S : Smt) {w : Nat} (hw : 1 ≤ w) (i : Int) : tos S w i = (BitVec.ofInt w i).toInt := by
  rw [BitVec.toInt_ofInt]
  have hs := two_pow_split hw
  have hp := two_pow_pos (w - 1)
  unfold tos
  split
  · rename_i h
    exact bmod_char hw h.1 h.2 rfl
  · rw [smod_of_ne (intLimit_ne w)]
    have h1 := Int.emod_nonneg (i + intLimit (w-1)) (intLimit_ne w)
    have h2 := Int.emod_lt_of_pos (i + intLimit (w-1)) (b := intLimit w) (two_pow_pos w)
    have h3 := Int.emod_emod_of_dvd (i + intLimit (w-1)) (Int.dvd_refl (intLimit w))
    unfold intLimit at *
    apply bmod_char hw
    · omega
    · omega
    · rw [Int.sub_emod, h3, ← Int.sub_emod]; congr 1; omega

theorem wrapped_u (S : Smt) (w : Nat) (i : Int) :
    wrapped S .wrapped w i true = ((BitVec.ofInt w i).toNat : Int) := tou_eq S w i
theorem wrapped_s (S : Smt) {w : Nat} (hw : 1 ≤ w) (i : Int) :
    wrapped S .wrapped w i false = (BitVec.ofInt w i).toInt := tos_eq S hw i

theorem ofInt_sub' {w : Nat} (a b : Int) : BitVec.ofInt w (a - b) = BitVec.ofInt w a - BitVec.ofInt w b := by
  rw [Int.sub_eq_add_neg, BitVec.ofInt_add, BitVec.ofInt_neg, BitVec.sub_eq_add_neg]

theorem ofInt_toNat {w : Nat} (x : BitVec w) : BitVec.ofInt w (x.toNat : Int) = x := by
  rw [BitVec.ofInt_natCast]; simp

theorem predBool_eq (S : Smt) (p : Pred) {w : Nat} (hw : 1 ≤ w) (a b : Int) :
    predBool S .wrapped p w a b = icmp p (BitVec.ofInt w a) (BitVec.ofInt w b) := by
  cases p <;> simp only [predBool, Pred.signed, Pred.op, Bool.not_true, Bool.not_false,
    wrapped_u, wrapped_s S hw, icmp]
  all_goals first
    | (apply Bool.eq_iff_iff.mpr; simp [← BitVec.toNat_inj]; try omega)
    | (congr 1; apply propext; omega)
    | rfl

theorem bv_toNat_zero {w : Nat} (y : BitVec w) : ((y.toNat : Int) = 0) ↔ y.toNat = 0 := by omega

/-- `$udiv` on unnormalised operands. -/
theorem udiv_eq (S : Smt) {w : Nat} (a b : Int) (hb : (BitVec.ofInt w b).toNat ≠ 0) :
    udiv S .wrapped w a b = (((BitVec.ofInt w a).toNat / (BitVec.ofInt w b).toNat : Nat) : Int) := by
  unfold udiv
  rw [wrapped_u, wrapped_u, idiv_of_ne (by omega)]
  push_cast; rfl

theorem urem_eq (S : Smt) {w : Nat} (a b : Int) (hb : (BitVec.ofInt w b).toNat ≠ 0) :
    urem S .wrapped w a b = (((BitVec.ofInt w a).toNat % (BitVec.ofInt w b).toNat : Nat) : Int) := by
  unfold urem
  rw [wrapped_u, wrapped_u, smod_of_ne (by omega)]
  push_cast; rfl

theorem ofInt_zero_toInt (w : Nat) : (BitVec.ofInt w 0).toInt = 0 := by
  rw [BitVec.toInt_ofInt]; simp

theorem toNat_ofInt_lt {w : Nat} {i : Int} (h0 : 0 ≤ i) (h1 : i < 2^w) : ((BitVec.ofInt w i).toNat : Int) = i := by
  rw [← tou_eq Smt.std, tou_eq_emod, Int.emod_eq_of_lt h0 h1]

theorem toInt_ofInt_range {w : Nat} (hw : 1 ≤ w) {i : Int} (h0 : -(2:Int)^(w-1) ≤ i) (h1 : i < 2^(w-1)) :
    (BitVec.ofInt w i).toInt = i := by
  rw [BitVec.toInt_ofInt]; exact (bmod_char hw h0 h1 rfl).symm

theorem bv_zero_iff_toInt {w : Nat} (x : BitVec w) : x.toInt = 0 ↔ x = 0#w := by
  constructor
  · intro h; apply BitVec.eq_of_toInt_eq; simpa using h
  · rintro rfl; simp

/-- `$srem` on signed-normalised operands, wrapped encoding. -/
theorem srem_eq (S : Smt) {w : Nat} (hw : 1 ≤ w) (a b : Int)
    (hb : (BitVec.ofInt w b).toInt ≠ 0) :
    srem S .wrapped w a b = (BitVec.ofInt w a).toInt.tmod (BitVec.ofInt w b).toInt := by
  unfold srem
  simp only [wrapped_s S hw]
  rw [smod_of_ne hb]
  generalize hx : (BitVec.ofInt w a) = x at *
  generalize hy : (BitVec.ofInt w b) = y at *
  have hxl := BitVec.le_toInt x
  have hxu := BitVec.toInt_lt (x := x)
  have hyl := BitVec.le_toInt y
  have hyu := BitVec.toInt_lt (x := y)
  have hp := two_pow_split hw
  have hpp := two_pow_pos (w-1)
  have hm0 := Int.emod_nonneg x.toInt hb
  have hm1 := Int.emod_lt x.toInt hb
  have hm2 : x.toInt % y.toInt < 2^w := by omega
  have hne : predBool S .wrapped .ne w (x.toInt % y.toInt) 0 = decide (x.toInt % y.toInt ≠ 0) := by
    simp only [predBool, Pred.signed, Pred.op, Bool.not_false, wrapped_u]
    rw [toNat_ofInt_lt hm0 hm2]
    have : ((BitVec.ofInt w 0).toNat : Int) = 0 := toNat_ofInt_lt (by omega) (two_pow_pos w)
    rw [this]
    by_cases h : x.toInt % y.toInt = 0 <;> simp [h]
  have hlt : predBool S .wrapped .slt w x.toInt 0 = decide (x.toInt < 0) := by
    simp only [predBool, Pred.signed, Pred.op, Bool.not_true, wrapped_s S hw]
    rw [ofInt_zero_toInt, BitVec.ofInt_toInt]
  have hmax : minMax S .wrapped false true w y.toInt (isub 0 y.toInt) = (y.toInt.natAbs : Int) := by
    simp only [minMax, predBool, Pred.signed, Pred.op, Bool.not_true, wrapped_s S hw, isub,
      BitVec.ofInt_toInt]
    by_cases hmin : y.toInt = -(2:Int)^(w-1)
    · have hneg : (BitVec.ofInt w (0 - y.toInt)).toInt = y.toInt := by
        rw [BitVec.toInt_ofInt]
        symm
        apply bmod_char hw hyl hyu
        have : 0 - y.toInt = y.toInt + 2^w := by omega
        rw [this]; simp
      rw [hneg]; simp; omega
    · rw [toInt_ofInt_range hw (by omega) (by omega)]
      split
      · rename_i h; simp at h; omega
      · rename_i h; simp at h; omega
  rw [hne, hlt, hmax, Int.tmod_eq_emod]
  simp only [isub]
  by_cases h0 : x.toInt % y.toInt = 0
  · simp [h0, Int.dvd_of_emod_eq_zero h0]
  · have hnd : ¬ y.toInt ∣ x.toInt := fun h => h0 (Int.emod_eq_zero_of_dvd h)
    by_cases hx0 : x.toInt < 0
    · have : ¬ (0 ≤ x.toInt ∨ y.toInt ∣ x.toInt) := by
        rintro (h | h)
        · omega
        · exact hnd h
      simp [h0, hx0, this]
    · have : 0 ≤ x.toInt := by omega
      simp [h0, hx0, this]

theorem sdiv_eq (S : Smt) {w : Nat} (hw : 1 ≤ w) (a b : Int)
    (hb : (BitVec.ofInt w b).toInt ≠ 0) :
    sdiv S .wrapped w a b = (BitVec.ofInt w a).toInt / (BitVec.ofInt w b).toInt := by
  unfold sdiv
  rw [wrapped_s S hw, wrapped_s S hw, idiv_of_ne hb]

theorem Expr.WellTyped.pos {w : Nat} {e : Expr w} (h : e.WellTyped) : 1 ≤ w := by
  induction e with
  | var | lit => exact h
  | add _ _ ih | sub _ _ ih | mul _ _ ih | udiv _ _ ih | sdiv _ _ ih | urem _ _ ih | srem _ _ ih
  | minMax _ _ _ _ ih => exact ih h.1
  | trunc => exact h.1
  | zext | sext => have := h.1; omega
  | icmp => omega
  | select _ _ _ _ ih => exact ih h.2.1
  | logic1 => omega

theorem apAbs_toNat {w : Nat} (c : BitVec w) (h : c.msb = true) : ((apAbs c).toNat : Int) = -c.toInt := by
  unfold apAbs
  simp only [h, if_true]
  rw [BitVec.toInt_eq_msb_cond]
  simp only [h, if_true]
  have h1 := c.isLt
  have : c.toNat ≠ 0 := by
    intro h0
    have : c = 0#w := by apply BitVec.eq_of_toNat_eq; simpa using h0
    subst this; simp at h
  rw [BitVec.toNat_neg, Nat.mod_eq_of_lt (by omega)]
  rw [Int.ofNat_sub (by omega)]
  push_cast
  omega

theorem litInt_ofInt {w : Nat} {u ui : Bool} {c : BitVec w} {i : Int} (h : litInt u ui c = some i) :
    BitVec.ofInt w i = c := by
  unfold litInt at h
  rw [Option.map_eq_some_iff] at h
  obtain ⟨neg, hn, rfl⟩ := h
  cases neg with
  | false => exact ofInt_toNat c
  | true =>
    have hmsb : c.msb = true := by
      unfold litNeg at hn
      split at hn
      · split at hn
        · split at hn
          · simp at hn
          · simp only [Option.map_eq_some_iff, beq_iff_eq] at hn
            obtain ⟨v, hv, hv1⟩ := hn
            unfold getSExtValue at hv
            split at hv
            · simp at hv
              rw [BitVec.msb_eq_toInt]; simp; omega
            · simp at hv
        · simpa using hn
      · simp at hn
    simp only [if_true, isub, apAbs_toNat c hmsb]
    rw [show (0:Int) - -c.toInt = c.toInt by omega, BitVec.ofInt_toInt]

theorem ofBool_ofInt (b : Bool) : BitVec.ofInt 1 (if b then 1 else 0) = BitVec.ofBool b := by
  cases b <;> decide

theorem Expr.Truth.width {ρ : Nat → Int} {w : Nat} {e : Expr w} (h : e.Truth ρ) : w = 1 := by
  cases e <;> simp only [Expr.Truth] at h <;> first | rfl | exact h | exact h.1 | exact h.elim

theorem truth_toInt {i : Int} (h : i = 0 ∨ i = 1) : i = (i == 1).toInt := by
  rcases h with rfl | rfl <;> rfl

theorem trunc_ofInt {w w' : Nat} (h : w' ≤ w) (i : Int) :
    BitVec.ofInt w' i = BitVec.ofNat w' (BitVec.ofInt w i).toNat := by
  apply BitVec.eq_of_toNat_eq
  have e1 := tou_eq Smt.std w' i
  have e2 := tou_eq Smt.std w i
  rw [tou_eq_emod] at e1 e2
  rw [BitVec.toNat_ofNat]
  have : ((BitVec.ofInt w' i).toNat : Int) = (((BitVec.ofInt w i).toNat % 2 ^ w' : Nat) : Int) := by
    push_cast
    rw [← e1, ← e2]
    rw [Int.emod_emod_of_dvd]
    exact ⟨2 ^ (w - w'), by rw [← Int.pow_add]; congr 1; omega⟩
  omega

theorem sdiv_exact {a b : Int} (h : 0 ≤ a ∨ b ∣ a) : a / b = a.tdiv b := by
  rw [Int.tdiv_eq_ediv]; simp [h]

theorem minMax_or (S : Smt) (enc : Enc) (isMin sign : Bool) (w : Nat) (a b : Int) :
    IntOps.minMax S enc isMin sign w a b = a ∨ IntOps.minMax S enc isMin sign w a b = b := by
  cases isMin <;> cases sign <;> simp only [IntOps.minMax] <;> split <;> simp

/-- Main induction for the wrapped encoding. -/
theorem wrapped_main (S : Smt) (ρ : Nat → Int) (m : Nat → (w : Nat) → BitVec w)
    (hm : ∀ n w, m n w = BitVec.ofInt w (ρ n)) {w : Nat} (e : Expr w) :
    e.WellTyped → e.NormalCond ρ → e.SdivExact m → ∀ v i, e.evalBv m = some v →
    e.evalInt S .wrapped ρ = some i → BitVec.ofInt w i = v ∧ (e.Truth ρ → i = 0 ∨ i = 1) := by
  induction e with
  | var w n =>
    intro _ _ _ v i hv hi
    simp only [Expr.evalBv, Expr.evalInt, Option.some.injEq] at hv hi
    subst hv hi
    exact ⟨(hm n w).symm, fun h => h.2⟩
  | @lit w u ui c =>
    intro _ _ _ v i hv hi
    simp only [Expr.evalBv, Expr.evalInt, Option.some.injEq] at hv hi
    subst hv
    refine ⟨litInt_ofInt hi, fun h => ?_⟩
    simp only [Expr.Truth] at h
    subst h
    simp [litInt, litNeg] at hi
    have := c.isLt
    omega
  | @add w a b iha ihb =>
    intro hw hn hs v i hv hi
    simp only [Expr.evalBv, Expr.evalInt, bind, pure, Option.bind_eq_some_iff, Option.some.injEq] at hv hi
    obtain ⟨x, hx, y, hy, rfl⟩ := hv
    obtain ⟨p, hp, q, hq, rfl⟩ := hi
    have h1 := (iha hw.1 hn.1 hs.1 _ _ hx hp).1
    have h2 := (ihb hw.2 hn.2 hs.2 _ _ hy hq).1
    refine ⟨?_, fun h => h.elim⟩
    subst h1 h2
    exact BitVec.ofInt_add _ _
  | @sub w a b iha ihb =>
    intro hw hn hs v i hv hi
    simp only [Expr.evalBv, Expr.evalInt, bind, pure, Option.bind_eq_some_iff, Option.some.injEq] at hv hi
    obtain ⟨x, hx, y, hy, rfl⟩ := hv
    obtain ⟨p, hp, q, hq, rfl⟩ := hi
    have h1 := (iha hw.1 hn.1 hs.1 _ _ hx hp).1
    have h2 := (ihb hw.2 hn.2 hs.2 _ _ hy hq).1
    refine ⟨?_, fun h => h.elim⟩
    subst h1 h2
    exact ofInt_sub' _ _
  | @mul w a b iha ihb =>
    intro hw hn hs v i hv hi
    simp only [Expr.evalBv, Expr.evalInt, bind, pure, Option.bind_eq_some_iff, Option.some.injEq] at hv hi
    obtain ⟨x, hx, y, hy, rfl⟩ := hv
    obtain ⟨p, hp, q, hq, rfl⟩ := hi
    have h1 := (iha hw.1 hn.1 hs.1 _ _ hx hp).1
    have h2 := (ihb hw.2 hn.2 hs.2 _ _ hy hq).1
    refine ⟨?_, fun h => h.elim⟩
    subst h1 h2
    exact BitVec.ofInt_mul _ _
  | @udiv w a b iha ihb =>
    intro hw hn hs v i hv hi
    simp only [Expr.evalBv, Expr.evalInt, bind, pure, Option.bind_eq_some_iff, Option.some.injEq] at hv hi
    obtain ⟨x, hx, y, hy, hv⟩ := hv
    obtain ⟨p, hp, q, hq, rfl⟩ := hi
    have h1 := (iha hw.1 hn.1 hs.1 _ _ hx hp).1
    have h2 := (ihb hw.2 hn.2 hs.2 _ _ hy hq).1
    refine ⟨?_, fun h => h.elim⟩
    subst h1 h2
    split at hv
    · simp at hv
    · rename_i hne
      simp at hv
      rw [udiv_eq S p q hne, BitVec.ofInt_natCast]; exact hv
  | @urem w a b iha ihb =>
    intro hw hn hs v i hv hi
    simp only [Expr.evalBv, Expr.evalInt, bind, pure, Option.bind_eq_some_iff, Option.some.injEq] at hv hi
    obtain ⟨x, hx, y, hy, hv⟩ := hv
    obtain ⟨p, hp, q, hq, rfl⟩ := hi
    have h1 := (iha hw.1 hn.1 hs.1 _ _ hx hp).1
    have h2 := (ihb hw.2 hn.2 hs.2 _ _ hy hq).1
    refine ⟨?_, fun h => h.elim⟩
    subst h1 h2
    split at hv
    · simp at hv
    · rename_i hne
      simp at hv
      rw [urem_eq S p q hne, BitVec.ofInt_natCast]; exact hv
  | @sdiv w a b iha ihb =>
    intro hw hn hs v i hv hi
    simp only [Expr.evalBv, Expr.evalInt, bind, pure, Option.bind_eq_some_iff, Option.some.injEq] at hv hi
    obtain ⟨x, hx, y, hy, hv⟩ := hv
    obtain ⟨p, hp, q, hq, rfl⟩ := hi
    have h1 := (iha hw.1 hn.1 hs.1 _ _ hx hp).1
    have h2 := (ihb hw.2 hn.2 hs.2.1 _ _ hy hq).1
    have h3 := hs.2.2 x y hx hy
    refine ⟨?_, fun h => h.elim⟩
    subst h1 h2
    split at hv
    · simp at hv
    · rename_i hne
      simp only [Option.some.injEq] at hv
      rw [sdiv_eq S hw.1.pos p q (fun h => hne (Or.inl h)), sdiv_exact h3]; exact hv
  | @srem w a b iha ihb =>
    intro hw hn hs v i hv hi
    simp only [Expr.evalBv, Expr.evalInt, bind, pure, Option.bind_eq_some_iff, Option.some.injEq] at hv hi
    obtain ⟨x, hx, y, hy, hv⟩ := hv
    obtain ⟨p, hp, q, hq, rfl⟩ := hi
    have h1 := (iha hw.1 hn.1 hs.1 _ _ hx hp).1
    have h2 := (ihb hw.2 hn.2 hs.2 _ _ hy hq).1
    refine ⟨?_, fun h => h.elim⟩
    subst h1 h2
    split at hv
    · simp at hv
    · rename_i hne
      simp only [Option.some.injEq] at hv
      rw [srem_eq S hw.1.pos p q (fun h => hne (Or.inl h))]; exact hv
  | @minMax w isMin sign a b iha ihb =>
    intro hw hn hs v i hv hi
    simp only [Expr.evalBv, Expr.evalInt, bind, pure, Option.bind_eq_some_iff, Option.some.injEq] at hv hi
    obtain ⟨x, hx, y, hy, hv⟩ := hv
    obtain ⟨p, hp, q, hq, rfl⟩ := hi
    have h1 := iha hw.1 hn.1 hs.1 _ _ hx hp
    have h2 := ihb hw.2 hn.2 hs.2 _ _ hy hq
    have hpos := hw.1.pos
    refine ⟨?_, fun h => ?_⟩
    · obtain ⟨h1, _⟩ := h1
      obtain ⟨h2, _⟩ := h2
      subst h1 h2 hv
      unfold IntOps.minMax
      cases isMin <;> cases sign <;> simp only [predBool_eq S _ hpos, icmp, decide_eq_true_eq, if_true,
        Bool.false_eq_true, if_false]
      all_goals (split <;> (try split) <;> try rfl)
      all_goals first
        | omega
        | (apply BitVec.eq_of_toNat_eq; omega)
        | (apply BitVec.eq_of_toInt_eq; omega)
    · rcases minMax_or S .wrapped isMin sign w p q with he | he <;> rw [he]
      · exact h1.2 h.2.1
      · exact h2.2 h.2.2
  | @trunc w w' a iha =>
    intro hw hn hs v i hv hi
    simp only [Expr.evalBv, Expr.evalInt, bind, pure, Option.bind_eq_some_iff, Option.some.injEq] at hv hi
    obtain ⟨x, hx, rfl⟩ := hv
    obtain ⟨p, hp, rfl⟩ := hi
    have h1 := (iha hw.2.2 hn hs _ _ hx hp).1
    have hle : w' ≤ w := by have := hw.2.1; omega
    subst h1
    simp only [IntOps.trunc, wrapped_u]
    refine ⟨?_, fun h => ?_⟩
    · rw [ofInt_toNat, trunc_ofInt hle]
    · simp only [Expr.Truth] at h
      subst h
      have := (BitVec.ofInt 1 p).isLt
      omega
  | @zext w w' a iha =>
    intro hw hn hs v i hv hi
    simp only [Expr.evalBv, Expr.evalInt, bind, pure, Option.bind_eq_some_iff, Option.some.injEq] at hv hi
    obtain ⟨x, hx, rfl⟩ := hv
    obtain ⟨p, hp, rfl⟩ := hi
    have h1 := (iha hw.2 hn hs _ _ hx hp).1
    subst h1
    simp only [IntOps.zext, wrapped_u]
    exact ⟨BitVec.ofInt_natCast .., fun h => h.elim⟩
  | @sext w w' a iha =>
    intro hw hn hs v i hv hi
    simp only [Expr.evalBv, Expr.evalInt, bind, pure, Option.bind_eq_some_iff, Option.some.injEq] at hv hi
    obtain ⟨x, hx, rfl⟩ := hv
    obtain ⟨p, hp, rfl⟩ := hi
    have h1 := (iha hw.2 hn hs _ _ hx hp).1
    subst h1
    simp only [IntOps.sext, wrapped_s S hw.2.pos]
    exact ⟨trivial, fun h => h.elim⟩
  | @icmp w p a b iha ihb =>
    intro hw hn hs v i hv hi
    simp only [Expr.evalBv, Expr.evalInt, bind, pure, Option.bind_eq_some_iff, Option.some.injEq] at hv hi
    obtain ⟨x, hx, y, hy, rfl⟩ := hv
    obtain ⟨p', hp, q, hq, rfl⟩ := hi
    have h1 := (iha hw.1 hn.1 hs.1 _ _ hx hp).1
    have h2 := (ihb hw.2 hn.2 hs.2 _ _ hy hq).1
    subst h1 h2
    unfold pred
    rw [predBool_eq S p hw.1.pos]
    exact ⟨ofBool_ofInt _, fun _ => by split <;> simp⟩
  | @select w c a b ihc iha ihb =>
    intro hw hn hs v i hv hi
    simp only [Expr.evalBv, Expr.evalInt, bind, pure, Option.bind_eq_some_iff, Option.some.injEq] at hv hi
    obtain ⟨cv, hcv, x, hx, y, hy, rfl⟩ := hv
    obtain ⟨ci, hci, p, hp, q, hq, rfl⟩ := hi
    have h0 := ihc hw.1 hn.1 hs.1 _ _ hcv hci
    have h1 := iha hw.2.1 hn.2.1 hs.2.1 _ _ hx hp
    have h2 := ihb hw.2.2 hn.2.2.1 hs.2.2 _ _ hy hq
    have hc := h0.2 hn.2.2.2
    obtain ⟨h0, _⟩ := h0
    subst h0
    rcases hc with rfl | rfl
    · simp only [show ¬ (BitVec.ofInt 1 0 = 1#1) by decide, show ¬ ((0:Int) = 1) by decide, if_false]
      exact ⟨h2.1, fun h => h2.2 h.2.2⟩
    · simp only [show (BitVec.ofInt 1 1 = 1#1) by decide, if_true]
      exact ⟨h1.1, fun h => h1.2 h.2.1⟩
  | logic1 op a b iha ihb =>
    intro hw hn hs v i hv hi
    simp only [Expr.evalBv, Expr.evalInt, bind, pure, Option.bind_eq_some_iff, Option.some.injEq] at hv hi
    obtain ⟨x, hx, y, hy, rfl⟩ := hv
    obtain ⟨p, hp, q, hq, rfl⟩ := hi
    obtain ⟨h1, h1t⟩ := iha hw.1 hn.1 hs.1 _ _ hx hp
    obtain ⟨h2, h2t⟩ := ihb hw.2 hn.2.1 hs.2 _ _ hy hq
    have hp1 := truth_toInt (h1t hn.2.2.1)
    have hq1 := truth_toInt (h2t hn.2.2.2)
    generalize (p == 1) = pb at hp1
    generalize (q == 1) = qb at hq1
    subst hp1 hq1 h1 h2
    rw [S.logic1_ax]
    exact ⟨by cases op <;> cases pb <;> cases qb <;> decide, fun _ => by cases op <;> cases pb <;> cases qb <;> decide⟩

/-! ### Unbounded encoding -/

theorem reading_inRange {w : Nat} (hw : 1 ≤ w) (v : BitVec w) : InRange w (reading v) := by
  unfold InRange reading
  by_cases h : w = 1
  · subst h; have := v.isLt; simp; omega
  · simp only [h, if_false]
    exact ⟨BitVec.le_toInt v, BitVec.toInt_lt⟩

theorem ofInt_reading {w : Nat} (v : BitVec w) : BitVec.ofInt w (reading v) = v := by
  unfold reading
  split
  · exact ofInt_toNat v
  · exact BitVec.ofInt_toInt

theorem reading_ofInt {w : Nat} (hw : 1 ≤ w) {x : Int} (h : InRange w x) :
    reading (BitVec.ofInt w x) = x := by
  unfold InRange at h
  unfold reading
  by_cases h1 : w = 1
  · subst h1
    simp only [if_true] at h ⊢
    exact toNat_ofInt_lt h.1 (by omega)
  · simp only [h1, if_false] at h ⊢
    exact toInt_ofInt_range hw h.1 h.2

theorem reading_inj {w : Nat} {a b : BitVec w} (h : reading a = reading b) : a = b := by
  rw [← ofInt_reading a, ← ofInt_reading b, h]

theorem reading_nonneg_toNat {w : Nat} {a : BitVec w} (h : 0 ≤ reading a) : (a.toNat : Int) = reading a := by
  unfold reading at h ⊢
  split
  · rfl
  · rename_i h1
    simp only [h1, if_false] at h
    rw [BitVec.toInt_eq_toNat_cond] at h ⊢
    split
    · rfl
    · rename_i h2
      simp only [h2, if_false] at h
      have := a.isLt
      omega

theorem reading_toInt {w : Nat} {a : BitVec w} (h : w ≠ 1) : a.toInt = reading a := by
  simp [reading, h]

theorem inRange_of_le {w : Nat} {x y : Int} (hy : InRange w y) (h0 : 0 ≤ x) (h1 : x ≤ y) : InRange w x := by
  unfold InRange at *
  have := two_pow_pos (w-1)
  split <;> simp_all <;> omega

theorem litInt_reading {w : Nat} {u ui : Bool} {c : BitVec w} {i : Int}
    (h : litInt u ui c = some i) (hc : 0 ≤ reading c ∨ u = false) : i = reading c := by
  by_cases hw : w = 1
  · subst hw
    simp [litInt, litNeg] at h
    simp [reading, h]
  by_cases hmsb : c.msb = true
  · have hneg : c.toInt < 0 := by
      rw [BitVec.msb_eq_toInt] at hmsb; simpa using hmsb
    rw [← reading_toInt hw] at hc ⊢
    have hu : u = false := by
      rcases hc with h0 | h0
      · omega
      · exact h0
    have hw1 : w > 1 := by
      by_cases h0 : w = 0
      · subst h0; simp [BitVec.msb_eq_decide] at hmsb
        have := c.isLt; simp at this; omega
      · omega
    subst hu
    simp only [litInt, litNeg, hw1, if_true, Bool.false_eq_true, if_false, hmsb, Option.map_some,
      Option.some.injEq, isub] at h
    have := apAbs_toNat c hmsb
    rw [← h, this]
    exact (by omega : (0:Int) - -c.toInt = c.toInt)
  · have hpos : 0 ≤ c.toInt := by
      rw [BitVec.msb_eq_toInt] at hmsb; simpa using hmsb
    have hni : litNeg u ui c = some false ∨ litNeg u ui c = none := by
      unfold litNeg getSExtValue
      split
      · split
        · split
          · simp
          · split
            · simp; omega
            · simp
        · simp [hmsb]
      · simp
    rw [← reading_toInt hw, reading_toInt hw, ← reading_nonneg_toNat (by rw [← reading_toInt hw]; exact hpos)]
    rcases hni with h0 | h0 <;> simp [litInt, h0] at h
    omega

theorem tmod_range {w : Nat} (hw : w ≠ 1) {x y : Int} (hy0 : y ≠ 0) (hx : InRange w x) (hy : InRange w y) :
    InRange w (x.tmod y) := by
  unfold InRange at *
  simp only [hw, if_false] at *
  have h1 := Int.emod_nonneg x hy0
  have h2 := Int.emod_lt x hy0
  rw [Int.tmod_eq_emod]
  split <;> omega

theorem srem_unbounded (S : Smt) (w : Nat) {x y : Int} (hy : y ≠ 0) :
    IntOps.srem S .unbounded w x y = x.tmod y := by
  simp only [IntOps.srem, wrapped, predBool, Pred.op, minMax, isub]
  simp only [smod_of_ne hy]
  rw [Int.tmod_eq_emod]
  by_cases h0 : x % y = 0
  · simp [h0, Int.dvd_of_emod_eq_zero h0]
  · have hnd : ¬ y ∣ x := fun h => h0 (Int.emod_eq_zero_of_dvd h)
    by_cases hx0 : x < 0
    · have hn : ¬ (0 ≤ x ∨ y ∣ x) := by
        rintro (h | h)
        · omega
        · exact hnd h
      simp [h0, hx0, hn]
      split <;> omega
    · have : 0 ≤ x := by omega
      simp [hx0, this]

theorem minMax_unbounded (S : Smt) (isMin sign : Bool) (w : Nat) (a b : Int) :
    IntOps.minMax S .unbounded isMin sign w a b = if isMin then min a b else max a b := by
  have hp : ∀ p, predBool S .unbounded p w a b = p.op a b := fun _ => rfl
  cases isMin <;> cases sign <;> simp only [IntOps.minMax, hp] <;> simp [Pred.op] <;> omega

theorem exact_main (S : Smt) (ρ : Nat → Int) (m : Nat → (w : Nat) → BitVec w) {w : Nat} (e : Expr w) :
    e.WellTyped → e.Reads m ρ → ∀ x, e.exact m = some x →
    (∃ v, e.evalBv m = some v ∧ reading v = x) ∧ (∀ i, e.evalInt S .unbounded ρ = some i → i = x) := by
  induction e with
  | var w n =>
    intro _ hr x hx
    simp only [Expr.exact, Option.some.injEq] at hx
    subst hx
    refine ⟨⟨_, rfl, rfl⟩, fun i hi => ?_⟩
    simp only [Expr.evalInt, Option.some.injEq] at hi
    rw [← hi]; exact hr
  | @lit w u ui c =>
    intro _ _ x hx
    simp only [Expr.exact] at hx
    split at hx
    · rename_i hc
      simp only [Option.some.injEq] at hx
      subst hx
      exact ⟨⟨_, rfl, rfl⟩, fun i hi => litInt_reading hi hc⟩
    · simp at hx
  | @add w a b iha ihb =>
    intro hw hr z hz
    simp only [Expr.exact, bind, pure, Option.bind_eq_some_iff] at hz
    obtain ⟨x, hx, y, hy, hz⟩ := hz
    split at hz <;> simp only [Option.some.injEq, reduceCtorEq] at hz
    rename_i hin
    subst hz
    obtain ⟨⟨v1, hv1, rfl⟩, hi1⟩ := iha hw.1 hr.1 _ hx
    obtain ⟨⟨v2, hv2, rfl⟩, hi2⟩ := ihb hw.2 hr.2 _ hy
    refine ⟨⟨v1 + v2, by simp [Expr.evalBv, hv1, hv2], ?_⟩, fun i hi => ?_⟩
    · rw [← reading_ofInt hw.1.pos hin, BitVec.ofInt_add, ofInt_reading, ofInt_reading]
    · simp only [Expr.evalInt, bind, pure, Option.bind_eq_some_iff, Option.some.injEq] at hi
      obtain ⟨p, hp, q, hq, rfl⟩ := hi
      rw [← hi1 _ hp, ← hi2 _ hq]; rfl
  | @sub w a b iha ihb =>
    intro hw hr z hz
    simp only [Expr.exact, bind, pure, Option.bind_eq_some_iff] at hz
    obtain ⟨x, hx, y, hy, hz⟩ := hz
    split at hz <;> simp only [Option.some.injEq, reduceCtorEq] at hz
    rename_i hin
    subst hz
    obtain ⟨⟨v1, hv1, rfl⟩, hi1⟩ := iha hw.1 hr.1 _ hx
    obtain ⟨⟨v2, hv2, rfl⟩, hi2⟩ := ihb hw.2 hr.2 _ hy
    refine ⟨⟨v1 - v2, by simp [Expr.evalBv, hv1, hv2], ?_⟩, fun i hi => ?_⟩
    · rw [← reading_ofInt hw.1.pos hin, ofInt_sub', ofInt_reading, ofInt_reading]
    · simp only [Expr.evalInt, bind, pure, Option.bind_eq_some_iff, Option.some.injEq] at hi
      obtain ⟨p, hp, q, hq, rfl⟩ := hi
      rw [← hi1 _ hp, ← hi2 _ hq]; rfl
  | @mul w a b iha ihb =>
    intro hw hr z hz
    simp only [Expr.exact, bind, pure, Option.bind_eq_some_iff] at hz
    obtain ⟨x, hx, y, hy, hz⟩ := hz
    split at hz <;> simp only [Option.some.injEq, reduceCtorEq] at hz
    rename_i hin
    subst hz
    obtain ⟨⟨v1, hv1, rfl⟩, hi1⟩ := iha hw.1 hr.1 _ hx
    obtain ⟨⟨v2, hv2, rfl⟩, hi2⟩ := ihb hw.2 hr.2 _ hy
    refine ⟨⟨v1 * v2, by simp [Expr.evalBv, hv1, hv2], ?_⟩, fun i hi => ?_⟩
    · rw [← reading_ofInt hw.1.pos hin, BitVec.ofInt_mul, ofInt_reading, ofInt_reading]
    · simp only [Expr.evalInt, bind, pure, Option.bind_eq_some_iff, Option.some.injEq] at hi
      obtain ⟨p, hp, q, hq, rfl⟩ := hi
      rw [← hi1 _ hp, ← hi2 _ hq]; rfl
  | @udiv w a b iha ihb =>
    intro hw hr z hz
    simp only [Expr.exact, bind, pure, Option.bind_eq_some_iff] at hz
    obtain ⟨x, hx, y, hy, hz⟩ := hz
    split at hz <;> simp only [Option.some.injEq, reduceCtorEq] at hz
    rename_i hin
    subst hz
    obtain ⟨⟨v1, hv1, rfl⟩, hi1⟩ := iha hw.1 hr.1 _ hx
    obtain ⟨⟨v2, hv2, rfl⟩, hi2⟩ := ihb hw.2 hr.2 _ hy
    have n1 := reading_nonneg_toNat hin.1
    have n2 := reading_nonneg_toNat (a := v2) (by omega)
    have hd : reading v1 / reading v2 = ((v1.toNat / v2.toNat : Nat) : Int) := by
      rw [← n1, ← n2]; push_cast; rfl
    have hin' : InRange w (reading v1 / reading v2) :=
      inRange_of_le (reading_inRange hw.1.pos v1) (Int.ediv_nonneg hin.1 (by omega)) (Int.ediv_le_self _ hin.1)
    refine ⟨⟨BitVec.ofNat w (v1.toNat / v2.toNat), ?_, ?_⟩, fun i hi => ?_⟩
    · simp only [Expr.evalBv, hv1, hv2, bind, pure, Option.bind_some]
      rw [if_neg (by omega)]
    · rw [← reading_ofInt hw.1.pos hin', hd, BitVec.ofInt_natCast]
    · simp only [Expr.evalInt, bind, pure, Option.bind_eq_some_iff, Option.some.injEq] at hi
      obtain ⟨p, hp, q, hq, rfl⟩ := hi
      rw [hi1 _ hp, hi2 _ hq]
      simp only [IntOps.udiv, wrapped]
      rw [idiv_of_ne (by omega)]
  | @urem w a b iha ihb =>
    intro hw hr z hz
    simp only [Expr.exact, bind, pure, Option.bind_eq_some_iff] at hz
    obtain ⟨x, hx, y, hy, hz⟩ := hz
    split at hz <;> simp only [Option.some.injEq, reduceCtorEq] at hz
    rename_i hin
    subst hz
    obtain ⟨⟨v1, hv1, rfl⟩, hi1⟩ := iha hw.1 hr.1 _ hx
    obtain ⟨⟨v2, hv2, rfl⟩, hi2⟩ := ihb hw.2 hr.2 _ hy
    have n1 := reading_nonneg_toNat hin.1
    have n2 := reading_nonneg_toNat (a := v2) (by omega)
    have hd : reading v1 % reading v2 = ((v1.toNat % v2.toNat : Nat) : Int) := by
      rw [← n1, ← n2]; push_cast; rfl
    have hin' : InRange w (reading v1 % reading v2) :=
      inRange_of_le (reading_inRange hw.1.pos v2) (Int.emod_nonneg _ (by omega))
        (Int.le_of_lt (Int.emod_lt_of_pos _ hin.2))
    refine ⟨⟨BitVec.ofNat w (v1.toNat % v2.toNat), ?_, ?_⟩, fun i hi => ?_⟩
    · simp only [Expr.evalBv, hv1, hv2, bind, pure, Option.bind_some]
      rw [if_neg (by omega)]
    · rw [← reading_ofInt hw.1.pos hin', hd, BitVec.ofInt_natCast]
    · simp only [Expr.evalInt, bind, pure, Option.bind_eq_some_iff, Option.some.injEq] at hi
      obtain ⟨p, hp, q, hq, rfl⟩ := hi
      rw [hi1 _ hp, hi2 _ hq]
      simp only [IntOps.urem, wrapped]
      rw [smod_of_ne (by omega)]
  | @sdiv w a b iha ihb =>
    intro hw hr z hz
    simp only [Expr.exact, bind, pure, Option.bind_eq_some_iff] at hz
    obtain ⟨x, hx, y, hy, hz⟩ := hz
    split at hz <;> simp only [Option.some.injEq, reduceCtorEq] at hz
    rename_i hin
    subst hz
    obtain ⟨⟨v1, hv1, rfl⟩, hi1⟩ := iha hw.1 hr.1 _ hx
    obtain ⟨⟨v2, hv2, rfl⟩, hi2⟩ := ihb hw.2 hr.2 _ hy
    obtain ⟨h1, h0, hex, hin⟩ := hin
    refine ⟨⟨BitVec.ofInt w (v1.toInt.tdiv v2.toInt), ?_, ?_⟩, fun i hi => ?_⟩
    · simp only [Expr.evalBv, hv1, hv2, bind, pure, Option.bind_some]
      rw [if_neg]
      rw [reading_toInt h1, reading_toInt h1]
      rintro (h | ⟨h2, h3⟩)
      · exact h0 h
      · rw [h2, h3] at hin
        simp [InRange, h1] at hin
    · rw [reading_toInt h1, reading_toInt h1, reading_ofInt hw.1.pos hin]
    · simp only [Expr.evalInt, bind, pure, Option.bind_eq_some_iff, Option.some.injEq] at hi
      obtain ⟨p, hp, q, hq, rfl⟩ := hi
      rw [hi1 _ hp, hi2 _ hq]
      simp only [IntOps.sdiv, wrapped]
      rw [idiv_of_ne h0, sdiv_exact hex]
  | @srem w a b iha ihb =>
    intro hw hr z hz
    simp only [Expr.exact, bind, pure, Option.bind_eq_some_iff] at hz
    obtain ⟨x, hx, y, hy, hz⟩ := hz
    split at hz <;> simp only [Option.some.injEq, reduceCtorEq] at hz
    rename_i hin
    subst hz
    obtain ⟨⟨v1, hv1, rfl⟩, hi1⟩ := iha hw.1 hr.1 _ hx
    obtain ⟨⟨v2, hv2, rfl⟩, hi2⟩ := ihb hw.2 hr.2 _ hy
    obtain ⟨h1, h0, hin⟩ := hin
    refine ⟨⟨BitVec.ofInt w (v1.toInt.tmod v2.toInt), ?_, ?_⟩, fun i hi => ?_⟩
    · simp only [Expr.evalBv, hv1, hv2, bind, pure, Option.bind_some]
      rw [if_neg]
      rw [reading_toInt h1, reading_toInt h1]
      rintro (h | ⟨h2, h3⟩)
      · exact h0 h
      · rw [h2, h3] at hin
        simp [InRange, h1] at hin
    · rw [reading_toInt h1, reading_toInt h1, reading_ofInt hw.1.pos
        (tmod_range h1 h0 (reading_inRange hw.1.pos _) (reading_inRange hw.1.pos _))]
    · simp only [Expr.evalInt, bind, pure, Option.bind_eq_some_iff, Option.some.injEq] at hi
      obtain ⟨p, hp, q, hq, rfl⟩ := hi
      rw [hi1 _ hp, hi2 _ hq, srem_unbounded S w h0]
  | @minMax w isMin sign a b iha ihb =>
    intro hw hr z hz
    simp only [Expr.exact, bind, pure, Option.bind_eq_some_iff] at hz
    obtain ⟨x, hx, y, hy, hz⟩ := hz
    rw [Option.ite_none_right_eq_some] at hz
    obtain ⟨hin, hz⟩ := hz
    simp only [Option.some.injEq] at hz
    subst hz
    obtain ⟨⟨v1, hv1, rfl⟩, hi1⟩ := iha hw.1 hr.1 _ hx
    obtain ⟨⟨v2, hv2, rfl⟩, hi2⟩ := ihb hw.2 hr.2 _ hy
    have hless : (if sign then decide (v1.toInt < v2.toInt) else decide (v1.toNat < v2.toNat))
        = decide (reading v1 < reading v2) := by
      cases sign
      · simp only [Bool.false_eq_true, if_false] at hin ⊢
        rw [← reading_nonneg_toNat hin.1, ← reading_nonneg_toNat hin.2]
        simp
      · simp only [if_true] at hin ⊢
        rw [reading_toInt hin, reading_toInt hin]
    refine ⟨⟨_, by simp only [Expr.evalBv, hv1, hv2, bind, pure, Option.bind_some]; rfl, ?_⟩, fun i hi => ?_⟩
    · rw [hless]
      by_cases hl : reading v1 < reading v2 <;> cases isMin <;> simp [hl] <;> omega
    · simp only [Expr.evalInt, bind, pure, Option.bind_eq_some_iff, Option.some.injEq] at hi
      obtain ⟨p, hp, q, hq, rfl⟩ := hi
      rw [hi1 _ hp, hi2 _ hq]
      exact minMax_unbounded S isMin sign w _ _
  | @trunc w w' a iha =>
    intro hw hr z hz
    simp only [Expr.exact, bind, pure, Option.bind_eq_some_iff] at hz
    obtain ⟨x, hx, hz⟩ := hz
    split at hz <;> simp only [Option.some.injEq, reduceCtorEq] at hz
    rename_i hin
    subst hz
    obtain ⟨⟨v1, hv1, rfl⟩, hi1⟩ := iha hw.2.2 hr _ hx
    refine ⟨⟨BitVec.ofNat w' v1.toNat, by simp [Expr.evalBv, hv1], ?_⟩, fun i hi => ?_⟩
    · have := trunc_ofInt (w := w) (w' := w') (by have := hw.2.1; omega) (reading v1)
      rw [ofInt_reading] at this
      rw [← this, reading_ofInt hw.1 hin]
    · simp only [Expr.evalInt, bind, pure, Option.bind_eq_some_iff, Option.some.injEq] at hi
      obtain ⟨p, hp, rfl⟩ := hi
      exact hi1 _ hp
  | @zext w w' a iha =>
    intro hw hr z hz
    simp only [Expr.exact, bind, pure, Option.bind_eq_some_iff] at hz
    obtain ⟨x, hx, hz⟩ := hz
    split at hz <;> simp only [Option.some.injEq, reduceCtorEq] at hz
    rename_i hin
    subst hz
    obtain ⟨⟨v1, hv1, rfl⟩, hi1⟩ := iha hw.2 hr _ hx
    have hpos := hw.2.pos
    have hlt := hw.1
    refine ⟨⟨BitVec.ofNat w' v1.toNat, by simp [Expr.evalBv, hv1], ?_⟩, fun i hi => ?_⟩
    · rw [← BitVec.ofInt_natCast, reading_nonneg_toNat hin, reading_ofInt (by omega)]
      have h1 := reading_inRange hpos v1
      have h3 : (2:Int)^(w-1) * 2 ≤ 2^(w'-1) := by
        have : (2:Int)^(w'-1) = 2^(w-1) * 2^(w'-w) := by rw [← Int.pow_add]; congr 1; omega
        rw [this]
        apply Int.mul_le_mul_of_nonneg_left _ (Int.le_of_lt (two_pow_pos _))
        have : (2:Int)^(w'-w) = 2 * 2^(w'-w-1) := two_pow_split (by omega)
        have := two_pow_pos (w'-w-1)
        omega
      have h4 := two_pow_pos (w-1)
      unfold InRange at h1 ⊢
      rw [if_neg (by omega)]
      split at h1
      · rename_i h; subst h; simp at h3; omega
      · omega
    · simp only [Expr.evalInt, bind, pure, Option.bind_eq_some_iff, Option.some.injEq] at hi
      obtain ⟨p, hp, rfl⟩ := hi
      exact hi1 _ hp
  | @sext w w' a iha =>
    intro hw hr z hz
    simp only [Expr.exact, bind, pure, Option.bind_eq_some_iff] at hz
    obtain ⟨x, hx, hz⟩ := hz
    split at hz <;> simp only [Option.some.injEq, reduceCtorEq] at hz
    rename_i hin
    subst hz
    obtain ⟨⟨v1, hv1, rfl⟩, hi1⟩ := iha hw.2 hr _ hx
    have hpos := hw.2.pos
    have hlt := hw.1
    have hti : v1.toInt = reading v1 := by
      rcases hin with h | h
      · exact reading_toInt h
      · rw [h]
        have : v1 = 0#w := by
          rw [← ofInt_reading v1, h]; simp
        rw [this]; simp
    refine ⟨⟨BitVec.ofInt w' v1.toInt, by simp [Expr.evalBv, hv1], ?_⟩, fun i hi => ?_⟩
    · rw [hti, reading_ofInt (by omega)]
      have h1 := reading_inRange hpos v1
      have h3 : (2:Int)^(w-1) * 2 ≤ 2^(w'-1) := by
        have : (2:Int)^(w'-1) = 2^(w-1) * 2^(w'-w) := by rw [← Int.pow_add]; congr 1; omega
        rw [this]
        apply Int.mul_le_mul_of_nonneg_left _ (Int.le_of_lt (two_pow_pos _))
        have : (2:Int)^(w'-w) = 2 * 2^(w'-w-1) := two_pow_split (by omega)
        have := two_pow_pos (w'-w-1)
        omega
      have h4 := two_pow_pos (w-1)
      unfold InRange at h1 ⊢
      rw [if_neg (by omega)]
      split at h1
      · rename_i h; subst h; simp at h3; omega
      · omega
    · simp only [Expr.evalInt, bind, pure, Option.bind_eq_some_iff, Option.some.injEq] at hi
      obtain ⟨p, hp, rfl⟩ := hi
      exact hi1 _ hp
  | @icmp w pr a b iha ihb =>
    intro hw hr z hz
    simp only [Expr.exact, bind, pure, Option.bind_eq_some_iff] at hz
    obtain ⟨x, hx, y, hy, hz⟩ := hz
    obtain ⟨⟨v1, hv1, rfl⟩, hi1⟩ := iha hw.1 hr.1 _ hx
    obtain ⟨⟨v2, hv2, rfl⟩, hi2⟩ := ihb hw.2 hr.2 _ hy
    have heq : v1 = v2 ↔ reading v1 = reading v2 := ⟨fun h => by rw [h], reading_inj⟩
    have key : icmp pr v1 v2 = pr.op (reading v1) (reading v2) ∧
        z = if pr.op (reading v1) (reading v2) then 1 else 0 := by
      cases pr <;> simp only [icmp, Pred.op] at hz ⊢
      case eq => simp at hz; exact ⟨by rw [Bool.eq_iff_iff]; simp [heq], by simp [← hz]⟩
      case ne => simp at hz; exact ⟨by rw [Bool.eq_iff_iff]; simp [heq], by simp [← hz]⟩
      all_goals
        split at hz <;> simp only [Option.some.injEq, reduceCtorEq] at hz
        rename_i hin
        first
          | (have e1 := reading_nonneg_toNat hin.1
             have e2 := reading_nonneg_toNat hin.2
             rw [← e1, ← e2] at hz ⊢
             constructor <;> simp [← hz, Int.ofNat_le, Int.ofNat_lt])
          | (rw [reading_toInt hin, reading_toInt hin]
             constructor <;> simp [← hz])
    refine ⟨⟨BitVec.ofBool (icmp pr v1 v2), by simp [Expr.evalBv, hv1, hv2], ?_⟩, fun i hi => ?_⟩
    · rw [key.1, key.2]
      cases pr.op (reading v1) (reading v2) <;> decide
    · simp only [Expr.evalInt, bind, pure, Option.bind_eq_some_iff, Option.some.injEq] at hi
      obtain ⟨p, hp, q, hq, rfl⟩ := hi
      rw [hi1 _ hp, hi2 _ hq, key.2]
      rfl
  | @select w c a b ihc iha ihb =>
    intro hw hr z hz
    simp only [Expr.exact, bind, pure, Option.bind_eq_some_iff, Option.some.injEq] at hz
    obtain ⟨c', hc, x, hx, y, hy, rfl⟩ := hz
    obtain ⟨⟨v0, hv0, rfl⟩, hi0⟩ := ihc hw.1 hr.1 _ hc
    obtain ⟨⟨v1, hv1, rfl⟩, hi1⟩ := iha hw.2.1 hr.2.1 _ hx
    obtain ⟨⟨v2, hv2, rfl⟩, hi2⟩ := ihb hw.2.2 hr.2.2 _ hy
    have hv : v0 = 1#1 ↔ reading v0 = 1 :=
      ⟨fun h => by rw [h]; decide, fun h => reading_inj (by rw [h]; decide)⟩
    refine ⟨⟨if v0 = 1#1 then v1 else v2, by simp [Expr.evalBv, hv0, hv1, hv2], ?_⟩, fun i hi => ?_⟩
    · by_cases h : v0 = 1#1
      · rw [if_pos h, if_pos (hv.1 h)]
      · rw [if_neg h, if_neg (fun hh => h (hv.2 hh))]
    · simp only [Expr.evalInt, bind, pure, Option.bind_eq_some_iff, Option.some.injEq] at hi
      obtain ⟨cc, hcc, p, hp, q, hq, rfl⟩ := hi
      rw [hi0 _ hcc, hi1 _ hp, hi2 _ hq]
  | logic1 op a b iha ihb =>
    intro hw hr z hz
    simp only [Expr.exact, bind, pure, Option.bind_eq_some_iff, Option.some.injEq] at hz
    obtain ⟨x, hx, y, hy, rfl⟩ := hz
    obtain ⟨⟨v1, hv1, rfl⟩, hi1⟩ := iha hw.1 hr.1 _ hx
    obtain ⟨⟨v2, hv2, rfl⟩, hi2⟩ := ihb hw.2 hr.2 _ hy
    have hb : ∀ v : BitVec 1, v = 0#1 ∨ v = 1#1 := by decide
    refine ⟨⟨_, by simp only [Expr.evalBv, hv1, hv2, bind, pure, Option.bind_some]; rfl, ?_⟩, fun i hi => ?_⟩
    · rcases hb v1 with rfl | rfl <;> rcases hb v2 with rfl | rfl <;> cases op <;> decide
    · simp only [Expr.evalInt, bind, pure, Option.bind_eq_some_iff, Option.some.injEq] at hi
      obtain ⟨p, hp, q, hq, rfl⟩ := hi
      rw [hi1 _ hp, hi2 _ hq]
      have r0 : reading 0#1 = (false).toInt := by decide
      have r1 : reading 1#1 = (true).toInt := by decide
      rcases hb v1 with rfl | rfl <;> rcases hb v2 with rfl | rfl <;> simp only [r0, r1, S.logic1_ax] <;>
        cases op <;> decide

theorem Expr.NoSdiv.exact {m : Nat → (w : Nat) → BitVec w} {w : Nat} {e : Expr w} (h : e.NoSdiv) :
    e.SdivExact m := by
  induction e with
  | var | lit => trivial
  | add _ _ iha ihb | sub _ _ iha ihb | mul _ _ iha ihb | udiv _ _ iha ihb | urem _ _ iha ihb
  | srem _ _ iha ihb | minMax _ _ _ _ iha ihb => exact ⟨iha h.1, ihb h.2⟩
  | sdiv => exact h.elim
  | trunc _ _ ih | zext _ _ ih | sext _ _ ih => exact ih h
  | icmp _ _ _ iha ihb => exact ⟨iha h.1, ihb h.2⟩
  | select _ _ _ ihc iha ihb => exact ⟨ihc h.1, iha h.2.1, ihb h.2.2⟩
  | logic1 _ _ _ iha ihb => exact ⟨iha h.1, ihb h.2⟩

theorem litInt_total {w : Nat} (hw : w ≤ 64) (u ui : Bool) (c : BitVec w) : ∃ i, litInt u ui c = some i := by
  have hs : w ≥ 1 → ∃ v, getSExtValue c = some v := by
    intro h1
    unfold getSExtValue
    have h2 := BitVec.le_toInt c
    have h3 := BitVec.toInt_lt (x := c)
    have h4 : (2:Int)^(w-1) ≤ 2^63 := by
      have : (2:Int)^63 = 2^(w-1) * 2^(64-w) := by rw [← Int.pow_add]; congr 1; omega
      have h5 := two_pow_pos (64-w)
      have h6 := two_pow_pos (w-1)
      rw [this]
      have := Int.mul_le_mul_of_nonneg_left (show (1:Int) ≤ 2^(64-w) by omega)
        (show (0:Int) ≤ 2^(w-1) by omega)
      omega
    rw [if_pos ⟨by omega, by omega⟩]
    exact ⟨_, rfl⟩
  unfold litInt litNeg
  split
  · obtain ⟨v, hv⟩ := hs (by omega)
    cases u <;> cases ui <;> simp [hv]
  · simp

theorem evalInt_total (S : Smt) (enc : Enc) (ρ : Nat → Int) {w : Nat} (e : Expr w) (h : e.NarrowLits) :
    ∃ i, e.evalInt S enc ρ = some i := by
  induction e with
  | var => exact ⟨_, rfl⟩
  | lit u ui c => exact litInt_total h u ui c
  | add _ _ iha ihb | sub _ _ iha ihb | mul _ _ iha ihb | udiv _ _ iha ihb | urem _ _ iha ihb | sdiv _ _ iha ihb
  | srem _ _ iha ihb | minMax _ _ _ _ iha ihb | icmp _ _ _ iha ihb | logic1 _ _ _ iha ihb =>
    obtain ⟨i, hi⟩ := iha h.1
    obtain ⟨j, hj⟩ := ihb h.2
    simp only [Expr.evalInt, hi, hj, bind, pure, Option.bind_some]
    exact ⟨_, rfl⟩
  | trunc _ _ ih | zext _ _ ih | sext _ _ ih =>
    obtain ⟨i, hi⟩ := ih h
    simp only [Expr.evalInt, hi, bind, pure, Option.bind_some]
    exact ⟨_, rfl⟩
  | select _ _ _ ihc iha ihb =>
    obtain ⟨k, hk⟩ := ihc h.1
    obtain ⟨i, hi⟩ := iha h.2.1
    obtain ⟨j, hj⟩ := ihb h.2.2
    simp only [Expr.evalInt, hi, hj, hk, bind, pure, Option.bind_some]
    exact ⟨_, rfl⟩

end Smack.IntOps
