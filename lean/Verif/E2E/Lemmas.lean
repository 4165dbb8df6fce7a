import Verif.E2E.Sim
import Verif.IntOps.Lemmas
import Verif.Nondet.Props

namespace Smack.E2E

open Smack.IntOps Smack.Cfg Smack.Cfg.Spec

/-! ## Expressions -/

theorem evalBv_congr {m m' : Nat → (w : Nat) → BitVec w} {w : Nat} (e : Expr w)
    (h : VarsIn (fun n w => m n w = m' n w) e) : e.evalBv m = e.evalBv m' := by
  induction e with
  | var w n => simp only [VarsIn] at h; simp only [Expr.evalBv, h]
  | lit => rfl
  | add _ _ iha ihb | sub _ _ iha ihb | mul _ _ iha ihb | udiv _ _ iha ihb | sdiv _ _ iha ihb | urem _ _ iha ihb
  | srem _ _ iha ihb | minMax _ _ _ _ iha ihb | icmp _ _ _ iha ihb | logic1 _ _ _ iha ihb =>
    simp only [Expr.evalBv, iha h.1, ihb h.2]
  | trunc _ _ ih | zext _ _ ih | sext _ _ ih => simp only [Expr.evalBv, ih h]
  | select _ _ _ ihc iha ihb => simp only [Expr.evalBv, ihc h.1, iha h.2.1, ihb h.2.2]

theorem sdivExact_congr {m m' : Nat → (w : Nat) → BitVec w} {w : Nat} (e : Expr w)
    (h : VarsIn (fun n w => m n w = m' n w) e) : e.SdivExact m ↔ e.SdivExact m' := by
  induction e with
  | var w n => exact Iff.rfl
  | lit => exact Iff.rfl
  | add _ _ iha ihb | sub _ _ iha ihb | mul _ _ iha ihb | udiv _ _ iha ihb | urem _ _ iha ihb
  | srem _ _ iha ihb | minMax _ _ _ _ iha ihb | icmp _ _ _ iha ihb | logic1 _ _ _ iha ihb =>
    simp only [Expr.SdivExact, iha h.1, ihb h.2]
  | sdiv a b iha ihb => simp only [Expr.SdivExact, iha h.1, ihb h.2, evalBv_congr a h.1, evalBv_congr b h.2]
  | trunc _ _ ih | zext _ _ ih | sext _ _ ih => simp only [Expr.SdivExact, ih h]
  | select _ _ _ ihc iha ihb => simp only [Expr.SdivExact, ihc h.1, iha h.2.1, ihb h.2.2]

theorem VarsIn.mono {p q : Nat → Nat → Prop} (hpq : ∀ n w, p n w → q n w) {w : Nat} (e : Expr w) (h : VarsIn p e) : VarsIn q e := by
  induction e with
  | var w n => exact hpq n w h
  | lit => trivial
  | add _ _ iha ihb | sub _ _ iha ihb | mul _ _ iha ihb | udiv _ _ iha ihb | sdiv _ _ iha ihb | urem _ _ iha ihb
  | srem _ _ iha ihb | minMax _ _ _ _ iha ihb | icmp _ _ _ iha ihb | logic1 _ _ _ iha ihb => exact ⟨iha h.1, ihb h.2⟩
  | trunc _ _ ih | zext _ _ ih | sext _ _ ih => exact ih h
  | select _ _ _ ihc iha ihb => exact ⟨ihc h.1, iha h.2.1, ihb h.2.2⟩

theorem truth_of {ρ : Nat → Int} {w : Nat} (e : Expr w) (ht : e.WellTyped) (hn : NoArith1 e)
    (hv : VarsIn (fun n w => w = 1 → ρ n = 0 ∨ ρ n = 1) e) : w = 1 → e.Truth ρ := by
  induction e with
  | var w n => exact fun h => ⟨h, hv h⟩
  | lit => exact fun h => h
  | add | sub | mul | udiv | sdiv | urem | srem => exact fun h => absurd h hn.1
  | minMax _ _ _ _ iha ihb => exact fun h => ⟨h, iha ht.1 hn.1 hv.1 h, ihb ht.2 hn.2 hv.2 h⟩
  | icmp => exact fun _ => trivial
  | trunc => exact fun h => h
  | zext _ a | sext _ a => intro h; have := ht.1; have := ht.2.pos; omega
  | select _ _ _ _ iha ihb => exact fun h => ⟨h, iha ht.2.1 hn.2.1 hv.2.1 h, ihb ht.2.2 hn.2.2 hv.2.2 h⟩
  | logic1 _ _ _ iha ihb => exact fun h => ⟨iha ht.1 hn.1 hv.1 h, ihb ht.2 hn.2 hv.2 h⟩

theorem normal_of {ρ : Nat → Int} {w : Nat} (e : Expr w) (ht : e.WellTyped) (hn : NoArith1 e)
    (hv : VarsIn (fun n w => w = 1 → ρ n = 0 ∨ ρ n = 1) e) : e.NormalCond ρ := by
  induction e with
  | var w n => trivial
  | lit => trivial
  | add _ _ iha ihb | sub _ _ iha ihb | mul _ _ iha ihb | udiv _ _ iha ihb | sdiv _ _ iha ihb | urem _ _ iha ihb
  | srem _ _ iha ihb => exact ⟨iha ht.1 hn.2.1 hv.1, ihb ht.2 hn.2.2 hv.2⟩
  | minMax _ _ _ _ iha ihb | icmp _ _ _ iha ihb => exact ⟨iha ht.1 hn.1 hv.1, ihb ht.2 hn.2 hv.2⟩
  | trunc _ _ ih => exact ih ht.2.2 hn hv
  | zext _ _ ih | sext _ _ ih => exact ih ht.2 hn hv
  | select c a b ihc iha ihb => exact ⟨ihc ht.1 hn.1 hv.1, iha ht.2.1 hn.2.1 hv.2.1, ihb ht.2.2 hn.2.2 hv.2.2,
      truth_of c ht.1 hn.1 hv.1 rfl⟩
  | logic1 _ a b iha ihb => exact ⟨iha ht.1 hn.1 hv.1, ihb ht.2 hn.2 hv.2, truth_of a ht.1 hn.1 hv.1 rfl, truth_of b ht.2 hn.2 hv.2 rfl⟩

theorem reads_of {m : Nat → (w : Nat) → BitVec w} {ρ : Nat → Int} {w : Nat} (e : Expr w)
    (hv : VarsIn (fun n w => ρ n = reading (m n w)) e) : e.Reads m ρ := by
  induction e with
  | var w n => exact hv
  | lit => trivial
  | add _ _ iha ihb | sub _ _ iha ihb | mul _ _ iha ihb | udiv _ _ iha ihb | sdiv _ _ iha ihb | urem _ _ iha ihb
  | srem _ _ iha ihb | minMax _ _ _ _ iha ihb | icmp _ _ _ iha ihb | logic1 _ _ _ iha ihb => exact ⟨iha hv.1, ihb hv.2⟩
  | trunc _ _ ih | zext _ _ ih | sext _ _ ih => exact ih hv
  | select _ _ _ ihc iha ihb => exact ⟨ihc hv.1, iha hv.2.1, ihb hv.2.2⟩

/-- An integer between `-2^w` and `2^w` that is congruent to 0 is 0. -/
theorem zero_of_small {w : Nat} {i : Int} (h : BitVec.ofInt w i = 0#w) (h1 : -(2 : Int) ^ w < i) (h2 : i < 2 ^ w) : i = 0 := by
  have hp := two_pow_pos w
  have : i % 2 ^ w = 0 := by
    rw [← tou_eq_emod Smt.std, tou_eq, h]; simp
  have := Int.dvd_of_emod_eq_zero this
  obtain ⟨c, rfl⟩ := this
  by_cases hc : c = 0
  · simp [hc]
  · exfalso
    rcases Int.lt_or_gt_of_ne hc with h | h
    · have := Int.mul_le_mul_of_nonneg_left (show c ≤ -1 by omega) (show (0 : Int) ≤ 2 ^ w by omega)
      omega
    · have := Int.mul_le_mul_of_nonneg_left (show 1 ≤ c by omega) (show (0 : Int) ≤ 2 ^ w by omega)
      omega

theorem two_pow_mono {a b : Nat} (h : a ≤ b) : (2 : Int) ^ a ≤ 2 ^ b := Nondet.pow_le_pow h

theorem toInt_small {w : Nat} (_ : 1 ≤ w) (x : BitVec w) : -(2 : Int) ^ (w - 1) ≤ x.toInt ∧ x.toInt < 2 ^ (w - 1) := by
  have h1 := BitVec.le_toInt (x := x)
  have h2 := BitVec.toInt_lt (x := x)
  omega

theorem ediv_small {a b B : Int} (hb : b ≠ 0) (h1 : -B ≤ a) (h2 : a ≤ B) : -B ≤ a / b ∧ a / b ≤ B := by
  have hB : 0 ≤ B := by omega
  have key : ∀ a b : Int, 0 < b → -B ≤ a → a ≤ B → -B ≤ a / b ∧ a / b ≤ B := by
    intro a b hb h1 h2
    constructor
    · rw [Int.le_ediv_iff_mul_le hb]
      have := Int.mul_le_mul_of_nonneg_left (show 1 ≤ b by omega) hB
      have e : -B * b = -(B * b) := Int.neg_mul ..
      omega
    · apply Int.ediv_le_of_le_mul hb
      have := Int.mul_le_mul_of_nonneg_left (show 1 ≤ b by omega) hB
      omega
  rcases Int.lt_or_gt_of_ne hb with h | h
  · have := key (a) (-b) (by omega) h1 h2
    rw [Int.ediv_neg] at this
    omega
  · exact key a b h h1 h2

theorem litInt_small {w : Nat} {u ui : Bool} {c : BitVec w} {i : Int} (h : litInt u ui c = some i) : -(2 : Int) ^ w < i ∧ i < 2 ^ w := by
  unfold litInt at h
  rw [Option.map_eq_some_iff] at h
  obtain ⟨neg, _, rfl⟩ := h
  have hp := two_pow_pos w
  have cast : ((2 ^ w : Nat) : Int) = 2 ^ w := by push_cast; rfl
  cases neg with
  | true =>
    have := (apAbs c).isLt
    have e : (if true = true then isub 0 ((apAbs c).toNat : Int) else (c.toNat : Int)) = -((apAbs c).toNat : Int) := by
      show (0 : Int) - _ = _
      omega
    rw [e]
    omega
  | false =>
    have := c.isLt
    simp only [Bool.false_eq_true, if_false]
    omega

theorem reduced_of (S : Smt) {ρ : Nat → Int} {m : Nat → (w : Nat) → BitVec w} (hm : ∀ n w, m n w = BitVec.ofInt w (ρ n))
    {N : Nat → Prop} {w : Nat} (e : Expr w)
    (ht : e.WellTyped) (hn : e.NormalCond ρ) (hs : e.SdivExact m) (hv : VarsIn (fun n w => N n → m n w = 0 → ρ n = 0) e) (hr : Reduced N e) :
    ∀ v i, e.evalBv m = some v → e.evalInt S .wrapped ρ = some i → v = 0 → i = 0 := by
  induction e with
  | var w n =>
    intro v i h1 h2 h0
    simp only [Expr.evalBv, Expr.evalInt, Option.some.injEq] at h1 h2
    subst h1 h2
    exact hv hr h0
  | @lit w u ui c =>
    intro v i h1 h2 h0
    simp only [Expr.evalBv, Expr.evalInt, Option.some.injEq] at h1 h2
    subst h1 h0
    obtain ⟨q1, q2⟩ := litInt_small h2
    exact zero_of_small (litInt_ofInt h2) q1 q2
  | add | sub | mul => exact hr.elim
  | @minMax w mn sg a b iha ihb =>
    intro v i h1 h2 h0
    have hmain := wrapped_main S ρ m hm _ ht hn hs v i h1 h2
    simp only [Expr.evalInt, Option.bind_eq_bind, Option.bind_eq_some_iff, Option.pure_def, Option.some.injEq] at h2
    obtain ⟨x, hx, y, hy, rfl⟩ := h2
    simp only [Expr.evalBv, Option.bind_eq_bind, Option.bind_eq_some_iff, Option.pure_def, Option.some.injEq] at h1
    obtain ⟨x', hx', y', hy', hv'⟩ := h1
    have ma := (wrapped_main S ρ m hm a ht.1 hn.1 hs.1 x' x hx' hx).1
    have mb := (wrapped_main S ρ m hm b ht.2 hn.2 hs.2 y' y hy' hy).1
    have h3 := hmain.1
    rcases minMax_or S .wrapped mn sg w x y with h | h
    · rw [h] at h3 ⊢
      exact iha ht.1 hn.1 hs.1 hv.1 hr.1 x' x hx' hx (by rw [← ma, h3, h0])
    · rw [h] at h3 ⊢
      exact ihb ht.2 hn.2 hs.2 hv.2 hr.2 y' y hy' hy (by rw [← mb, h3, h0])
  | @select w c a b ihc iha ihb =>
    intro v i h1 h2 h0
    have hmain := wrapped_main S ρ m hm _ ht hn hs v i h1 h2
    simp only [Expr.evalInt, Option.bind_eq_bind, Option.bind_eq_some_iff, Option.pure_def, Option.some.injEq] at h2
    obtain ⟨z, hz, x, hx, y, hy, rfl⟩ := h2
    simp only [Expr.evalBv, Option.bind_eq_bind, Option.bind_eq_some_iff, Option.pure_def, Option.some.injEq] at h1
    obtain ⟨z', hz', x', hx', y', hy', hv'⟩ := h1
    have ma := (wrapped_main S ρ m hm a ht.2.1 hn.2.1 hs.2.1 x' x hx' hx).1
    have mb := (wrapped_main S ρ m hm b ht.2.2 hn.2.2.1 hs.2.2 y' y hy' hy).1
    have h3 := hmain.1
    by_cases h : z = 1
    · rw [if_pos h] at h3 ⊢
      exact iha ht.2.1 hn.2.1 hs.2.1 hv.2.1 hr.1 x' x hx' hx (by rw [← ma, h3, h0])
    · rw [if_neg h] at h3 ⊢
      exact ihb ht.2.2 hn.2.2.1 hs.2.2 hv.2.2 hr.2 y' y hy' hy (by rw [← mb, h3, h0])
  | @udiv w a b =>
    intro v i h1 h2 h0
    have hmain := (wrapped_main S ρ m hm _ ht hn hs v i h1 h2).1
    simp only [Expr.evalInt, Option.bind_eq_bind, Option.bind_eq_some_iff, Option.pure_def, Option.some.injEq] at h2
    obtain ⟨x, hx, y, hy, rfl⟩ := h2
    simp only [Expr.evalBv, Option.bind_eq_bind, Option.bind_eq_some_iff, Option.pure_def] at h1
    obtain ⟨x', hx', y', hy', hv'⟩ := h1
    have mb := (wrapped_main S ρ m hm b ht.2 hn.2 hs.2 y' y hy' hy).1
    have hne : y'.toNat ≠ 0 := by intro h; simp [h] at hv'
    rw [udiv_eq S x y (by rw [mb]; exact hne)] at hmain ⊢
    have hlt : (BitVec.ofInt w x).toNat / (BitVec.ofInt w y).toNat < 2 ^ w :=
      Nat.lt_of_le_of_lt (Nat.div_le_self _ _) (BitVec.isLt _)
    generalize (BitVec.ofInt w x).toNat / (BitVec.ofInt w y).toNat = q at *
    have cast : ((2 ^ w : Nat) : Int) = 2 ^ w := by push_cast; rfl
    have hp := two_pow_pos w
    exact zero_of_small (hmain.trans h0) (by omega) (by omega)
  | @urem w a b =>
    intro v i h1 h2 h0
    have hmain := (wrapped_main S ρ m hm _ ht hn hs v i h1 h2).1
    simp only [Expr.evalInt, Option.bind_eq_bind, Option.bind_eq_some_iff, Option.pure_def, Option.some.injEq] at h2
    obtain ⟨x, hx, y, hy, rfl⟩ := h2
    simp only [Expr.evalBv, Option.bind_eq_bind, Option.bind_eq_some_iff, Option.pure_def] at h1
    obtain ⟨x', hx', y', hy', hv'⟩ := h1
    have mb := (wrapped_main S ρ m hm b ht.2 hn.2 hs.2 y' y hy' hy).1
    have hne : y'.toNat ≠ 0 := by intro h; simp [h] at hv'
    rw [urem_eq S x y (by rw [mb]; exact hne)] at hmain ⊢
    have hlt : (BitVec.ofInt w x).toNat % (BitVec.ofInt w y).toNat < 2 ^ w :=
      Nat.lt_of_le_of_lt (Nat.mod_le _ _) (BitVec.isLt _)
    have cast : ((2 ^ w : Nat) : Int) = 2 ^ w := by push_cast; rfl
    have hp := two_pow_pos w
    exact zero_of_small (hmain.trans h0) (by omega) (by omega)
  | @sdiv w a b =>
    intro v i h1 h2 h0
    have hmain := (wrapped_main S ρ m hm _ ht hn hs v i h1 h2).1
    have hw := ht.1.pos
    simp only [Expr.evalInt, Option.bind_eq_bind, Option.bind_eq_some_iff, Option.pure_def, Option.some.injEq] at h2
    obtain ⟨x, hx, y, hy, rfl⟩ := h2
    simp only [Expr.evalBv, Option.bind_eq_bind, Option.bind_eq_some_iff, Option.pure_def] at h1
    obtain ⟨x', hx', y', hy', hv'⟩ := h1
    have mb := (wrapped_main S ρ m hm b ht.2 hn.2 hs.2.1 y' y hy' hy).1
    have hne : y'.toInt ≠ 0 := by intro h; simp [h] at hv'
    rw [sdiv_eq S hw x y (by rw [mb]; exact hne)] at hmain ⊢
    have hr := toInt_small hw (BitVec.ofInt w x)
    have hd := ediv_small (b := (BitVec.ofInt w y).toInt) (by rw [mb]; exact hne) hr.1 (Int.le_of_lt hr.2)
    have hsp := two_pow_split hw
    have hp := two_pow_pos (w - 1)
    exact zero_of_small (hmain.trans h0) (by omega) (by omega)
  | @srem w a b =>
    intro v i h1 h2 h0
    have hmain := (wrapped_main S ρ m hm _ ht hn hs v i h1 h2).1
    have hw := ht.1.pos
    simp only [Expr.evalInt, Option.bind_eq_bind, Option.bind_eq_some_iff, Option.pure_def, Option.some.injEq] at h2
    obtain ⟨x, hx, y, hy, rfl⟩ := h2
    simp only [Expr.evalBv, Option.bind_eq_bind, Option.bind_eq_some_iff, Option.pure_def] at h1
    obtain ⟨x', hx', y', hy', hv'⟩ := h1
    have mb := (wrapped_main S ρ m hm b ht.2 hn.2 hs.2 y' y hy' hy).1
    have hne : y'.toInt ≠ 0 := by intro h; simp [h] at hv'
    rw [srem_eq S hw x y (by rw [mb]; exact hne)] at hmain ⊢
    have hr := toInt_small hw (BitVec.ofInt w x)
    have hd : ((BitVec.ofInt w x).toInt.tmod (BitVec.ofInt w y).toInt).natAbs ≤ (BitVec.ofInt w x).toInt.natAbs := by
      rw [Int.natAbs_tmod]; exact Nat.mod_le _ _
    have hsp := two_pow_split hw
    have hp := two_pow_pos (w - 1)
    exact zero_of_small (hmain.trans h0) (by omega) (by omega)
  | @trunc w' w a =>
    intro v i h1 h2 h0
    have hmain := (wrapped_main S ρ m hm _ ht hn hs v i h1 h2).1
    simp only [Expr.evalInt, Option.bind_eq_bind, Option.bind_eq_some_iff, Option.pure_def, Option.some.injEq] at h2
    obtain ⟨x, hx, rfl⟩ := h2
    have hb := Nondet.tou_range S w x
    have hp := two_pow_pos w
    exact zero_of_small (hmain.trans h0) (by show _ < tou S w x; omega) (by show tou S w x < _; omega)
  | @zext w w' a =>
    intro v i h1 h2 h0
    have hmain := (wrapped_main S ρ m hm _ ht hn hs v i h1 h2).1
    simp only [Expr.evalInt, Option.bind_eq_bind, Option.bind_eq_some_iff, Option.pure_def, Option.some.injEq] at h2
    obtain ⟨x, hx, rfl⟩ := h2
    have hb := Nondet.tou_range S w x
    have hp := two_pow_pos w'
    have hmono := two_pow_mono (Nat.le_of_lt ht.1)
    exact zero_of_small (hmain.trans h0) (by show _ < tou S w x; omega) (by show tou S w x < _; omega)
  | @sext w w' a =>
    intro v i h1 h2 h0
    have hmain := (wrapped_main S ρ m hm _ ht hn hs v i h1 h2).1
    simp only [Expr.evalInt, Option.bind_eq_bind, Option.bind_eq_some_iff, Option.pure_def, Option.some.injEq] at h2
    obtain ⟨x, hx, rfl⟩ := h2
    have hb := Nondet.tos_range S ht.2.pos x
    have hp := two_pow_pos w'
    have hmono := two_pow_mono (show w - 1 ≤ w' by have := ht.1; omega)
    have hpp := two_pow_pos (w - 1)
    have hsp := two_pow_split (show 1 ≤ w' by have := ht.1; omega)
    have hmono2 := two_pow_mono (show w - 1 ≤ w' - 1 by have := ht.1; omega)
    exact zero_of_small (hmain.trans h0) (by show _ < tos S w x; omega) (by show tos S w x < _; omega)
  | @icmp w p a b =>
    intro v i h1 h2 h0
    have hmain := (wrapped_main S ρ m hm _ ht hn hs v i h1 h2)
    rcases hmain.2 trivial with h | h
    · exact h
    · rw [h, h0] at hmain; exact absurd hmain.1 (by decide)
  | logic1 op a b =>
    intro v i h1 h2 h0
    have hmain := (wrapped_main S ρ m hm _ ht hn hs v i h1 h2)
    rcases hmain.2 ⟨hn.2.2.1, hn.2.2.2⟩ with h | h
    · exact h
    · rw [h, h0] at hmain; exact absurd hmain.1 (by decide)

end Smack.E2E
