import Verif.Intrinsics.Model
import Verif.Intrinsics.Spec
import Verif.IntOps.Lemmas

namespace Smack.Intrinsics

/-- `e` evaluates to a vector of width `w` with bits `f`. -/
def Denotes (ρ : Env) (e : E) (w : Nat) (f : Nat → Bool) : Prop :=
  ∃ v : Bv, e.eval ρ = some v ∧ v.1 = w ∧ ∀ i, i < w → v.2.getLsbD i = f i

theorem Denotes.congr {ρ : Env} {e : E} {w w' : Nat} {f g : Nat → Bool} (h : Denotes ρ e w f) (hw : w = w')
    (hfg : ∀ i, i < w → f i = g i) : Denotes ρ e w' g := by
  obtain ⟨v, h1, h2, h3⟩ := h
  subst hw
  exact ⟨v, h1, h2, fun i hi => (h3 i hi).trans (hfg i hi)⟩

theorem denotes_extract (ρ : Env) (hi lo : Nat) (h1 : lo ≤ hi) (h2 : hi ≤ ρ.arg.1) :
    Denotes ρ (.extract .arg hi lo) (hi - lo) (fun i => ρ.arg.2.getLsbD (lo + i)) := by
  refine ⟨⟨hi - lo, ρ.arg.2.extractLsb' lo (hi - lo)⟩, ?_, rfl, ?_⟩
  · simp only [E.eval]
    rw [if_pos ⟨h1, h2⟩]
  · intro i hi'
    simp [hi']

theorem denotes_concat {ρ : Env} {a b : E} {wa wb : Nat} {fa fb : Nat → Bool} (ha : Denotes ρ a wa fa)
    (hb : Denotes ρ b wb fb) :
    Denotes ρ (.concat a b) (wa + wb) (fun i => if i < wb then fb i else fa (i - wb)) := by
  obtain ⟨va, ea, wa', ha⟩ := ha
  obtain ⟨vb, eb, wb', hb⟩ := hb
  refine ⟨⟨va.1 + vb.1, va.2 ++ vb.2⟩, ?_, ?_, ?_⟩
  · simp only [E.eval, ea, eb]
  · simp [wa', wb']
  · intro i hi
    rw [BitVec.getLsbD_append]
    by_cases h : i < wb
    · simp only [wb', h, if_true]
      exact hb i h
    · simp only [wb', h, if_false]
      exact ha _ (by omega)

theorem bitreverseLoop_denotes (ρ : Env) (w off : Nat) (hw : ρ.arg.1 = w) (hoff : 2 * (w / 2) + off = w) :
    ∀ (n k : Nat) (body : E), k + n = w / 2 →
      Denotes ρ body (2 * k + off) (fun j => ρ.arg.2.getLsbD (w / 2 + k + off - 1 - j)) →
      Denotes ρ (bitreverseLoop w off n k body) w (fun j => ρ.arg.2.getLsbD (w - 1 - j)) := by
  intro n
  induction n with
  | zero =>
    intro k body hk hb
    refine hb.congr (by omega) ?_
    intro i hi
    congr 1
    omega
  | succ n ih =>
    intro k body hk hb
    refine ih (k + 1) _ (by omega) ?_
    have hhi := denotes_extract ρ (w / 2 - k) (w / 2 - k - 1) (by omega) (by omega)
    have hlo := denotes_extract ρ (w / 2 + k + 1 + off) (w / 2 + k + off) (by omega) (by omega)
    refine (denotes_concat (denotes_concat hhi hb) hlo).congr (by omega) ?_
    intro i hi
    split
    · congr 1; omega
    · split
      · congr 1; omega
      · congr 1; omega

theorem bswapLoop_denotes (ρ : Env) (w m : Nat) (hw : ρ.arg.1 = w) (hm : w = 16 * m) :
    ∀ (n k : Nat) (body : E), k ≤ m → m ≤ k + n →
      Denotes ρ body (16 * k) (fun j => ρ.arg.2.getLsbD (8 * m + 8 * k - 8 - 8 * (j / 8) + j % 8)) →
      Denotes ρ (bswapLoop w n (8 * k) body) w (fun j => ρ.arg.2.getLsbD (w - 8 - 8 * (j / 8) + j % 8)) := by
  intro n
  induction n with
  | zero =>
    intro k body hk hn hb
    refine hb.congr (by omega) ?_
    intro i hi
    congr 1
    omega
  | succ n ih =>
    intro k body hk hn hb
    unfold bswapLoop
    by_cases hlt : 8 * k < w / 2
    · rw [if_pos hlt]
      refine ih (k + 1) _ (by omega) (by omega) ?_
      have hhi := denotes_extract ρ (w / 2 - 8 * k) (w / 2 - 8 * k - 8) (by omega) (by omega)
      have hlo := denotes_extract ρ (w / 2 + 8 * k + 8) (w / 2 + 8 * k) (by omega) (by omega)
      refine (denotes_concat (denotes_concat hhi hb) hlo).congr (by omega) ?_
      intro i hi
      split
      · congr 1; omega
      · split
        · congr 1; omega
        · congr 1; omega
    · rw [if_neg hlt]
      refine hb.congr (by omega) ?_
      intro i hi
      congr 1
      omega

/-- Meaning of a literal that fits. -/
theorem eval_lit (ρ : Env) (v w : Nat) (h : v < 2 ^ w) :
    (E.lit v w).eval ρ = some ⟨w, BitVec.ofNat w v⟩ := by
  simp only [E.eval, if_pos h]

/-- Test of a single bit. -/
theorem eval_bit (ρ : Env) (i : Nat) (h : i < ρ.arg.1) :
    (C.eq (.extract .arg (i + 1) i) (.lit 1 1)).eval ρ = some (ρ.arg.2.getLsbD i) := by
  have h1 : i + 1 - i = 1 := by omega
  simp only [C.eval, E.eval]
  rw [if_pos ⟨by omega, by omega⟩]
  simp only [if_pos (show (1 : Nat) < 2 ^ 1 by decide)]
  rw [if_pos h1]
  congr 1
  rw [BitVec.extractLsb'_toNat, h1]
  simp only [BitVec.getLsbD, Nat.testBit, Nat.shiftRight_eq_div_pow]
  rcases Nat.mod_two_eq_zero_or_one (ρ.arg.2.toNat / 2 ^ i) with e | e <;> simp [e]

theorem eval_ite (ρ : Env) (c : C) (t e : E) (b : Bool) (x y : Bv) (hc : c.eval ρ = some b) (ht : t.eval ρ = some x)
    (he : e.eval ρ = some y) (hw : x.1 = y.1) : (E.ite c t e).eval ρ = some (if b then x else y) := by
  simp only [E.eval, hc, ht, he, if_pos hw]

theorem lt_pow (w : Nat) : w < 2 ^ w := Nat.lt_two_pow_self

theorem ctlzLoop_eval (ρ : Env) (w : Nat) (hw : ρ.arg.1 = w) :
    ∀ k, k ≤ w → ∃ n, n ≤ w ∧ (ctlzLoop w k).eval ρ = some ⟨w, BitVec.ofNat w n⟩ ∧ (w - n ≤ k) ∧
      (∀ i, w - n ≤ i → i < k → ρ.arg.2.getLsbD i = false) ∧ (n < w → ρ.arg.2.getLsbD (w - 1 - n) = true) := by
  intro k
  induction k with
  | zero =>
    intro _
    exact ⟨w, Nat.le_refl _, eval_lit _ _ _ (lt_pow w), by omega, fun i _ h => absurd h (by omega),
      fun h => absurd h (by omega)⟩
  | succ k ih =>
    intro hk
    obtain ⟨n, hn, he, hle, hz, ho⟩ := ih (by omega)
    have hb := eval_bit ρ k (by omega)
    have hl := eval_lit ρ (w - k - 1) w (by have := lt_pow w; omega)
    have hi := eval_ite ρ _ _ _ _ _ _ hb hl he rfl
    by_cases hbit : ρ.arg.2.getLsbD k = true
    · refine ⟨w - k - 1, by omega, ?_, by omega, ?_, ?_⟩
      · show (E.ite _ _ _).eval ρ = _
        rw [hi, hbit, if_pos rfl]
      · intro i h1 h2
        omega
      · intro _
        rw [← hbit]
        congr 1
        omega
    · refine ⟨n, hn, ?_, by omega, ?_, ho⟩
      · show (E.ite _ _ _).eval ρ = _
        rw [hi, if_neg hbit]
      · intro i h1 h2
        by_cases h3 : i = k
        · subst h3; simpa using hbit
        · exact hz i h1 (by omega)

theorem cttzLoop_eval (ρ : Env) (w : Nat) (hw : ρ.arg.1 = w) :
    ∀ k, k ≤ w → ∃ n, n ≤ w ∧ (cttzLoop w k).eval ρ = some ⟨w, BitVec.ofNat w n⟩ ∧ w - k ≤ n ∧
      (∀ i, w - k ≤ i → i < n → ρ.arg.2.getLsbD i = false) ∧ (n < w → ρ.arg.2.getLsbD n = true) := by
  intro k
  induction k with
  | zero =>
    intro _
    exact ⟨w, Nat.le_refl _, eval_lit _ _ _ (lt_pow w), by omega, fun i _ h => absurd h (by omega),
      fun h => absurd h (by omega)⟩
  | succ k ih =>
    intro hk
    obtain ⟨n, hn, he, hle, hz, ho⟩ := ih (by omega)
    have hb := eval_bit ρ (w - k - 1) (by omega)
    rw [show w - k - 1 + 1 = w - k by omega] at hb
    have hl := eval_lit ρ (w - k - 1) w (by have := lt_pow w; omega)
    have hi := eval_ite ρ _ _ _ _ _ _ hb hl he rfl
    by_cases hbit : ρ.arg.2.getLsbD (w - k - 1) = true
    · refine ⟨w - k - 1, by omega, ?_, by omega, ?_, ?_⟩
      · show (E.ite _ _ _).eval ρ = _
        rw [hi, hbit, if_pos rfl]
      · intro i h1 h2
        omega
      · intro _
        exact hbit
    · refine ⟨n, hn, ?_, by omega, ?_, ho⟩
      · show (E.ite _ _ _).eval ρ = _
        rw [hi, if_neg hbit]
      · intro i h1 h2
        by_cases h3 : i = w - k - 1
        · subst h3; simpa using hbit
        · exact hz i (by omega) h2

/-- Meaning of the `is_zero_undef` wrapper. -/
theorem zeroUndef_eval (w : Nat) (x : BitVec w) (u : BitVec 1) (h : BitVec w) (body : E) (y : BitVec w)
    (hb : body.eval ⟨⟨w, x⟩, ⟨1, u⟩, ⟨w, h⟩⟩ = some ⟨w, y⟩) :
    havocAssign ⟨w, x⟩ ⟨1, u⟩ ⟨w, h⟩ (zeroUndef w body) =
      some ⟨w, if u = 1#1 ∧ x = 0#w then h else y⟩ := by
  have h1 : (C.eq .undef (.lit 1 1)).eval ⟨⟨w, x⟩, ⟨1, u⟩, ⟨w, h⟩⟩ = some (decide (u = 1#1)) := by
    simp only [C.eval, E.eval, if_pos (show (1 : Nat) < 2 ^ 1 by decide), if_true]
    congr 1
    rw [Bool.eq_iff_iff]
    simp only [beq_iff_eq, decide_eq_true_eq]
    exact ⟨fun e => BitVec.eq_of_toNat_eq e, fun e => by rw [e]⟩
  have h0 : (C.eq .arg (.lit 0 w)).eval ⟨⟨w, x⟩, ⟨1, u⟩, ⟨w, h⟩⟩ = some (decide (x = 0#w)) := by
    simp only [C.eval, E.eval, if_pos (Nat.two_pow_pos w), if_true]
    congr 1
    rw [Bool.eq_iff_iff]
    simp only [beq_iff_eq, decide_eq_true_eq]
    exact ⟨fun e => BitVec.eq_of_toNat_eq e, fun e => by rw [e]⟩
  unfold havocAssign zeroUndef
  rw [eval_ite _ _ _ _ (decide (u = 1#1) && decide (x = 0#w)) ⟨w, h⟩ ⟨w, y⟩ (by rw [C.eval, h1, h0]) rfl hb rfl]
  congr 1
  by_cases c1 : u = 1#1 <;> by_cases c2 : x = 0#w <;> simp [c1, c2]

theorem countP_range_succ (p : Nat → Bool) (k : Nat) :
    (List.range (k + 1)).countP p = (List.range k).countP p + (p k).toNat := by
  rw [List.range_succ, List.countP_append]
  cases h : p k <;> simp [h]

theorem ctpopBvLoop_eval (ρ : Env) (w : Nat) (hw : ρ.arg.1 = w) (h1 : 1 < w) :
    ∀ k, k ≤ w → (ctpopBvLoop w k).eval ρ =
      some ⟨w, BitVec.ofNat w ((List.range k).countP fun i => ρ.arg.2.getLsbD i)⟩ := by
  intro k
  induction k with
  | zero =>
    intro _
    exact eval_lit _ _ _ (Nat.two_pow_pos w)
  | succ k ih =>
    intro hk
    have e1 : k + 1 - k = 1 := by omega
    simp only [ctpopBvLoop]
    rw [E.eval, ih (by omega), E.eval, E.eval, E.eval]
    dsimp only
    rw [if_pos ⟨by omega, by omega⟩]
    dsimp only
    rw [if_pos ⟨e1, h1⟩]
    dsimp only
    rw [if_pos ⟨rfl, rfl⟩]
    congr 2
    rw [countP_range_succ, ← BitVec.ofNat_add_ofNat, BitVec.add_comm]
    congr 1
    · simp
    · apply BitVec.eq_of_toNat_eq
      simp only [BitVec.toNat_setWidth, BitVec.extractLsb'_toNat, BitVec.toNat_ofNat, Nat.mod_mod]
      congr 1
      rw [BitVec.getLsbD, Nat.testBit, Nat.shiftRight_eq_div_pow]
      rcases Nat.mod_two_eq_zero_or_one (ρ.arg.2.toNat / 2 ^ k) with e | e <;> simp [e]

open IntOps

/-- Bit `i` of the vector represented by `v`, by floor division. -/
theorem ediv_emod_two (w i : Nat) (v : Int) (hi : i < w) :
    v / 2 ^ i % 2 = (((BitVec.ofInt w v).getLsbD i).toNat : Int) := by
  have hu : ((BitVec.ofInt w v).toNat : Int) = v % 2 ^ w := by rw [← tou_eq Smt.std, tou_eq_emod]
  have hv : v = v % 2 ^ w + 2 ^ i * (2 * (2 ^ (w - i - 1) * (v / 2 ^ w))) := by
    have h1 : (2 : Int) ^ w = 2 ^ i * (2 * 2 ^ (w - i - 1)) := by
      rw [← Int.mul_assoc, ← Int.pow_succ, ← Int.pow_add]
      congr 1
      omega
    have h2 := Int.emod_add_mul_ediv v (2 ^ w)
    rw [← Int.mul_assoc 2, ← Int.mul_assoc (2 ^ i), ← h1]
    exact h2.symm
  have hp := two_pow_pos i
  have hl : v / 2 ^ i % 2 = ((BitVec.ofInt w v).toNat : Int) / 2 ^ i % 2 := by
    rw [hu]
    conv => lhs; rw [hv]
    rw [Int.add_mul_ediv_left _ _ (by omega), Int.add_mul_emod_self_left]
  have hb : ((BitVec.ofInt w v).getLsbD i).toNat = (BitVec.ofInt w v).toNat / 2 ^ i % 2 := by
    show (Nat.testBit _ _).toNat = _
    rw [Nat.testBit, Nat.shiftRight_eq_div_pow]
    generalize (BitVec.ofInt w v).toNat / 2 ^ i = n
    rcases Nat.mod_two_eq_zero_or_one n with e | e <;> simp [e]
  rw [hl, hb]
  push_cast
  rfl

theorem term_unbounded (S : Smt) (w i : Nat) (v : Int) (hi : i < w) :
    urem S .unbounded w (udiv S .unbounded w v ((2 ^ i : Nat) : Int)) 2 =
      (((BitVec.ofInt w v).getLsbD i).toNat : Int) := by
  have hp := two_pow_pos i
  have hc : ((2 ^ i : Nat) : Int) = 2 ^ i := by push_cast; rfl
  rw [← ediv_emod_two w i v hi]
  unfold urem udiv idiv smod
  simp only [wrapped, hc]
  rw [if_neg (by decide), if_neg (by omega)]
  rfl

theorem term_wrapped (S : Smt) (w i : Nat) (v : Int) (hi : i < w) (hw : 2 ≤ w) :
    urem S .wrapped w (udiv S .wrapped w v ((2 ^ i : Nat) : Int)) 2 =
      (((BitVec.ofInt w v).getLsbD i).toNat : Int) := by
  have hp := two_pow_pos i
  have hpw := two_pow_pos w
  have hc : ((2 ^ i : Nat) : Int) = 2 ^ i := by push_cast; rfl
  have hlt : (2 : Int) ^ i < 2 ^ w := by
    have := Nat.pow_lt_pow_right (a := 2) (by decide) hi
    exact_mod_cast this
  have h2 : (2 : Int) < 2 ^ w ∨ w = 1 ∨ (2 : Int) % 2 ^ w = 2 := by
    left
    have := Nat.pow_le_pow_right (n := 2) (by decide) hw
    have : (4 : Int) ≤ 2 ^ w := by exact_mod_cast this
    omega
  have h2' : (2 : Int) % 2 ^ w = 2 := by
    rcases h2 with h | h | h
    · exact Int.emod_eq_of_lt (by decide) h
    · omega
    · exact h
  have hu0 := Int.emod_nonneg v (b := (2 : Int) ^ w) (by omega)
  have hu1 := Int.emod_lt_of_pos v hpw
  have hq0 : 0 ≤ v % 2 ^ w / 2 ^ i := Int.ediv_nonneg hu0 (by omega)
  have hq1 : v % 2 ^ w / 2 ^ i < 2 ^ w := by
    have := Int.ediv_le_self (2 ^ i) hu0
    omega
  unfold urem udiv idiv smod
  simp only [wrapped, if_true, hc, tou_eq_emod, Int.emod_eq_of_lt (Int.le_of_lt hp) hlt, h2']
  rw [if_neg (by decide), if_neg (by omega)]
  have e1 : (v % 2 ^ w).ediv (2 ^ i) = v % 2 ^ w / 2 ^ i := rfl
  rw [e1, Int.emod_eq_of_lt hq0 hq1]
  have := ediv_emod_two w i (v % 2 ^ w) hi
  have hofInt : BitVec.ofInt w (v % 2 ^ w) = BitVec.ofInt w v := by
    apply BitVec.eq_of_toNat_eq
    have a1 : ((BitVec.ofInt w (v % 2 ^ w)).toNat : Int) = v % 2 ^ w % 2 ^ w := by
      rw [← tou_eq Smt.std, tou_eq_emod]
    have a2 : ((BitVec.ofInt w v).toNat : Int) = v % 2 ^ w := by rw [← tou_eq Smt.std, tou_eq_emod]
    rw [Int.emod_emod] at a1
    omega
  rw [hofInt] at this
  exact this

theorem ctpopIntLoop_eq (S : Smt) (enc : Enc) (w : Nat) (v : Int)
    (ht : ∀ i, i < w → urem S enc w (udiv S enc w v ((2 ^ i : Nat) : Int)) 2 =
      (((BitVec.ofInt w v).getLsbD i).toNat : Int)) :
    ∀ k, k ≤ w → k ≤ 64 → ctpopIntLoop S enc w v k =
      some (((List.range k).countP fun i => (BitVec.ofInt w v).getLsbD i : Nat) : Int) := by
  intro k
  induction k with
  | zero => intro _ _; rfl
  | succ k ih =>
    intro h1 h2
    simp only [ctpopIntLoop, ih (by omega) (by omega), ullShl, if_pos (show k < 64 by omega)]
    rw [ht k (by omega), countP_range_succ, iadd]
    push_cast
    rw [Int.add_comm]

end Smack.Intrinsics
