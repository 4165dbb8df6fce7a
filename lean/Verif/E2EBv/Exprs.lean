/-
The SMT-LIB functions compute what LLVM specifies.
-/
import Verif.E2EBv.Spec
import Verif.IntOps.Props

namespace Smack.E2EBv

open Smack.IntOps (Pred litBv litNeg getSExtValue)

theorem ofInt_of_toInt {w : Nat} {x : BitVec w} {i : Int} (h : x.toInt = i) : BitVec.ofInt w i = x := by
  rw [← h, BitVec.ofInt_toInt]

theorem ofNat_of_toNat {w : Nat} {x : BitVec w} {n : Nat} (h : x.toNat = n % 2 ^ w) : BitVec.ofNat w n = x := by
  apply BitVec.eq_of_toNat_eq
  rw [BitVec.toNat_ofNat, h]

theorem ofInt_of_bmod {w : Nat} {x : BitVec w} {i : Int} (h : x.toInt = i.bmod (2 ^ w)) : BitVec.ofInt w i = x := by
  apply BitVec.eq_of_toInt_eq
  rw [BitVec.toInt_ofInt, h]

theorem toNat_zero_iff {w : Nat} {b : BitVec w} : b.toNat = 0 ↔ b = 0#w := by
  constructor
  · intro h; apply BitVec.eq_of_toNat_eq; simp [h]
  · rintro rfl; simp

theorem toInt_zero_iff {w : Nat} {b : BitVec w} : b.toInt = 0 ↔ b = 0#w := by
  constructor
  · intro h; apply BitVec.eq_of_toInt_eq; simp [h]
  · rintro rfl; simp

theorem smtUDiv_of_ne {w : Nat} (a b : BitVec w) (h : b ≠ 0#w) : a.smtUDiv b = a / b := by
  rw [BitVec.smtUDiv_eq, if_neg h]

theorem smtSDiv_of_ne {w : Nat} (a b : BitVec w) (h : b ≠ 0#w) : a.smtSDiv b = a.sdiv b := by
  have hn : -b ≠ 0#w := fun h' => h (by rw [← BitVec.neg_neg (x := b), h']; simp)
  rw [BitVec.smtSDiv_eq, BitVec.sdiv_eq]
  cases a.msb <;> cases b.msb <;> simp only [smtUDiv_of_ne _ _ h, smtUDiv_of_ne _ _ hn] <;> rfl

/-- Binary instructions. -/
theorem bin_eq {w : Nat} (op : Bin) (a b v : BitVec w) (h : llvmBin op a b = some v) : smtBin op a b = v := by
  cases op with
  | add => cases h; symm; exact ofNat_of_toNat (by simp [smtBin])
  | sub => cases h; symm; exact ofInt_of_bmod (by simp [smtBin])
  | mul => cases h; symm; exact ofNat_of_toNat (by simp [smtBin])
  | udiv =>
    simp only [llvmBin] at h
    split at h
    · cases h
    · next hb =>
      cases h; symm
      apply ofNat_of_toNat
      simp only [smtBin]
      rw [smtUDiv_of_ne _ _ (fun h => hb (toNat_zero_iff.2 h)), BitVec.toNat_udiv, Nat.mod_eq_of_lt]
      exact Nat.lt_of_le_of_lt (Nat.div_le_self _ _) a.isLt
  | sdiv =>
    simp only [llvmBin] at h
    split at h
    · cases h
    · next hb =>
      cases h; symm
      apply ofInt_of_bmod
      simp only [smtBin]
      rw [smtSDiv_of_ne _ _ (fun h => hb (.inl (toInt_zero_iff.2 h))), BitVec.toInt_sdiv]
  | urem =>
    simp only [llvmBin] at h
    split at h
    · cases h
    · cases h; symm
      apply ofNat_of_toNat
      show (a % b).toNat = _
      rw [BitVec.toNat_umod, Nat.mod_eq_of_lt (a := a.toNat % b.toNat)]
      exact Nat.lt_of_le_of_lt (Nat.mod_le _ _) a.isLt
  | srem =>
    simp only [llvmBin] at h
    split at h
    · cases h
    · cases h; symm
      exact ofInt_of_toInt (BitVec.toInt_srem a b)
  | shl =>
    simp only [llvmBin] at h
    split at h
    · cases h
    · cases h; symm
      apply ofNat_of_toNat
      show (a <<< b.toNat).toNat = _
      rw [BitVec.toNat_shiftLeft, Nat.shiftLeft_eq]
  | lshr =>
    simp only [llvmBin] at h
    split at h
    · cases h
    · cases h; symm
      apply ofNat_of_toNat
      show (a >>> b.toNat).toNat = _
      rw [BitVec.toNat_ushiftRight, Nat.shiftRight_eq_div_pow, Nat.mod_eq_of_lt]
      exact Nat.lt_of_le_of_lt (Nat.div_le_self _ _) a.isLt
  | ashr =>
    simp only [llvmBin] at h
    split at h
    · cases h
    · cases h; symm
      apply ofInt_of_toInt
      show (a.sshiftRight' b).toInt = _
      rw [BitVec.toInt_sshiftRight', Int.shiftRight_eq_div_pow]
      norm_cast
  | and => cases h; symm; exact ofNat_of_toNat (by rw [← BitVec.toNat_and, Nat.mod_eq_of_lt (BitVec.isLt _)]; rfl)
  | or => cases h; symm; exact ofNat_of_toNat (by rw [← BitVec.toNat_or, Nat.mod_eq_of_lt (BitVec.isLt _)]; rfl)
  | xor => cases h; symm; exact ofNat_of_toNat (by rw [← BitVec.toNat_xor, Nat.mod_eq_of_lt (BitVec.isLt _)]; rfl)

/-- Predicates. -/
theorem pred_iff {w : Nat} (p : Pred) (a b : BitVec w) : smtPred p a b = true ↔ llvmPred p a b := by
  cases p <;> simp [smtPred, llvmPred, BitVec.ule_iff_toNat_le, BitVec.ult_iff_toNat_lt, BitVec.sle_iff_toInt_le, BitVec.slt_iff_toInt_lt,
    BitVec.toNat_inj]

theorem minMax_eq {w : Nat} (m s : Bool) (a b : BitVec w) : smtMinMax m s a b = llvmMinMax m s a b := by
  unfold smtMinMax llvmMinMax
  cases m <;> cases s <;> simp only [pred_iff, llvmPred]
  · have : max a.toNat b.toNat = if a.toNat > b.toNat then a.toNat else b.toNat := by split <;> omega
    rw [this]; split <;> simp
  · have : max a.toInt b.toInt = if a.toInt > b.toInt then a.toInt else b.toInt := by split <;> omega
    rw [this]; split <;> simp
  · have : min a.toNat b.toNat = if a.toNat < b.toNat then a.toNat else b.toNat := by split <;> omega
    rw [this]; split <;> simp
  · have : min a.toInt b.toInt = if a.toInt < b.toInt then a.toInt else b.toInt := by split <;> omega
    rw [this]; split <;> simp

theorem litBv_eq {w : Nat} (u ui : Bool) (c : BitVec w) (h : u = true → ui = false → w ≤ 64) : litBv u ui c = some c := by
  cases hl : litBv u ui c with
  | some v => rw [IntOps.c06_litBv_exact u ui c v hl]
  | none =>
    exfalso
    simp only [litBv, Option.map_eq_none_iff, litNeg] at hl
    split at hl
    · split at hl
      · split at hl
        · cases hl
        · next h1 h2 h3 =>
          have h64 := h h2 (by simpa using h3)
          simp only [Option.map_eq_none_iff, getSExtValue] at hl
          split at hl
          · cases hl
          · next hn =>
            apply hn
            have l := BitVec.le_toInt c
            have r := BitVec.toInt_lt (x := c)
            have hp : (2 : Int) ^ (w - 1) ≤ 2 ^ 63 := by
              have := Nat.pow_le_pow_right (n := 2) (by decide) (show w - 1 ≤ 63 by omega)
              exact_mod_cast this
            omega
      · cases hl
    · cases hl

theorem trunc_eq {w : Nat} (w' : Nat) (a : BitVec w) : a.extractLsb' 0 w' = BitVec.ofNat w' a.toNat := by
  apply BitVec.eq_of_toNat_eq
  simp

theorem zext_eq {w : Nat} (w' : Nat) (a : BitVec w) : a.zeroExtend w' = BitVec.ofNat w' a.toNat := by
  apply BitVec.eq_of_toNat_eq
  simp

theorem sext_eq {w : Nat} (w' : Nat) (a : BitVec w) : a.signExtend w' = BitVec.ofInt w' a.toInt := rfl

/-- The value of an expression in LLVM, if it has one, is the value of the generated term. -/
theorem eval_eq (ρ : (n w : Nat) → BitVec w) {p : Nat → Nat → Prop} {w : Nat} (e : Expr w) (hok : e.Ok p) (v : BitVec w) (h : e.eval ρ = some v) :
    e.evalSmt ρ = some v := by
  induction e with
  | var w n => exact h
  | lit u ui c => cases h; exact litBv_eq _ _ _ hok
  | bin op a b iha ihb =>
    simp only [Expr.eval, Option.bind_eq_bind, Option.bind_eq_some_iff] at h
    obtain ⟨x, hx, y, hy, h⟩ := h
    simp only [Expr.evalSmt, iha hok.1 _ hx, ihb hok.2 _ hy, Option.bind_eq_bind, Option.bind_some]
    exact congrArg some (bin_eq op x y v h)
  | minMax m s a b iha ihb =>
    simp only [Expr.eval, Option.bind_eq_bind, Option.bind_eq_some_iff] at h
    obtain ⟨x, hx, y, hy, h⟩ := h
    simp only [Expr.evalSmt, iha hok.1 _ hx, ihb hok.2 _ hy, Option.bind_eq_bind, Option.bind_some]
    rw [minMax_eq]; exact h
  | trunc w' a ih =>
    simp only [Expr.eval, Option.bind_eq_bind, Option.bind_eq_some_iff] at h
    obtain ⟨x, hx, h⟩ := h
    simp only [Expr.evalSmt, ih hok.2 _ hx, Option.bind_eq_bind, Option.bind_some]
    rw [trunc_eq]; exact h
  | zext w' a ih =>
    simp only [Expr.eval, Option.bind_eq_bind, Option.bind_eq_some_iff] at h
    obtain ⟨x, hx, h⟩ := h
    simp only [Expr.evalSmt, ih hok.2 _ hx, Option.bind_eq_bind, Option.bind_some]
    rw [zext_eq]; exact h
  | sext w' a ih =>
    simp only [Expr.eval, Option.bind_eq_bind, Option.bind_eq_some_iff] at h
    obtain ⟨x, hx, h⟩ := h
    simp only [Expr.evalSmt, ih hok.2 _ hx, Option.bind_eq_bind, Option.bind_some]
    rw [sext_eq]; exact h
  | icmp p a b iha ihb =>
    simp only [Expr.eval, Option.bind_eq_bind, Option.bind_eq_some_iff] at h
    obtain ⟨x, hx, y, hy, h⟩ := h
    simp only [Expr.evalSmt, iha hok.1 _ hx, ihb hok.2 _ hy, Option.bind_eq_bind, Option.bind_some]
    rw [← h]
    simp only [pred_iff]
    rfl
  | select c a b ihc iha ihb =>
    simp only [Expr.eval, Option.bind_eq_bind, Option.bind_eq_some_iff] at h
    obtain ⟨z, hz, x, hx, y, hy, h⟩ := h
    simp only [Expr.evalSmt, ihc hok.1 _ hz, iha hok.2.1 _ hx, ihb hok.2.2 _ hy, Option.bind_eq_bind, Option.bind_some]
    rw [← h]
    have : z = 1#1 ↔ z.toNat = 1 := ⟨fun h => by rw [h]; rfl, fun h => BitVec.eq_of_toNat_eq h⟩
    simp only [this]

/-- The generated terms always have a value. -/
theorem evalSmt_total (ρ : (n w : Nat) → BitVec w) {p : Nat → Nat → Prop} {w : Nat} (e : Expr w) (hok : e.Ok p) : ∃ v, e.evalSmt ρ = some v := by
  induction e with
  | var w n => exact ⟨_, rfl⟩
  | lit u ui c => exact ⟨_, litBv_eq _ _ _ hok⟩
  | bin op a b iha ihb =>
    obtain ⟨x, hx⟩ := iha hok.1; obtain ⟨y, hy⟩ := ihb hok.2
    exact ⟨_, by simp only [Expr.evalSmt, hx, hy]; rfl⟩
  | minMax m s a b iha ihb =>
    obtain ⟨x, hx⟩ := iha hok.1; obtain ⟨y, hy⟩ := ihb hok.2
    exact ⟨_, by simp only [Expr.evalSmt, hx, hy]; rfl⟩
  | trunc w' a ih => obtain ⟨x, hx⟩ := ih hok.2; exact ⟨_, by simp only [Expr.evalSmt, hx]; rfl⟩
  | zext w' a ih => obtain ⟨x, hx⟩ := ih hok.2; exact ⟨_, by simp only [Expr.evalSmt, hx]; rfl⟩
  | sext w' a ih => obtain ⟨x, hx⟩ := ih hok.2; exact ⟨_, by simp only [Expr.evalSmt, hx]; rfl⟩
  | icmp p a b iha ihb =>
    obtain ⟨x, hx⟩ := iha hok.1; obtain ⟨y, hy⟩ := ihb hok.2
    exact ⟨_, by simp only [Expr.evalSmt, hx, hy]; rfl⟩
  | select c a b ihc iha ihb =>
    obtain ⟨z, hz⟩ := ihc hok.1; obtain ⟨x, hx⟩ := iha hok.2.1; obtain ⟨y, hy⟩ := ihb hok.2.2
    exact ⟨_, by simp only [Expr.evalSmt, hz, hx, hy]; rfl⟩

end Smack.E2EBv
