import Verif.Gep.Lemmas

namespace Smack.Gep

open IntOps (Smt Enc)

theorem toNat_dvd {w : Nat} (b : BitVec w) : (2:Int)^w ∣ (b.toNat : Int) - b.toInt :=
  (ofInt_eq_iff _ _).1 (by rw [IntOps.ofInt_toNat, BitVec.ofInt_toInt])

theorem toNat_of_nonneg {w : Nat} {b : BitVec w} (h : 0 ≤ b.toInt) : (b.toNat : Int) = b.toInt := by
  rw [BitVec.toInt_eq_toNat_cond] at h ⊢
  split
  · rfl
  · rename_i hc
    rw [if_neg hc] at h
    have := b.isLt
    omega

theorem rep_dvd {i : Idx} (h : i.RepOk) : (2:Int)^i.w ∣ i.rep - i.bits.toInt :=
  (ofInt_eq_iff _ _).1 (by rw [h, BitVec.ofInt_toInt])

theorem widenBv_eq {P w : Nat} (b : BitVec w) : widenBv P b = BitVec.ofInt P (b.toNat : Int) := by
  have h : widenBv P b = b.setWidth P := by
    unfold widenBv
    split
    · rfl
    · split <;> rfl
  rw [h, BitVec.ofInt_natCast]
  apply BitVec.eq_of_toNat_eq
  simp

theorem widenBv_signed {P w : Nat} (b : BitVec w) (h : P ≤ w ∨ 0 ≤ b.toInt) : widenBv P b = BitVec.ofInt P b.toInt := by
  rw [widenBv_eq]
  rcases h with h | h
  · rw [ofInt_eq_iff]
    exact Int.dvd_trans (pow_dvd h) (toNat_dvd b)
  · rw [toNat_of_nonneg h]

theorem bv2int_signed {P : Nat} (hP : P = 32 ∨ P = 64) (b : BitVec P) : bv2int .bvInt b = some b.toInt := by
  have ho : bv2intOffset P = some ((2:Int)^P) := by
    rcases hP with h | h <;> subst h <;> rfl
  simp only [bv2int, ho, Option.map_some]
  congr 1
  have hlt := b.isLt
  have h2 : ((2^P : Nat) : Int) = (2:Int)^P := by norm_cast
  have ht := BitVec.toInt_eq_toNat_cond b
  simp only [BitVec.slt_iff_toInt_lt, BitVec.toInt_zero, bv2uint, IntOps.isub, ← h2]
  split at ht <;> split <;> omega

theorem widenInt_wrapped {S : Smt} {P w : Nat} (e : Int) (h : w ≠ P) :
    widenInt S .wrapped P w e = e % (2:Int)^(min w P) := by
  unfold widenInt
  split
  · rename_i hlt
    rw [Nat.min_eq_left (by omega)]; exact IntOps.tou_eq_emod S _ _
  · rw [if_pos (by omega), Nat.min_eq_right (by omega)]; exact IntOps.tou_eq_emod S _ _

theorem widenInt_unbounded {S : Smt} {P w : Nat} (e : Int) : widenInt S .unbounded P w e = e := by
  unfold widenInt
  split
  · rfl
  · split <;> rfl

theorem idxInt_ok {S : Smt} {m : Mode} {P : Nat} {i : Idx} (h : i.DynInt m P) : idxInt S m P i = some i.bits.toInt := by
  cases m with
  | int enc =>
    simp only [idxInt]
    cases enc with
    | unbounded => rw [widenInt_unbounded]; exact congrArg some h
    | wrapped =>
      obtain ⟨hr, ⟨hw, hv⟩ | ⟨hw, h0, h1⟩⟩ := h
      · unfold widenInt
        rw [if_neg (by omega), if_neg (by omega), hv]
      · rw [widenInt_wrapped _ hw]
        congr 1
        have hd := Int.dvd_trans (pow_dvd (show min i.w P ≤ i.w by omega)) (rep_dvd hr)
        rw [Int.emod_eq_emod_iff_emod_sub_eq_zero.2 (Int.emod_eq_zero_of_dvd hd)]
        apply Int.emod_eq_of_lt h0
        rcases Nat.le_total i.w P with hle | hle
        · rw [Nat.min_eq_left hle, ← toNat_of_nonneg h0]
          have := i.bits.isLt
          exact_mod_cast this
        · rw [Nat.min_eq_right hle]; exact h1
  | bvInt =>
    obtain ⟨hP, h⟩ := h
    simp only [idxInt]
    rw [bv2int_signed hP]
    congr 1
    have hP1 : 1 ≤ P := by omega
    rcases h with ⟨hw, h0⟩ | ⟨hw, h1, h2⟩
    · rw [widenBv_signed _ (Or.inr h0)]
      have hr := toInt_range i.bits
      have : (2:Int)^(i.w-1) ≤ (2:Int)^(P-1) := by
        have := Nat.pow_le_pow_right (n := 2) (by decide) (show i.w - 1 ≤ P - 1 by omega)
        exact_mod_cast this
      exact IntOps.toInt_ofInt_range hP1 (by omega) (by omega)
    · rw [widenBv_signed _ (Or.inl hw)]
      exact IntOps.toInt_ofInt_range hP1 h1 h2
  | intBv => exact h.elim
  | bv => exact h.elim

/-- The integer pointer index modulo the pointer size. -/
theorem widenInt_mod {S : Smt} {enc : Enc} {P : Nat} {i : Idx} (h : i.DynBv (.intBv enc) P) :
    BitVec.ofInt P (widenInt S enc P i.w i.rep) = BitVec.ofInt P i.bits.toInt := by
  rw [ofInt_eq_iff]
  cases enc with
  | unbounded =>
    rw [widenInt_unbounded]
    obtain ⟨hr, h | h⟩ := h
    · exact Int.dvd_trans (pow_dvd h) (rep_dvd hr)
    · rw [h, Int.sub_self]; exact ⟨0, by simp⟩
  | wrapped =>
    obtain ⟨hr, h⟩ := h
    by_cases hw : i.w = P
    · unfold widenInt
      rw [if_neg (by omega), if_neg (by omega)]
      exact Int.dvd_trans (pow_dvd (by omega)) (rep_dvd hr)
    · rw [widenInt_wrapped _ hw]
      by_cases hle : P ≤ i.w
      · rw [Nat.min_eq_right hle]
        have h1 : (2:Int)^P ∣ i.rep - i.rep % (2:Int)^P := Int.dvd_self_sub_emod
        have h2 := Int.dvd_trans (pow_dvd hle) (rep_dvd hr)
        have := Int.dvd_sub h2 h1
        rwa [show i.rep - i.bits.toInt - (i.rep - i.rep % (2:Int)^P) = i.rep % (2:Int)^P - i.bits.toInt from by omega]
          at this
      · have h0 := h.resolve_left hle
        rw [Nat.min_eq_left (by omega)]
        rw [Int.emod_eq_emod_iff_emod_sub_eq_zero.2 (Int.emod_eq_zero_of_dvd (rep_dvd hr))]
        rw [Int.emod_eq_of_lt h0]
        · rw [Int.sub_self]; exact ⟨0, by simp⟩
        · rw [← toNat_of_nonneg h0]
          have := i.bits.isLt
          exact_mod_cast this

theorem idxBv_ok {S : Smt} {m : Mode} {P : Nat} {i : Idx} (h : i.DynBv m P) :
    idxBv S m P i = BitVec.ofInt P i.bits.toInt := by
  cases m with
  | int => exact h.elim
  | bvInt => exact h.elim
  | intBv enc => exact widenInt_mod h
  | bv => exact widenBv_signed _ h

theorem ptrArithInt_sum {S : Smt} {m : Mode} {P : Nat} (as : List Arg) (base : Int)
    (hs : AllIdx (fun _ t => storageSize t = t.alloc) as)
    (h : AllIdx (fun i t => if i.isConst then i.ConstOk t else i.DynInt m P) as) :
    ptrArithInt S m P base as = some (base + sumA as) := by
  induction as generalizing base with
  | nil => simp [ptrArithInt, sumA]
  | cons a as ih =>
    cases a with
    | field o =>
      rw [ptrArithInt, ih _ hs h]
      simp only [IntOps.iadd, IntOps.imul, sumA]
      congr 1; omega
    | elem i t =>
      obtain ⟨hs1, hs2⟩ := hs
      obtain ⟨h1, h2⟩ := h
      rw [ptrArithInt]
      have : (if i.isConst = true then constIdxInt i t else idxInt S m P i) = some i.bits.toInt := by
        split
        · rename_i hc
          rw [if_pos hc] at h1
          exact constIdxInt_ok h1 hs1
        · rename_i hc
          rw [if_neg hc] at h1
          exact idxInt_ok h1
      rw [this]
      simp only
      rw [ih _ hs2 h2]
      simp only [IntOps.iadd, IntOps.imul, sumA]
      congr 1; omega

theorem ptrArithBv_sum {S : Smt} {m : Mode} {P : Nat} (as : List Arg) (base : BitVec P)
    (hs : AllIdx (fun _ t => storageSize t = t.alloc) as)
    (h : AllIdx (fun i t => if i.isConst then i.ConstOk t else i.DynBv m P) as) :
    ptrArithBv S m P base as = some (addr P base (sumA as)) := by
  induction as generalizing base with
  | nil => simp [ptrArithBv, sumA, addr]
  | cons a as ih =>
    cases a with
    | field o =>
      rw [ptrArithBv, ih _ hs h]
      simp only [addr, sumA, BitVec.ofInt_add, BitVec.ofInt_natCast]
      rw [show BitVec.ofNat P (fieldOffset o) * BitVec.ofNat P 1 = BitVec.ofNat P (fieldOffset o) from by
        apply BitVec.eq_of_toNat_eq; simp]
      rw [BitVec.add_assoc]
    | elem i t =>
      obtain ⟨hs1, hs2⟩ := hs
      obtain ⟨h1, h2⟩ := h
      rw [ptrArithBv]
      have : (if i.isConst = true then constIdxBv P i t else some (idxBv S m P i)) =
          some (BitVec.ofInt P i.bits.toInt) := by
        split
        · rename_i hc
          rw [if_pos hc] at h1
          exact constIdxBv_ok h1 hs1
        · rename_i hc
          rw [if_neg hc] at h1
          rw [idxBv_ok h1]
      rw [this]
      simp only
      rw [ih _ hs2 h2]
      simp only [addr, sumA, BitVec.ofInt_add, BitVec.ofInt_mul, BitVec.ofInt_natCast]
      rw [BitVec.add_assoc]

/-- The integer encodings, modulo the pointer size. -/
theorem ptrArithInt_mod {S : Smt} {enc : Enc} {P : Nat} (as : List Arg) (base : Int)
    (hs : AllIdx (fun _ t => storageSize t = t.alloc) as)
    (h : AllIdx (fun i t => if i.isConst then i.ConstOk t else i.DynBv (.intBv enc) P) as) :
    ∃ v, ptrArithInt S (.int enc) P base as = some v ∧ BitVec.ofInt P v = addr P (BitVec.ofInt P base) (sumA as) := by
  induction as generalizing base with
  | nil => exact ⟨base, rfl, by simp [sumA, addr]⟩
  | cons a as ih =>
    cases a with
    | field o =>
      obtain ⟨v, h1, h2⟩ := ih (IntOps.iadd base (IntOps.imul (fieldOffset o : Int) 1)) hs h
      refine ⟨v, by rw [ptrArithInt, h1], ?_⟩
      rw [h2]
      simp only [IntOps.iadd, IntOps.imul, addr, sumA, BitVec.ofInt_add, Int.mul_one]
      rw [BitVec.add_assoc]
    | elem i t =>
      obtain ⟨hs1, hs2⟩ := hs
      obtain ⟨hi, ha⟩ := h
      have : ∃ e, (if i.isConst = true then constIdxInt i t else idxInt S (.int enc) P i) = some e ∧
          BitVec.ofInt P e = BitVec.ofInt P i.bits.toInt := by
        by_cases hc : i.isConst = true
        · rw [if_pos hc] at hi ⊢
          exact ⟨_, constIdxInt_ok hi hs1, rfl⟩
        · rw [if_neg hc] at hi ⊢
          exact ⟨_, rfl, widenInt_mod hi⟩
      obtain ⟨e, he1, he2⟩ := this
      obtain ⟨v, h1, h2⟩ := ih (IntOps.iadd base (IntOps.imul e (storageSize t : Int))) hs2 ha
      refine ⟨v, by rw [ptrArithInt, he1]; exact h1, ?_⟩
      rw [h2]
      simp only [IntOps.iadd, IntOps.imul, addr, sumA, BitVec.ofInt_add, BitVec.ofInt_mul, he2]
      rw [BitVec.add_assoc]

end Smack.Gep
