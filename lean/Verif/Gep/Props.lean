import Verif.Gep.Dyn

/-
Theorems about address computations: C42 (merging), C43 (translation), C45 (conversions) and C63 (comparisons).
-/

namespace Smack.Gep

open IntOps (Smt Enc)

/-! ## C42 -/

/-- C42, all index lists, types and bases: the merged `getelementptr` yields the same address, provided the added
indices do not overflow or are at least as wide as a pointer. Missing: narrower indices whose sum overflows, where
the claim is false (`c42_narrow_fails`). -/
theorem c42_merge_partial (P : Nat) (t : Ty) (src idx new : List Idx) (hm : merge t src idx = some new)
    (base : BitVec P) (o1 : Int) (t1 : Ty) (h1 : offset Ty.alloc t src = some (o1, t1)) (o2 : Int) (t2 : Ty)
    (h2 : offset Ty.alloc t1 idx = some (o2, t2))
    (hok : ∀ so go, src.getLast? = some so → idx.head? = some go → SumOk P so go) :
    ∃ o, offset Ty.alloc t new = some (o, t2) ∧ addr P base o = addr P (addr P base o1) o2 := by
  obtain ⟨o, ho, h⟩ := merge_offset hm h1 h2
  refine ⟨o, ho, ?_⟩
  unfold addr
  rw [BitVec.add_assoc, ← BitVec.ofInt_add]
  congr 1
  rw [ofInt_eq_iff]
  rcases h with h | ⟨so, go, sum, _, hl, hh, hs, he⟩
  · rw [h, Int.sub_self]; exact ⟨0, by simp⟩
  · rw [he]
    exact mergeSum_dvd hs (hok so go hl hh) _

/-- C42 is false for narrow indices: whenever the sum of two dynamic indices leaves the range of their width `w < P` and
the element size is not a multiple of `2^(P-w)`, the merged address differs. -/
theorem c42_narrow_fails (P : Nat) (t : Ty) (so go : Idx) (rest : List Idx) (hw : so.w = go.w) (hP : go.w < P)
    (hn1 : so.isNull = false) (hn2 : go.isNull = false)
    (hov : ¬ (-(2:Int)^(go.w - 1) ≤ so.bits.toInt + go.bits.toInt ∧ so.bits.toInt + go.bits.toInt < (2:Int)^(go.w - 1)))
    (hsz : ¬ 2^(P - go.w) ∣ t.alloc) (base : BitVec P) (o1 : Int)
    (h1 : offset Ty.alloc t [so] = some (o1, t)) (o2 : Int) (t2 : Ty)
    (h2 : offset Ty.alloc t (go :: rest) = some (o2, t2)) :
    ∃ new o, merge t [so] (go :: rest) = some new ∧ offset Ty.alloc t new = some (o, t2) ∧
      addr P base o ≠ addr P (addr P base o1) o2 := by
  have hsum : ∃ sum, mergeSum so go = some sum ∧
      ∃ q : Int, (q = 1 ∨ q = -1) ∧ sum.bits.toInt - (so.bits.toInt + go.bits.toInt) = q * (2:Int)^go.w := by
    obtain ⟨ws, so, cs, rs⟩ := so
    obtain ⟨wg, go, cg, rg⟩ := go
    dsimp only at hw hov hsz hP ⊢
    subst hw
    refine ⟨_, by unfold mergeSum; rw [hn1, hn2]; simp; rfl, ?_⟩
    dsimp only
    cases ws with
    | zero =>
      exfalso; apply hov
      rw [show so = 0#0 from by ext i hi; omega, show go = 0#0 from by ext i hi; omega]; decide
    | succ w =>
      obtain ⟨q, hq⟩ := add_toInt_dvd so go
      have r1 := toInt_range so
      have r2 := toInt_range go
      have r3 := toInt_range (so + go)
      simp only [Nat.add_sub_cancel] at r1 r2 r3 hov
      have hp := IntOps.two_pow_pos w
      rw [Int.pow_succ] at hq ⊢
      refine ⟨q, ?_, by rw [hq, Int.mul_comm]⟩
      generalize (2:Int)^w = X at *
      have hcases : q ≤ -2 ∨ q = -1 ∨ q = 0 ∨ q = 1 ∨ 2 ≤ q := by omega
      rcases hcases with h | h | h | h | h
      · have : X * 2 * q ≤ X * 2 * (-2) := Int.mul_le_mul_of_nonneg_left h (by omega)
        omega
      · exact Or.inr h
      · subst h; omega
      · exact Or.inl h
      · have : X * 2 * 2 ≤ X * 2 * q := Int.mul_le_mul_of_nonneg_left h (by omega)
        omega
  obtain ⟨sum, hs, q, hq, he⟩ := hsum
  have hm : merge t [so] (go :: rest) = some (sum :: rest) := by
    simp [merge, srcEndsSeq, endsSeq, hs]
  obtain ⟨o, ho, h⟩ := merge_offset hm h1 h2
  refine ⟨_, o, hm, ho, ?_⟩
  intro hc
  unfold addr at hc
  rw [BitVec.add_assoc, ← BitVec.ofInt_add, BitVec.add_right_inj, ofInt_eq_iff] at hc
  have hdiff : o - (o1 + o2) = q * (2:Int)^go.w * t.alloc := by
    have hr : ∃ r t', offRest Ty.alloc t rest = some (r, t') := by
      simp only [offset] at h2
      cases hr : offRest Ty.alloc t rest with
      | none => rw [hr] at h2; simp at h2
      | some p => exact ⟨p.1, p.2, rfl⟩
    obtain ⟨r, t', hr⟩ := hr
    simp [offset, hr, offRest] at ho h1 h2
    rw [← ho.1, ← h1, ← h2.1, ← he, Int.sub_mul, Int.add_mul]
    omega
  rw [hdiff] at hc
  apply hsz
  have h3 : (2:Int)^P ∣ (2:Int)^go.w * t.alloc := by
    rcases hq with hq | hq <;> subst hq
    · simpa using hc
    · have := (Int.dvd_neg).2 hc
      simpa [Int.neg_mul] using this
  have h4 : 2^P ∣ 2^go.w * t.alloc := by exact_mod_cast h3
  rw [show P = go.w + (P - go.w) from by omega, Nat.pow_add] at h4
  exact Nat.dvd_of_mul_dvd_mul_left (Nat.two_pow_pos _) h4

/-! ## C43 -/

/-- C43 for mathematical pointers: the Boogie address is exactly base plus LLVM's offset, for every type, every index
list and every base. Missing: dynamic indices narrower than a pointer that are negative (`c43_narrow_fails`) and
element types whose store size is not their allocation size (`c43_stride_fails`). -/
theorem c43_int_partial (S : Smt) (m : Mode) (P : Nat) (base : Int) (t : Ty) (is : List Idx) (o : Int) (t' : Ty)
    (ho : offset Ty.alloc t is = some (o, t')) (hs : SizesOk t is) (as : List Arg) (has : args t is = some as)
    (hall : AllIdx (fun i t => if i.isConst then i.ConstOk t else i.DynInt m P) as) :
    ptrArithInt S m P base as = some (base + o) := by
  obtain ⟨h1, h2⟩ := args_sum has ho hs
  rw [ptrArithInt_sum as base h2 hall, h1]

/-- C43 for bit-vector pointers. -/
theorem c43_bv_partial (S : Smt) (m : Mode) (P : Nat) (base : BitVec P) (t : Ty) (is : List Idx) (o : Int) (t' : Ty)
    (ho : offset Ty.alloc t is = some (o, t')) (hs : SizesOk t is) (as : List Arg) (has : args t is = some as)
    (hall : AllIdx (fun i t => if i.isConst then i.ConstOk t else i.DynBv m P) as) :
    ptrArithBv S m P base as = some (addr P base o) := by
  obtain ⟨h1, h2⟩ := args_sum has ho hs
  rw [ptrArithBv_sum as base h2 hall, h1]

/-- C43 in the integer encodings when dynamic indices are known only modulo their width: the address is right modulo
the size of the address space. -/
theorem c43_mod_partial (S : Smt) (enc : Enc) (P : Nat) (base : Int) (t : Ty) (is : List Idx) (o : Int) (t' : Ty)
    (ho : offset Ty.alloc t is = some (o, t')) (hs : SizesOk t is) (as : List Arg) (has : args t is = some as)
    (hall : AllIdx (fun i t => if i.isConst then i.ConstOk t else i.DynBv (.intBv enc) P) as) :
    ∃ v, ptrArithInt S (.int enc) P base as = some v ∧ BitVec.ofInt P v = addr P (BitVec.ofInt P base) o := by
  obtain ⟨h1, h2⟩ := args_sum has ho hs
  rw [← h1]
  exact ptrArithInt_mod as base h2 hall

/-- Every valid index list is translated. -/
theorem c43_args (sz : Ty → Nat) (t : Ty) (is : List Idx) (p : Int × Ty) (ho : offset sz t is = some p) :
    ∃ as, args t is = some as := args_total ho

/-- C43 is false for negative dynamic indices narrower than a pointer, which are zero-extended: with bit-vector pointers
and integers, and in the wrapped encoding. -/
theorem c43_narrow_fails (S : Smt) (P : Nat) (i : Idx) (hc : i.isConst = false) (hw : i.w < P)
    (hneg : i.bits.toInt < 0) (t : Ty) (hs : SizesOk t [i]) :
    (¬ 2^(P - i.w) ∣ t.alloc → ∀ base : BitVec P, ∃ v, ptrArithBv S .bv P base [.elem i t] = some v ∧
      v ≠ addr P base (i.bits.toInt * t.alloc)) ∧
    (i.RepOk → 0 < t.alloc → ∀ base : Int, ∃ v, ptrArithInt S (.int .wrapped) P base [.elem i t] = some v ∧
      v ≠ base + i.bits.toInt * t.alloc) := by
  have hst := storageSize_ok hs.1 hs.2.1
  have hnat : (i.bits.toNat : Int) = i.bits.toInt + (2:Int)^i.w := by
    have h2 : ((2^i.w : Nat) : Int) = (2:Int)^i.w := by norm_cast
    rw [← h2]
    rw [BitVec.toInt_eq_toNat_cond] at hneg ⊢
    split
    · rename_i h
      rw [if_pos h] at hneg
      omega
    · omega
  constructor
  · intro hsz base
    refine ⟨base + widenBv P i.bits * BitVec.ofNat P (storageSize t), by simp [ptrArithBv, hc, idxBv], ?_⟩
    rw [widenBv_eq, hst, ← BitVec.ofInt_natCast, ← BitVec.ofInt_mul]
    unfold addr
    intro h
    rw [BitVec.add_right_inj, ofInt_eq_iff, hnat, Int.add_mul] at h
    apply hsz
    rw [show i.bits.toInt * (t.alloc:Int) + (2:Int)^i.w * t.alloc - i.bits.toInt * t.alloc = (2:Int)^i.w * t.alloc
      from by omega] at h
    have h4 : 2^P ∣ 2^i.w * t.alloc := by exact_mod_cast h
    rw [show P = i.w + (P - i.w) from by omega, Nat.pow_add] at h4
    exact Nat.dvd_of_mul_dvd_mul_left (Nat.two_pow_pos _) h4
  · intro hr hpos base
    refine ⟨base + widenInt S .wrapped P i.w i.rep * (storageSize t : Int), by
      simp [ptrArithInt, hc, idxInt, IntOps.iadd, IntOps.imul], ?_⟩
    have hwi : widenInt S .wrapped P i.w i.rep = (i.bits.toNat : Int) := by
      unfold widenInt
      rw [if_pos hw]
      show IntOps.tou S i.w i.rep = _
      rw [IntOps.tou_eq, hr]
    rw [hwi, hst]
    intro h
    have h1 : (i.bits.toNat : Int) * t.alloc = i.bits.toInt * t.alloc := by omega
    have h2 := Int.eq_of_mul_eq_mul_right (by omega) h1
    omega

/-- C43 is false when the size SMACK scales by differs from LLVM's: x86_fp80 (10 of 16 bytes), integers such as i24
(3 of 4), and types of 4 GiB and more. -/
theorem c43_stride_fails (S : Smt) (m : Mode) (P : Nat) (i : Idx) (hc : i.isConst = true) (hw : i.w ≤ 64)
    (h1 : -(2:Int)^63 < i.bits.toInt) (h0 : i.bits.toInt ≠ 0) (t : Ty) (hs : storageSize t ≠ t.alloc) (base : Int) :
    ∃ v, ptrArithInt S m P base [.elem i t] = some v ∧ v ≠ base + i.bits.toInt * t.alloc := by
  have hci : constIdx i t = some i.bits.toInt := by
    unfold constIdx
    have hp : (2:Int)^(i.w-1) ≤ (2:Int)^63 := by
      have := Nat.pow_le_pow_right (n := 2) (by decide) (show i.w - 1 ≤ 63 by omega)
      exact_mod_cast this
    have hr := toInt_range (i.bits * BitVec.ofNat i.w (storageSize t))
    have hr' := toInt_range i.bits
    rw [if_pos (by omega), IntOps.getSExtValue, if_pos (by omega)]
  have hcc : constIdxInt i t = some i.bits.toInt := by
    unfold constIdxInt
    rw [hci]
    simp only
    split
    · rfl
    · rw [if_neg (by omega)]
      unfold IntOps.isub
      congr 1
      omega
  refine ⟨base + i.bits.toInt * (storageSize t : Int), by
    simp [ptrArithInt, hc, hcc, IntOps.iadd, IntOps.imul], ?_⟩
  intro h
  have h2 : i.bits.toInt * (storageSize t : Int) = i.bits.toInt * t.alloc := by omega
  have := Int.eq_of_mul_eq_mul_left h0 h2
  omega

/-! ## C45 -/

/-- C45, mathematical pointers and integers: at pointer width both directions are the identity. -/
theorem c45_int (S : Smt) (enc : Enc) (P : Nat) (p : Int) :
    widenInt S enc P P (p2iInt S enc P P p) = p ∧ p2iInt S enc P P (widenInt S enc P P p) = p := by
  simp [widenInt, p2iInt]

/-- C45 through a wider integer (64-bit integers, 32-bit pointers): the pointer returns if it is an address. -/
theorem c45_int_wide (S : Smt) (enc : Enc) (P w : Nat) (hw : P < w) (p : Int) (h0 : 0 ≤ p) (h1 : p < (2:Int)^P) :
    widenInt S enc P w (p2iInt S enc P w p) = p := by
  cases enc with
  | unbounded =>
    rw [widenInt_unbounded]
    unfold p2iInt
    rw [if_pos hw]; rfl
  | wrapped =>
    rw [widenInt_wrapped _ (by omega), Nat.min_eq_right (by omega)]
    unfold p2iInt
    rw [if_pos hw]
    show IntOps.tou S P p % _ = p
    rw [IntOps.tou_eq_emod, Int.emod_emod_of_dvd _ (Int.dvd_refl _)]
    exact Int.emod_eq_of_lt h0 h1

theorem p2iBv_eq {P w : Nat} (p : BitVec P) : p2iBv w p = p.setWidth w := by
  unfold p2iBv
  split
  · rfl
  · split <;> rfl

theorem widenBv_setWidth {P w : Nat} (b : BitVec w) : widenBv P b = b.setWidth P := by
  unfold widenBv
  split
  · rfl
  · split <;> rfl

/-- C45, bit vectors: through any integer at least as wide as a pointer; and back at pointer width. -/
theorem c45_bv (P w : Nat) (hw : P ≤ w) (p : BitVec P) :
    widenBv P (p2iBv w p) = p ∧ (∀ b : BitVec P, p2iBv P (widenBv P b) = b) := by
  constructor
  · rw [widenBv_setWidth, p2iBv_eq]
    rw [BitVec.setWidth_setWidth_of_le p hw, BitVec.setWidth_eq]
  · intro b
    rw [widenBv_setWidth, p2iBv_eq]
    simp

/-- C45, bit-vector integers and mathematical pointers: the pointer returns exactly if it lies in the signed range of
the pointer width. The other direction is the identity. -/
theorem c45_bvInt_partial (P w : Nat) (hP : P = 32 ∨ P = 64) (hw : P ≤ w) (p : Int) :
    (i2pBvInt P (p2iBvInt P w p) = some p ↔ -(2:Int)^(P-1) ≤ p ∧ p < (2:Int)^(P-1)) ∧
    (∀ b : BitVec P, ∃ v, i2pBvInt P b = some v ∧ p2iBvInt P P v = b) := by
  constructor
  · unfold i2pBvInt p2iBvInt int2bv
    rw [(c45_bv P w hw _).1, bv2int_signed hP]
    constructor
    · intro h
      have := toInt_range (BitVec.ofInt P p)
      have h := Option.some.inj h
      rw [h] at this
      exact this
    · rintro ⟨h1, h2⟩
      rw [IntOps.toInt_ofInt_range (by omega) h1 h2]
  · intro b
    refine ⟨b.toInt, ?_, ?_⟩
    · unfold i2pBvInt
      rw [widenBv_setWidth, bv2int_signed hP]
      simp
    · unfold p2iBvInt int2bv
      rw [p2iBv_eq, BitVec.ofInt_toInt]
      simp

/-- C45 fails in that mode for addresses in the upper half. -/
theorem c45_bvInt_fails (P w : Nat) (hP : P = 32 ∨ P = 64) (hw : P ≤ w) (p : Int) (h : (2:Int)^(P-1) ≤ p) :
    i2pBvInt P (p2iBvInt P w p) ≠ some p := by
  intro hc
  have := ((c45_bvInt_partial P w hP hw p).1.1 hc).2
  omega

/-- C45, mathematical integers and bit-vector pointers: every pointer returns; an integer returns reduced modulo
the pointer size. -/
theorem c45_intBv (S : Smt) (enc : Enc) (P w : Nat) (hw : P ≤ w) (p : BitVec P) :
    (∃ i, p2iIntBv S enc w p = some i ∧ i2pIntBv S enc P w i = p) ∧
    (∀ i : Int, p2iIntBv S enc P (i2pIntBv S enc P P i) = some (i % (2:Int)^P)) := by
  have hlt : (p.toNat : Int) < (2:Int)^P := by
    have := p.isLt
    exact_mod_cast this
  constructor
  · refine ⟨_, rfl, ?_⟩
    unfold i2pIntBv int2bv bv2uint
    rcases Nat.lt_or_eq_of_le hw with hlt' | heq
    · rw [c45_int_wide S enc P w hlt' _ (by omega) hlt, IntOps.ofInt_toNat]
    · subst heq
      rw [(c45_int S enc P _).1, IntOps.ofInt_toNat]
  · intro i
    have hw' : widenInt S enc P P i = i := by simp [widenInt]
    unfold p2iIntBv i2pIntBv int2bv
    rw [hw']
    simp only [bv2int, Option.map_some, bv2uint]
    rw [show p2iInt S enc P P ((BitVec.ofInt P i).toNat : Int) = ((BitVec.ofInt P i).toNat : Int) from by simp [p2iInt]]
    rw [← IntOps.tou_eq S, IntOps.tou_eq_emod]

/-- C45, the conversion functions themselves. -/
theorem c45_conv (m : Mode) (P : Nat) (hP : P = 32 ∨ P = 64) (b : BitVec P) :
    ∃ v, bv2int m b = some v ∧ int2bv P v = b := by
  cases m with
  | bvInt => exact ⟨_, bv2int_signed hP b, by simp [int2bv]⟩
  | int => exact ⟨_, rfl, IntOps.ofInt_toNat b⟩
  | intBv => exact ⟨_, rfl, IntOps.ofInt_toNat b⟩
  | bv => exact ⟨_, rfl, IntOps.ofInt_toNat b⟩

/-! ## C63 -/

/-- C63, bit-vector pointers: every predicate is LLVM's. -/
theorem c63_bv {P : Nat} (c : PPred) (a b : BitVec P) : ptrPredBv c a b = true ↔ icmpPtr c a b := by
  cases c <;>
    simp [ptrPredBv, icmpPtr, BitVec.ult_iff_toNat_lt, BitVec.ule_iff_toNat_le, BitVec.slt_iff_toInt_lt,
      BitVec.sle_iff_toInt_le]

/-- C63, mathematical pointers in the signed range: equality and signed predicates are LLVM's; unsigned predicates are
if the pointers have the same sign. -/
theorem c63_int_partial (P : Nat) (hP : 1 ≤ P) (c : PPred) (p q : Int) (hp : -(2:Int)^(P-1) ≤ p ∧ p < (2:Int)^(P-1))
    (hq : -(2:Int)^(P-1) ≤ q ∧ q < (2:Int)^(P-1)) (hu : c.isUnsigned = true → (0 ≤ p ↔ 0 ≤ q)) :
    ptrPredInt c p q = true ↔ icmpPtr c (BitVec.ofInt P p) (BitVec.ofInt P q) := by
  have hpi := IntOps.toInt_ofInt_range hP hp.1 hp.2
  have hqi := IntOps.toInt_ofInt_range hP hq.1 hq.2
  have heq : BitVec.ofInt P p = BitVec.ofInt P q ↔ p = q :=
    ⟨fun h => by rw [← hpi, ← hqi, h], fun h => by rw [h]⟩
  have hnat : ∀ r : Int, (BitVec.ofInt P r).toInt = r →
      ((BitVec.ofInt P r).toNat : Int) = if 0 ≤ r then r else r + (2:Int)^P := by
    intro r hr
    split
    · rename_i h
      rw [toNat_of_nonneg (by omega), hr]
    · rename_i h
      have h2 : ((2^P : Nat) : Int) = (2:Int)^P := by norm_cast
      rw [BitVec.toInt_eq_toNat_cond] at hr
      rw [← h2]
      split at hr <;> omega
  have hpn := hnat p hpi
  have hqn := hnat q hqi
  cases c <;> simp only [PPred.isUnsigned, true_implies] at hu <;>
    simp only [ptrPredInt, icmpPtr, hpi, hqi, heq, beq_iff_eq, bne_iff_ne, decide_eq_true_eq, ne_eq, gt_iff_lt, ge_iff_le]
  all_goals
    split at hpn <;> split at hqn <;> omega

/-- C63 is false for unsigned comparisons of a negative with a non-negative pointer, such as a global with a heap object
or null. -/
theorem c63_int_fails (P : Nat) (hP : 1 ≤ P) (p q : Int) (hp : -(2:Int)^(P-1) ≤ p ∧ p < 0)
    (hq : 0 ≤ q ∧ q < (2:Int)^(P-1)) :
    ¬ (ptrPredInt .ugt p q = true ↔ icmpPtr .ugt (BitVec.ofInt P p) (BitVec.ofInt P q)) := by
  have hs := IntOps.two_pow_split hP
  have hpos := IntOps.two_pow_pos (P-1)
  have hpn : ((BitVec.ofInt P p).toNat : Int) = p + (2:Int)^P := by
    have h2 : ((2^P : Nat) : Int) = (2:Int)^P := by norm_cast
    have : p % (2:Int)^P = p + (2:Int)^P := by
      rw [← Int.add_emod_right]
      exact Int.emod_eq_of_lt (by omega) (by omega)
    rw [BitVec.toNat_ofInt, h2, this]
    omega
  have hqn := IntOps.toNat_ofInt_lt (w := P) hq.1 (by omega)
  simp only [ptrPredInt, icmpPtr, decide_eq_true_eq]
  omega

/-! ## Concrete cases -/

section Examples

/-- `struct { i32; [4 x i64] }`. -/
abbrev exT : Ty := .struct 40 (.cons 0 (.scalar 4 4) (.cons 8 (.array 4 (.scalar 8 8)) .nil))
def ci (w : Nat) (v : Int) : Idx := ⟨w, BitVec.ofInt w v, true, v⟩
def dy (w : Nat) (v : Int) : Idx := ⟨w, BitVec.ofInt w v, false, v⟩

-- merging `gep (gep T, p, 1, 1, x), y` for dynamic `x = 5`, `y = -2`
example : (merge exT [ci 64 1, ci 32 1, dy 64 5] [dy 64 (-2)]).isSome = true ∧
    offset Ty.alloc exT [ci 64 1, ci 32 1, dy 64 5] = some (88, .scalar 8 8) ∧
    offset Ty.alloc (.scalar 8 8) [dy 64 (-2)] = some (-16, .scalar 8 8) ∧ SumOk 64 (dy 64 5) (dy 64 (-2)) :=
  ⟨by decide, by decide, by decide, Or.inr (Or.inr (Or.inl (by decide)))⟩

-- 32-bit indices `2^31-1` and `1`
example : (dy 32 2147483647).isNull = false ∧ (dy 32 1).isNull = false ∧
    ¬ (-(2:Int)^31 ≤ (dy 32 2147483647).bits.toInt + (dy 32 1).bits.toInt ∧
      (dy 32 2147483647).bits.toInt + (dy 32 1).bits.toInt < (2:Int)^31) ∧ ¬ 2^32 ∣ (Ty.scalar 4 4).alloc ∧
    offset Ty.alloc (.scalar 4 4) [dy 32 2147483647] = some (8589934588, .scalar 4 4) := by decide

-- a mixed path with a negative constant and a dynamic index
example : offset Ty.alloc exT [ci 64 (-1), ci 32 1, dy 64 3] = some (-8, .scalar 8 8) ∧
    SizesOk exT [ci 64 (-1), ci 32 1, dy 64 3] ∧
    args exT [ci 64 (-1), ci 32 1, dy 64 3] =
      some [.elem (ci 64 (-1)) exT, .field 8, .elem (dy 64 3) (.scalar 8 8)] ∧
    ((ci 64 (-1)).ConstOk exT ∧ (dy 64 3).DynInt (.int .wrapped) 64 ∧ (dy 64 3).DynInt .bvInt 64 ∧
      (dy 64 3).DynBv .bv 64) :=
  ⟨by decide, by simp [SizesOk, SizesOkRest, Ty.store, Ty.alloc, ci, Fields.get?], rfl,
    ⟨by decide, by decide, Or.inl (by decide)⟩,
    ⟨rfl, Or.inl ⟨rfl, by decide⟩⟩, ⟨Or.inr rfl, Or.inr ⟨by decide, by decide, by decide⟩⟩, Or.inl (by decide)⟩

-- index -1 of type i32
example : (dy 32 (-1)).isConst = false ∧ (dy 32 (-1)).bits.toInt < 0 ∧ (dy 32 (-1)).RepOk ∧
    SizesOk (.scalar 4 4) [dy 32 (-1)] ∧ ¬ 2^(64-32) ∣ (Ty.scalar 4 4).alloc :=
  ⟨rfl, by decide, rfl, by simp [SizesOk, SizesOkRest, Ty.store, Ty.alloc], by decide⟩

-- x86_fp80
example : storageSize (.scalar 10 16) ≠ (Ty.scalar 10 16).alloc ∧ (ci 64 1).bits.toInt ≠ 0 := by decide

end Examples

end Smack.Gep
