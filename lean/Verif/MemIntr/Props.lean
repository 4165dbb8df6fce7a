/-
C17: the generated contracts of memcpy and memset determine the result.
-/
import Verif.MemIntr.Model
import Verif.MemIntr.Spec

namespace Smack.MemIntr

open Spec

variable {α : Type}

/-! ## Lemmas -/

theorem ofNat_toNat_sub {w : Nat} (x d : BitVec w) : d + BitVec.ofNat w (x - d).toNat = x := by
  rw [BitVec.ofNat_toNat, BitVec.setWidth_eq]
  rw [BitVec.add_comm, BitVec.sub_add_cancel]

theorem mod_lt_two (a W : Nat) (h : a < 2 * W) : a % W = if a < W then a else a - W := by
  by_cases h1 : a < W
  · rw [if_pos h1, Nat.mod_eq_of_lt h1]
  · rw [if_neg h1, Nat.mod_eq_sub_mod (by omega), Nat.mod_eq_of_lt (by omega)]

theorem toInt_cond {w : Nat} (hw : 0 < w) (x : BitVec w) :
    x.toInt = if x.toNat < 2 ^ (w - 1) then (x.toNat : Int) else (x.toNat : Int) - 2 * 2 ^ (w - 1) := by
  obtain ⟨k, rfl⟩ : ∃ k, w = k + 1 := ⟨w - 1, by omega⟩
  rw [BitVec.toInt_eq_toNat_cond, Nat.add_sub_cancel]
  rw [show ((2 ^ (k + 1) : Nat) : Int) = 2 * 2 ^ k by
    rw [Nat.pow_succ]; simp [Int.mul_comm]]
  rw [Nat.pow_succ]
  split <;> split <;> omega

/-- Without signed overflow of `dst + len`, the guard of the contract describes the bytes `dst`, ..., `dst + len - 1`. -/
theorem guard_iff {w : Nat} (hw : 0 < w) (dst len x : BitVec w) (h0 : 0 ≤ len.toInt)
    (h1 : dst.toInt + len.toInt < 2 ^ (w - 1)) :
    (dst.sle x && x.slt (dst + len)) = true ↔ (x - dst).toNat < len.toNat := by
  rw [Bool.and_eq_true, BitVec.sle_iff_toInt_le, BitVec.slt_iff_toInt_lt]
  rw [toInt_cond hw len] at h0 h1
  rw [toInt_cond hw dst] at h1
  rw [toInt_cond hw dst, toInt_cond hw x, toInt_cond hw (dst + len), BitVec.toNat_add, BitVec.toNat_sub]
  have b1 := dst.isLt
  have b2 := len.isLt
  have b3 := x.isLt
  have hp : 2 ^ w = 2 * 2 ^ (w - 1) := by
    obtain ⟨k, rfl⟩ : ∃ k, w = k + 1 := ⟨w - 1, by omega⟩
    rw [Nat.pow_succ, Nat.add_sub_cancel]; omega
  have hpi : ((2 ^ (w - 1) : Nat) : Int) = 2 ^ (w - 1) := by simp
  rw [mod_lt_two _ _ (by omega), mod_lt_two _ _ (by omega)]
  rw [← hpi] at h0 h1 ⊢
  rw [hp] at b1 b2 b3 ⊢
  clear hp hpi
  generalize 2 ^ (w - 1) = H at *
  generalize dst.toNat = a at *
  generalize len.toNat = b at *
  generalize x.toNat = c at *
  split at h0 <;> split at h1 <;> repeat' split
  all_goals omega

/-- The first guard and the two frame guards are complementary. -/
theorem frame_iff {w : Nat} (dst e x : BitVec w) :
    (x.slt dst = true ∨ e.sle x = true) ↔ ¬ (dst.sle x && x.slt e) = true := by
  rw [Bool.and_eq_true, BitVec.sle_iff_toInt_le, BitVec.slt_iff_toInt_lt, BitVec.slt_iff_toInt_lt, BitVec.sle_iff_toInt_le]
  omega

theorem copied_bv {w : Nat} (Mdst Msrc Mret : BitVec w → α) (dst src : BitVec w) (n : Nat) (hn : n ≤ 2 ^ w) :
    Copied bvAt Mdst Msrc dst src n Mret ↔
      (∀ x, (x - dst).toNat < n → Mret x = Msrc (src - dst + x)) ∧ (∀ x, ¬ (x - dst).toNat < n → Mret x = Mdst x) := by
  have e1 : ∀ x : BitVec w, bvAt dst (x - dst).toNat = x := fun x => ofNat_toNat_sub x dst
  have e2 : ∀ x : BitVec w, bvAt src (x - dst).toNat = src - dst + x := by
    intro x
    unfold bvAt
    rw [BitVec.ofNat_toNat, BitVec.setWidth_eq]
    simp only [BitVec.sub_eq_add_neg]
    ac_rfl
  have e3 : ∀ i, i < n → (bvAt dst i - dst).toNat = i := by
    intro i hi
    unfold bvAt
    rw [BitVec.add_comm, BitVec.add_sub_cancel, BitVec.toNat_ofNat, Nat.mod_eq_of_lt (by omega)]
  constructor
  · rintro ⟨h1, h2⟩
    refine ⟨fun x hx => ?_, fun x hx => h2 x ?_⟩
    · have := h1 _ hx
      rwa [e1, e2] at this
    · rintro i hi rfl
      rw [e3 i hi] at hx
      exact hx hi
  · rintro ⟨h1, h2⟩
    refine ⟨fun i hi => ?_, fun x hx => h2 x fun hlt => hx _ hlt (e1 x).symm⟩
    have h3 := h1 (bvAt dst i) (by rw [e3 i hi]; exact hi)
    rw [h3, ← e2 (bvAt dst i), e3 i hi]

theorem filled_eq {R : Type} (at_ : R → Nat → R) (M Mret : R → α) (dst : R) (val : α) (n : Nat) :
    Filled at_ M dst val n Mret ↔ Copied at_ M (fun _ => val) dst dst n Mret := Iff.rfl

theorem setContract_eq {R : Type} (o : RefOps R) (M Mret : R → α) (dst len : R) (val : α) :
    setContract o M dst val len Mret ↔ copyContract o M (fun _ => val) dst dst len Mret := Iff.rfl

theorem memset_eq {R : Type} [DecidableEq R] (o : RefOps R) (const : Option Nat) (M Mret : R → α) (dst len : R) (val : α) :
    memsetPost o const M dst val len Mret ↔ memcpyPost o const M (fun _ => val) dst dst len Mret := Iff.rfl

/-- The unrolled body copies exactly the `n` bytes, if they have different addresses. -/
theorem body_copied {R : Type} [DecidableEq R] (o : RefOps R) (Mdst Msrc : R → α) (dst src : R) (n : Nat)
    (hinj : ∀ i j, i < n → j < n → o.add dst (o.lit i) = o.add dst (o.lit j) → i = j) :
    Copied (fun p i => o.add p (o.lit i)) Mdst Msrc dst src n (copyBody o Mdst Msrc dst src n) := by
  induction n with
  | zero => exact ⟨fun i hi => absurd hi (Nat.not_lt_zero i), fun x _ => rfl⟩
  | succ n ih =>
    obtain ⟨h1, h2⟩ := ih fun i j hi hj => hinj i j (by omega) (by omega)
    have hs : copyBody o Mdst Msrc dst src (n + 1) =
        upd (copyBody o Mdst Msrc dst src n) (o.add dst (o.lit n)) (Msrc (o.add src (o.lit n))) := by
      unfold copyBody
      rw [List.range_succ, List.foldl_append]
      rfl
    rw [hs]
    refine ⟨fun i hi => ?_, fun x hx => ?_⟩
    · unfold upd
      by_cases he : i = n
      · subst he; simp
      · have : o.add dst (o.lit i) ≠ o.add dst (o.lit n) := fun h => he (hinj i n hi (by omega) h)
        simp only [this, if_false]
        exact h1 i (by omega)
    · unfold upd
      have : x ≠ o.add dst (o.lit n) := hx n (by omega)
      simp only [this, if_false]
      exact h2 x fun i hi => hx i (by omega)

theorem copied_unique {R : Type} (at_ : R → Nat → R) (Mdst Msrc M1 M2 : R → α) (dst src : R) (n : Nat)
    (h1 : Copied at_ Mdst Msrc dst src n M1) (h2 : Copied at_ Mdst Msrc dst src n M2) : M1 = M2 := by
  funext x
  by_cases h : ∃ i, i < n ∧ x = at_ dst i
  · obtain ⟨i, hi, rfl⟩ := h
    rw [h1.1 i hi, h2.1 i hi]
  · have hx : ∀ i, i < n → x ≠ at_ dst i := fun i hi he => h ⟨i, hi, he⟩
    rw [h1.2 x hx, h2.2 x hx]

theorem const_length {const : Option Nat} (h : length const ≤ threshold) (hc : ∀ c, const = some c → c < 2 ^ 32) :
    ∃ c, const = some c ∧ length const = c := by
  cases const with
  | none => simp [length, Regions.memLength, threshold] at h
  | some c =>
    refine ⟨c, rfl, ?_⟩
    have := hc c rfl
    simp only [length, Regions.memLength, Regions.u32]
    omega

/-! ## Properties -/

/-- C17 for integer addresses: for every length operand that is not a constant, and every constant below 2^32, the
memories allowed by the contract are exactly the memory in which the bytes (of the memory before the call, so also for
overlapping ranges) have been copied and everything else is unchanged. Negative lengths copy nothing. -/
theorem c17_memcpy_int (const : Option Nat) (len : Int) (hc : ∀ c, const = some c → len = c ∧ c < 2 ^ 32)
    (Mdst Msrc Mret : Int → α) (dst src : Int) :
    memcpyPost intRef const Mdst Msrc dst src len Mret ↔ Copied intAt Mdst Msrc dst src len.toNat Mret := by
  unfold memcpyPost
  by_cases hl : length const ≤ threshold
  · rw [if_pos hl]
    obtain ⟨c, rfl, hlc⟩ := const_length hl fun c h => (hc c h).2
    obtain ⟨h1, h2⟩ := hc c rfl
    subst h1
    rw [hlc, Int.toNat_natCast]
    have hb := body_copied intRef Mdst Msrc dst src c (by simp only [intRef]; omega)
    exact ⟨fun h => h ▸ hb, fun h => copied_unique _ _ _ _ _ _ _ _ h hb⟩
  · rw [if_neg hl]
    simp only [copyContract, intRef, Copied, intAt, Bool.and_eq_true, decide_eq_true_eq]
    constructor
    · rintro ⟨h1, h2, h3⟩
      refine ⟨fun i hi => ?_, fun x hx => ?_⟩
      · rw [h1 (dst + i) (by omega)]
        congr 1; omega
      · by_cases ha : x < dst
        · exact h2 x ha
        · by_cases hb : dst + len ≤ x
          · exact h3 x hb
          · exact absurd (by omega : x = dst + ((x - dst).toNat : Int)) (hx (x - dst).toNat (by omega))
    · rintro ⟨h1, h2⟩
      refine ⟨fun x hx => ?_, fun x hx => h2 x ?_, fun x hx => h2 x ?_⟩
      · have := h1 (x - dst).toNat (by omega)
        rw [show dst + ((x - dst).toNat : Int) = x by omega, show src + ((x - dst).toNat : Int) = src - dst + x by omega] at this
        exact this
      · intro i hi; omega
      · intro i hi; omega

/-- C17, memset for integer addresses. -/
theorem c17_memset_int (const : Option Nat) (len : Int) (hc : ∀ c, const = some c → len = c ∧ c < 2 ^ 32)
    (M Mret : Int → α) (dst : Int) (val : α) :
    memsetPost intRef const M dst val len Mret ↔ Filled intAt M dst val len.toNat Mret := by
  rw [memset_eq, filled_eq]
  exact c17_memcpy_int const len hc M (fun _ => val) Mret dst dst

/-- C17 for bit-precise pointers: the same, provided `dst + len` does not overflow. -/
theorem c17_memcpy_bv {w : Nat} (hw : 32 < w) (const : Option Nat) (len : BitVec w)
    (hc : ∀ c, const = some c → len = BitVec.ofNat w c ∧ c < 2 ^ 32) (Mdst Msrc Mret : BitVec w → α) (dst src : BitVec w)
    (h0 : 0 ≤ len.toInt) (h1 : dst.toInt + len.toInt < 2 ^ (w - 1)) :
    memcpyPost (bvRef w) const Mdst Msrc dst src len Mret ↔ Copied bvAt Mdst Msrc dst src len.toNat Mret := by
  unfold memcpyPost
  by_cases hl : length const ≤ threshold
  · rw [if_pos hl]
    obtain ⟨c, rfl, hlc⟩ := const_length hl fun c h => (hc c h).2
    obtain ⟨h2, h3⟩ := hc c rfl
    subst h2
    have hcw : c < 2 ^ w := Nat.lt_trans h3 (Nat.pow_lt_pow_right (by decide) hw)
    rw [hlc, BitVec.toNat_ofNat, Nat.mod_eq_of_lt hcw]
    have hb := body_copied (bvRef w) Mdst Msrc dst src c (by
      intro i j hi hj h
      simp only [bvRef] at h
      have h := congrArg BitVec.toNat (BitVec.add_right_inj dst |>.1 h)
      rwa [BitVec.toNat_ofNat, BitVec.toNat_ofNat, Nat.mod_eq_of_lt (by omega), Nat.mod_eq_of_lt (by omega)] at h)
    exact ⟨fun h => h ▸ hb, fun h => copied_unique _ _ _ _ _ _ _ _ h hb⟩
  · rw [if_neg hl, copied_bv _ _ _ _ _ _ (Nat.le_of_lt len.isLt)]
    simp only [copyContract, bvRef]
    constructor
    · rintro ⟨h2, h3, h4⟩
      refine ⟨fun x hx => h2 x ((guard_iff (by omega) dst len x h0 h1).2 hx), fun x hx => ?_⟩
      rw [← guard_iff (by omega) dst len x h0 h1, ← frame_iff] at hx
      exact hx.elim (h3 x) (h4 x)
    · rintro ⟨h2, h3⟩
      refine ⟨fun x hx => h2 x ((guard_iff (by omega) dst len x h0 h1).1 hx), fun x hx => h3 x ?_, fun x hx => h3 x ?_⟩
      · rw [← guard_iff (by omega) dst len x h0 h1, ← frame_iff]; exact .inl hx
      · rw [← guard_iff (by omega) dst len x h0 h1, ← frame_iff]; exact .inr hx

/-- C17, memset for bit-precise pointers. -/
theorem c17_memset_bv {w : Nat} (hw : 32 < w) (const : Option Nat) (len : BitVec w)
    (hc : ∀ c, const = some c → len = BitVec.ofNat w c ∧ c < 2 ^ 32) (M Mret : BitVec w → α) (dst : BitVec w) (val : α)
    (h0 : 0 ≤ len.toInt) (h1 : dst.toInt + len.toInt < 2 ^ (w - 1)) :
    memsetPost (bvRef w) const M dst val len Mret ↔ Filled bvAt M dst val len.toNat Mret := by
  rw [memset_eq, filled_eq]
  exact c17_memcpy_bv hw const len hc M (fun _ => val) Mret dst dst h0 h1

/-- C17: the specification determines one memory, and one exists, so the procedure neither blocks nor is nondeterministic. -/
theorem c17_one_post_int (len : Int) (Mdst Msrc : Int → α) (dst src : Int) :
    ∃ Mret, Copied intAt Mdst Msrc dst src len.toNat Mret ∧ ∀ M', Copied intAt Mdst Msrc dst src len.toNat M' → M' = Mret := by
  refine ⟨fun x => if dst ≤ x ∧ x < dst + len then Msrc (src + (x - dst)) else Mdst x, ⟨fun i hi => ?_, fun x hx => ?_⟩, ?_⟩
  · have h : dst ≤ intAt dst i ∧ intAt dst i < dst + len := by simp only [intAt]; omega
    simp only [if_pos h]
    congr 1; simp only [intAt]; omega
  · by_cases h : dst ≤ x ∧ x < dst + len
    · refine absurd ?_ (hx (x - dst).toNat (by omega))
      simp only [intAt]; omega
    · simp only [if_neg h]
  · rintro M' ⟨h1, h2⟩
    funext x
    by_cases h : dst ≤ x ∧ x < dst + len
    · have := h1 (x - dst).toNat (by omega)
      simp only [intAt] at this
      rw [show dst + ((x - dst).toNat : Int) = x by omega, show src + ((x - dst).toNat : Int) = src + (x - dst) by omega] at this
      simp only [if_pos h, this]
    · simp only [if_neg h]
      refine h2 x fun i hi hxi => h ?_
      simp only [intAt] at hxi
      omega

/-- C17, bit-precise pointers: exactly one memory, whether or not the addresses wrap. -/
theorem c17_one_post_bv {w : Nat} (n : Nat) (hn : n ≤ 2 ^ w) (Mdst Msrc : BitVec w → α) (dst src : BitVec w) :
    ∃ Mret, Copied bvAt Mdst Msrc dst src n Mret ∧ ∀ M', Copied bvAt Mdst Msrc dst src n M' → M' = Mret := by
  refine ⟨fun x => if (x - dst).toNat < n then Msrc (src - dst + x) else Mdst x, ?_, ?_⟩
  · rw [copied_bv _ _ _ _ _ _ hn]
    exact ⟨fun x hx => by simp only [if_pos hx], fun x hx => by simp only [if_neg hx]⟩
  · intro M' h
    rw [copied_bv _ _ _ _ _ _ hn] at h
    funext x
    by_cases hx : (x - dst).toNat < n
    · simp only [if_pos hx, h.1 x hx]
    · simp only [if_neg hx, h.2 x hx]

/-- Overlapping ranges: `memcpy(1, 0, 3)` within `[10, 11, 12, 13]` gives `[10, 10, 11, 12]`. -/
example (Mret : Int → Int) (h : memcpyPost intRef none (fun x => 10 + x) (fun x => 10 + x) 1 0 3 Mret) :
    Mret 0 = 10 ∧ Mret 1 = 10 ∧ Mret 2 = 11 ∧ Mret 3 = 12 ∧ Mret 4 = 14 := by
  rw [c17_memcpy_int none 3 (by simp)] at h
  obtain ⟨h1, h2⟩ := h
  refine ⟨h2 0 ?_, h1 0 (by decide), h1 1 (by decide), h1 2 (by decide), h2 4 ?_⟩
  · intro i hi; simp only [intAt]; omega
  · intro i hi; simp only [intAt]; omega

example : (0 : Int) ≤ (3#64).toInt ∧ (1000#64).toInt + (3#64).toInt < 2 ^ (64 - 1) := by decide

/-- C17 fails for constant lengths that are multiples of 2^32: the length is truncated to 32 bits to choose the
procedure, and the procedure for length 0 copies nothing. -/
theorem c17_truncated_length_fails (k : Nat) (Mdst Msrc Mret : Int → α) (dst src len : Int) :
    memcpyPost intRef (some (k * 2 ^ 32)) Mdst Msrc dst src len Mret ↔ Mret = Mdst := by
  have h : length (some (k * 2 ^ 32)) = 0 := by simp [length, Regions.memLength, Regions.u32]
  unfold memcpyPost
  rw [h, if_pos (by decide)]
  rfl

/-- C17 fails for memset in the integer encodings when the region holds 4-byte elements (one map entry per element, indexed by
its address): each entry in the range becomes the byte `val` itself, so an element set to `val` in all four bytes
reads as `val` and not as `val * 0x01010101`. -/
theorem c17_memset_element_fails (val : Int) (hv : 0 < val) (M Mret : Int → Int) (dst : Int)
    (h : memsetPost intRef none M dst val 4 Mret) : Mret dst ≠ val + 2 ^ 8 * val + 2 ^ 16 * val + 2 ^ 24 * val := by
  rw [c17_memset_int none 4 (by simp)] at h
  have := h.1 0 (by decide)
  simp only [intAt, Int.natCast_zero, Int.add_zero] at this
  omega

end Smack.MemIntr
