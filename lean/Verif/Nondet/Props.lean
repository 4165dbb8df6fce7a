import Verif.Nondet.Model
import Verif.Nondet.Spec
import Verif.IntOps.Lemmas

/-
C56: `__VERIFIER_nondet_T` returns exactly the values of T.
-/

namespace Smack.Nondet

open Smack.IntOps

def Shape.unsigned : Shape → Bool
  | .uPromoted _ | .uDirect _ => true
  | _ => false

/-- There is a body; promotion is to 32 bits; the other widths are positive. -/
def Shape.wf : Shape → Prop
  | .sPromoted w | .uPromoted w => 0 < w ∧ w < 32
  | .sDirect w | .uDirect w => 0 < w
  | .undefined _ => False

section unbounded
variable (S : Smt) (w : Nat) (a b : Int)
theorem u_sge : (predBool S .unbounded .sge w a b = true) = (b ≤ a) := decide_eq_true_eq
theorem u_sle : (predBool S .unbounded .sle w a b = true) = (a ≤ b) := decide_eq_true_eq
theorem u_slt : (predBool S .unbounded .slt w a b = true) = (a < b) := decide_eq_true_eq
theorem u_sgt : (predBool S .unbounded .sgt w a b = true) = (b < a) := decide_eq_true_eq
theorem u_uge : (predBool S .unbounded .uge w a b = true) = (b ≤ a) := decide_eq_true_eq
theorem u_ule : (predBool S .unbounded .ule w a b = true) = (a ≤ b) := decide_eq_true_eq
theorem u_ult : (predBool S .unbounded .ult w a b = true) = (a < b) := decide_eq_true_eq
theorem u_ugt : (predBool S .unbounded .ugt w a b = true) = (b < a) := decide_eq_true_eq
theorem u_eq : (predBool S .unbounded .eq w a b = true) = (a = b) := propext beq_iff_eq
theorem w_sge : (predBool S .wrapped .sge w a b = true) = (tos S w b ≤ tos S w a) := decide_eq_true_eq
theorem w_sle : (predBool S .wrapped .sle w a b = true) = (tos S w a ≤ tos S w b) := decide_eq_true_eq
theorem w_slt : (predBool S .wrapped .slt w a b = true) = (tos S w a < tos S w b) := decide_eq_true_eq
theorem w_sgt : (predBool S .wrapped .sgt w a b = true) = (tos S w b < tos S w a) := decide_eq_true_eq
theorem w_uge : (predBool S .wrapped .uge w a b = true) = (tou S w b ≤ tou S w a) := decide_eq_true_eq
theorem w_ule : (predBool S .wrapped .ule w a b = true) = (tou S w a ≤ tou S w b) := decide_eq_true_eq
theorem w_ult : (predBool S .wrapped .ult w a b = true) = (tou S w a < tou S w b) := decide_eq_true_eq
theorem w_ugt : (predBool S .wrapped .ugt w a b = true) = (tou S w b < tou S w a) := decide_eq_true_eq
theorem w_eq : (predBool S .wrapped .eq w a b = true) = (tou S w a = tou S w b) := propext beq_iff_eq
end unbounded

theorem unbounded_shape (S : Smt) (s : Shape) (hs : s.wf) (v : Int) :
    returnsInt S .unbounded s v ↔ Representable s.unsigned s.width v := by
  cases s with
  | sPromoted w =>
    simp only [returnsInt, u_sge, u_sle, wrapped, sext, Representable, Shape.unsigned, Shape.width,
      Bool.false_eq_true, if_false]
    omega
  | uPromoted w =>
    simp only [returnsInt, u_sge, u_sle, wrapped, zext, Representable, Shape.unsigned, Shape.width, if_true]
    omega
  | sDirect w =>
    simp only [returnsInt, u_sge, u_sle, Representable, Shape.unsigned, Shape.width, Bool.false_eq_true, if_false]
    omega
  | uDirect w =>
    simp only [returnsInt, u_eq, u_uge, u_ule, Representable, Shape.unsigned, Shape.width, if_true]
    constructor
    · rintro ⟨a, b, h1, h2, h3, h4, h5⟩
      omega
    · intro h
      exact ⟨0, 2 ^ w - 1, rfl, by omega, by omega, by omega, by omega⟩
  | undefined w => exact hs.elim

theorem tos_range (S : Smt) {w : Nat} (hw : 1 ≤ w) (i : Int) : -2 ^ (w - 1) ≤ tos S w i ∧ tos S w i ≤ 2 ^ (w - 1) - 1 := by
  rw [tos_eq S hw]
  have h1 := BitVec.le_toInt (x := BitVec.ofInt w i)
  have h2 := BitVec.toInt_lt (x := BitVec.ofInt w i)
  omega

theorem tos_id (S : Smt) {w : Nat} (hw : 1 ≤ w) {i : Int} (h0 : -2 ^ (w - 1) ≤ i) (h1 : i ≤ 2 ^ (w - 1) - 1) :
    tos S w i = i := by
  rw [tos_eq S hw, toInt_ofInt_range hw h0 (by omega)]

theorem tou_range (S : Smt) (w : Nat) (i : Int) : 0 ≤ tou S w i ∧ tou S w i ≤ 2 ^ w - 1 := by
  rw [tou_eq_emod]
  have hp := two_pow_pos w
  have h1 := Int.emod_nonneg i (b := (2 : Int) ^ w) (by omega)
  have h2 := Int.emod_lt_of_pos i hp
  omega

theorem tou_id (S : Smt) (w : Nat) {i : Int} (h0 : 0 ≤ i) (h1 : i ≤ 2 ^ w - 1) : tou S w i = i := by
  rw [tou_eq_emod, Int.emod_eq_of_lt h0 (by omega)]

theorem pow_le_pow {a b : Nat} (h : a ≤ b) : (2 : Int) ^ a ≤ 2 ^ b := by
  have := Nat.pow_le_pow_right (n := 2) (by decide) h
  exact_mod_cast this

theorem wrapped_shape (S : Smt) (s : Shape) (hs : s.wf) (v : Int) : returnsInt S .wrapped s v := by
  cases s with
  | sPromoted w =>
    obtain ⟨hw0, hw⟩ := hs
    simp only [returnsInt, w_sge, w_sle, wrapped, sext, Bool.false_eq_true, if_false]
    have hr := tos_range S hw0 v
    have hp := pow_le_pow (show w - 1 ≤ 32 - 1 by omega)
    have hq := two_pow_pos (w - 1)
    rw [tos_id S (w := 32) (by decide) (i := tos S w v) (by omega) (by omega),
      tos_id S (w := 32) (by decide) (i := -2 ^ (w - 1)) (by omega) (by omega),
      tos_id S (w := 32) (by decide) (i := 2 ^ (w - 1) - 1) (by omega) (by omega)]
    exact hr
  | uPromoted w =>
    obtain ⟨hw0, hw⟩ := hs
    simp only [returnsInt, w_sge, w_sle, wrapped, zext, if_true]
    have hr := tou_range S w v
    have hp := pow_le_pow (show w ≤ 32 - 1 by omega)
    have hq := two_pow_pos w
    rw [tos_id S (w := 32) (by decide) (i := tou S w v) (by omega) (by omega),
      tos_id S (w := 32) (by decide) (i := 0) (by omega) (by omega),
      tos_id S (w := 32) (by decide) (i := 2 ^ w - 1) (by omega) (by omega)]
    exact hr
  | sDirect w =>
    have hw : 1 ≤ w := hs
    simp only [returnsInt, w_sge, w_sle]
    have hr := tos_range S hw v
    have hq := two_pow_pos (w - 1)
    rw [tos_id S hw (i := -2 ^ (w - 1)) (by omega) (by omega), tos_id S hw (i := 2 ^ (w - 1) - 1) (by omega) (by omega)]
    exact hr
  | uDirect w =>
    simp only [returnsInt, w_eq, w_uge, w_ule]
    have hr := tou_range S w v
    have hq := two_pow_pos w
    refine ⟨0, 2 ^ w - 1, rfl, Int.le_refl _, Int.le_refl _, ?_, ?_⟩
    · rw [tou_id S w (i := 0) (by omega) (by omega)]; exact hr.1
    · rw [tou_id S w (i := 2 ^ w - 1) (by omega) (by omega)]; exact hr.2
  | undefined w => trivial

theorem table_wf {L : Nat} (hL : 0 < L) {ty : List String} {s : Shape} (h : (ty, s) ∈ table L) (hb : ty ≠ ["short", "int"]) :
    s.wf ∧ s.unsigned = isUnsigned ty ∧ s.width = width L ty := by
  simp only [table, List.mem_cons, Prod.mk.injEq, List.not_mem_nil, or_false] at h
  rcases h with ⟨rfl, rfl⟩ | ⟨rfl, rfl⟩ | ⟨rfl, rfl⟩ | ⟨rfl, rfl⟩ | ⟨rfl, rfl⟩ | ⟨rfl, rfl⟩ | ⟨rfl, rfl⟩ | ⟨rfl, rfl⟩ |
    ⟨rfl, rfl⟩ | ⟨rfl, rfl⟩ | ⟨rfl, rfl⟩ | ⟨rfl, rfl⟩ | ⟨rfl, rfl⟩ | ⟨rfl, rfl⟩ | ⟨rfl, rfl⟩ | ⟨rfl, rfl⟩ | ⟨rfl, rfl⟩ |
    ⟨rfl, rfl⟩ | ⟨rfl, rfl⟩ | ⟨rfl, rfl⟩ | ⟨rfl, rfl⟩ | ⟨rfl, rfl⟩ | ⟨rfl, rfl⟩ | ⟨rfl, rfl⟩ | ⟨rfl, rfl⟩
  all_goals first
    | exact absurd rfl hb
    | exact ⟨by simp only [Shape.wf]; omega, rfl, rfl⟩
    | exact ⟨hL, rfl, rfl⟩

/-- C56 with unbounded integers, for every `__VERIFIER_nondet_T` with a body and every width of `long`: an integer can be
returned if and only if it is representable in T. Missing: `short int`, which has no body (`c56_short_int_fails`). -/
theorem c56_unbounded_partial (S : Smt) (L : Nat) (hL : 0 < L) (ty : List String) (s : Shape) (h : (ty, s) ∈ table L)
    (hb : ty ≠ ["short", "int"]) (v : Int) :
    returnsInt S .unbounded s v ↔ Representable (isUnsigned ty) (width L ty) v := by
  obtain ⟨h1, h2, h3⟩ := table_wf hL h hb
  rw [unbounded_shape S s h1, h2, h3]

/-- C56 with wrapped integers, where an integer stands for its residue: every integer can be returned, so every value of the
type is possible; a returned integer stands for exactly one representable value. -/
theorem c56_wrapped (S : Smt) (L : Nat) (hL : 0 < L) (ty : List String) (s : Shape) (h : (ty, s) ∈ table L)
    (hb : ty ≠ ["short", "int"]) :
    (∀ v, Representable (isUnsigned ty) (width L ty) v → returnsInt S .wrapped s v) ∧
    ∀ x, returnsInt S .wrapped s x →
      ∃ v, Representable (isUnsigned ty) (width L ty) v ∧ BitVec.ofInt (width L ty) x = BitVec.ofInt (width L ty) v := by
  obtain ⟨h1, h2, h3⟩ := table_wf hL h hb
  have hw : 1 ≤ s.width := by cases s <;> first | exact h1.1 | exact h1 | exact h1.elim
  refine ⟨fun v _ => wrapped_shape S s h1 v, fun x _ => ?_⟩
  rw [← h3]
  show ∃ v, (if isUnsigned ty then _ else _) ∧ _
  by_cases hu : isUnsigned ty = true
  · have := (BitVec.ofInt s.width x).isLt
    refine ⟨((BitVec.ofInt s.width x).toNat : Int), ?_, ?_⟩
    · rw [if_pos hu]
      exact ⟨by omega, by exact_mod_cast this⟩
    · rw [BitVec.ofInt_natCast, BitVec.ofNat_toNat, BitVec.setWidth_eq]
  · have h4 := BitVec.le_toInt (x := BitVec.ofInt s.width x)
    have h5 := BitVec.toInt_lt (x := BitVec.ofInt s.width x)
    refine ⟨(BitVec.ofInt s.width x).toInt, ?_, by rw [BitVec.ofInt_toInt]⟩
    rw [if_neg hu]
    exact ⟨h4, h5⟩

theorem sle_iff' {w : Nat} (a b : BitVec w) : a.sle b = true ↔ a.toInt ≤ b.toInt := by
  rw [BitVec.sle_eq_decide, decide_eq_true_eq]

theorem bv_sPromoted {w : Nat} (hw0 : 0 < w) (hw : w < 32) (x : BitVec w) :
    (BitVec.ofInt 32 (-2 ^ (w - 1))).sle (x.signExtend 32) = true ∧
    (x.signExtend 32).sle (BitVec.ofInt 32 (2 ^ (w - 1) - 1)) = true := by
  have hp := pow_le_pow (show w - 1 ≤ 32 - 1 by omega)
  have hq := two_pow_pos (w - 1)
  have h4 := BitVec.le_toInt (x := x)
  have h5 := BitVec.toInt_lt (x := x)
  rw [sle_iff', sle_iff', toInt_ofInt_range (w := 32) (by decide) (by omega) (by omega),
    toInt_ofInt_range (w := 32) (by decide) (by omega) (by omega), BitVec.toInt_signExtend_of_le (by omega)]
  omega

theorem bv_uPromoted {w : Nat} (hw : w < 32) (x : BitVec w) :
    (0 : BitVec 32).sle (x.setWidth 32) = true ∧ (x.setWidth 32).sle (BitVec.ofInt 32 (2 ^ w - 1)) = true := by
  have hp := pow_le_pow (show w ≤ 32 - 1 by omega)
  have hq := two_pow_pos w
  have h4 : (x.toNat : Int) < 2 ^ w := by exact_mod_cast x.isLt
  have h31 : (2 : Int) ^ (32 - 1) = 2147483648 := rfl
  have h5 : (x.setWidth 32).toInt = (x.toNat : Int) := by
    rw [BitVec.toInt_setWidth]
    have h32 : ((2 ^ 32 : Nat) : Int) = 4294967296 := rfl
    exact Int.bmod_eq_of_le (by rw [h32]; omega) (by rw [h32]; omega)
  rw [sle_iff', sle_iff', toInt_ofInt_range (w := 32) (by decide) (by omega) (by omega), h5]
  refine ⟨?_, by omega⟩
  show (0 : Int) ≤ _
  omega

theorem bv_sDirect {w : Nat} (hw : 0 < w) (x : BitVec w) :
    (BitVec.ofInt w (-2 ^ (w - 1))).sle x = true ∧ x.sle (BitVec.ofInt w (2 ^ (w - 1) - 1)) = true := by
  have hq := two_pow_pos (w - 1)
  have h4 := BitVec.le_toInt (x := x)
  have h5 := BitVec.toInt_lt (x := x)
  rw [sle_iff', sle_iff', toInt_ofInt_range hw (by omega) (by omega), toInt_ofInt_range hw (by omega) (by omega)]
  omega

theorem bv_uDirect {w : Nat} (x : BitVec w) :
    ∃ min max : BitVec w, min = 0 ∧ (BitVec.allOnes w).ule max = true ∧ max.ule (BitVec.allOnes w) = true ∧
      min.ule x = true ∧ x.ule max = true := by
  refine ⟨0, BitVec.allOnes w, rfl, ?_, ?_, ?_, ?_⟩
  · simp [BitVec.ule]
  · simp [BitVec.ule]
  · simp [BitVec.ule]
  · have := x.isLt
    simp only [BitVec.ule, BitVec.toNat_allOnes, decide_eq_true_eq]
    omega

/-- C56 with bit-vectors: every bit-vector of the width of the type can be returned. -/
theorem c56_bitvector (L : Nat) (hL : 0 < L) (ty : List String) (s : Shape) (h : (ty, s) ∈ table L)
    (hb : ty ≠ ["short", "int"]) : s.width = width L ty ∧ ∀ x : BitVec s.width, returnsBv s x := by
  obtain ⟨h1, h2, h3⟩ := table_wf hL h hb
  refine ⟨h3, fun x => ?_⟩
  cases s with
  | sPromoted w => exact bv_sPromoted h1.1 h1.2 x
  | uPromoted w => exact bv_uPromoted h1.2 x
  | sDirect w => exact bv_sDirect h1 x
  | uDirect w => exact bv_uDirect x
  | undefined w => exact h1.elim

/-- C56 fails for `__VERIFIER_nondet_short_int`, which is declared but not defined: with unbounded integers it can return
every integer. -/
theorem c56_short_int_fails (S : Smt) (L : Nat) : ∃ s, (["short", "int"], s) ∈ table L ∧
    (∀ v, returnsInt S .unbounded s v) ∧ ¬Representable (isUnsigned ["short", "int"]) (width L ["short", "int"]) 40000 := by
  refine ⟨.undefined 16, by simp [table], fun _ => trivial, ?_⟩
  have h1 : isUnsigned ["short", "int"] = false := rfl
  have h2 : width L ["short", "int"] = 16 := rfl
  rw [h1, h2]
  decide

/-- C56 for `__VERIFIER_nondet_bool`: exactly 0 and 1, in both integer encodings. -/
theorem c56_bool (S : Smt) (enc : Enc) (r : Int) : returnsBool S enc r ↔ r = 0 ∨ r = 1 := by
  have hd : ∀ b : Int, b = 0 ∨ b = 1 → wrapped S enc 1 b true = b := by
    intro b hb
    cases enc with
    | unbounded => rfl
    | wrapped =>
      show tou S 1 b = b
      exact tou_id S 1 (by omega) (by omega)
  have hd32 : ∀ b : Int, b = 0 ∨ b = 1 → wrapped S enc 32 b true = b := by
    intro b hb
    cases enc with
    | unbounded => rfl
    | wrapped =>
      show tou S 32 b = b
      exact tou_id S 32 (by omega) (by omega)
  have hp : ∀ y, pred S enc .ne 32 y 0 = 0 ∨ pred S enc .ne 32 y 0 = 1 := by
    intro y; rw [pred]; split <;> simp
  have hb : ∀ y, trunc S enc 8 1 (zext S enc 1 8 (pred S enc .ne 32 y 0)) = pred S enc .ne 32 y 0 := by
    intro y
    rw [trunc, zext, hd _ (hp y), hd _ (hp y)]
  have heq : ∀ b c : Int, b = 0 ∨ b = 1 → c = 0 ∨ c = 1 → (predBool S enc .eq 32 (zext S enc 1 32 b) c = true ↔ b = c) := by
    intro b c hb hc
    rw [zext, hd b hb]
    show (wrapped S enc 32 b true == wrapped S enc 32 c true) = true ↔ _
    rw [hd32 b hb, hd32 c hc, beq_iff_eq]
  have hdir : ∀ y : Int, y = 0 ∨ y = 1 → returnsInt S enc (.sDirect 32) y := by
    intro y hy
    cases enc with
    | wrapped => exact wrapped_shape S _ (by show 0 < 32; decide) y
    | unbounded =>
      rw [unbounded_shape S (.sDirect 32) (by show 0 < 32; decide)]
      show Representable false 32 y
      simp only [Representable, Bool.false_eq_true, if_false]
      omega
  constructor
  · rintro ⟨y, _, b, rfl, _, rfl⟩
    rw [hb y]; exact hp y
  · intro hr
    have hval : pred S enc .ne 32 r 0 = r := by
      rw [pred]
      have : predBool S enc .ne 32 r 0 = (r != 0) := by
        show (wrapped S enc 32 r true != wrapped S enc 32 0 true) = _
        rw [hd32 r hr, hd32 0 (Or.inl rfl)]
      rw [this]
      rcases hr with rfl | rfl <;> rfl
    refine ⟨r, hdir r hr, r, by rw [hb r, hval], ?_, rfl⟩
    rcases hr with rfl | rfl
    · exact Or.inl ((heq 0 0 (Or.inl rfl) (Or.inl rfl)).mpr rfl)
    · exact Or.inr ((heq 1 1 (Or.inr rfl) (Or.inr rfl)).mpr rfl)

/-- The Rust functions `__VERIFIER_nondet_i8` … `_u64` (share/smack/lib/smack-rust.c) with unbounded integers. -/
theorem c56_rust_unbounded (S : Smt) (signed : Bool) (w : Nat) (v : Int) :
    rustReturns S .unbounded signed w v ↔ Representable (!signed) w v := by
  cases signed with
  | true =>
    by_cases h : w < 32
    · simp only [rustReturns, h, if_true, Bool.true_or, u_slt, u_sgt, sext, wrapped, Representable, Bool.not_true,
        Bool.false_eq_true, if_false]
      omega
    · simp only [rustReturns, h, if_true, Bool.true_or, u_slt, u_sgt, Representable, Bool.not_true,
        Bool.false_eq_true, if_false]
      omega
  | false =>
    by_cases h : w < 32
    · simp only [rustReturns, h, if_true, Bool.false_or, decide_true, u_slt, u_sgt, zext, wrapped, Representable, Bool.not_false,
        Bool.false_eq_true, if_false]
      omega
    · simp only [rustReturns, h, if_true, Bool.false_or, decide_false, u_ult, u_ugt, Representable, Bool.not_false,
        Bool.false_eq_true, if_false]
      omega

example (S : Smt) : returnsInt S .unbounded (.uDirect 32) 4294967295 ∧ ¬returnsInt S .unbounded (.uDirect 32) 4294967296 ∧
    ¬returnsInt S .unbounded (.uDirect 32) (-1) := by
  have h : (["unsigned"], Shape.uDirect 32) ∈ table 64 := by simp [table]
  refine ⟨?_, ?_, ?_⟩
  · rw [c56_unbounded_partial S 64 (by decide) _ _ h (by decide)]; decide
  · rw [c56_unbounded_partial S 64 (by decide) _ _ h (by decide)]; decide
  · rw [c56_unbounded_partial S 64 (by decide) _ _ h (by decide)]; decide

end Smack.Nondet
