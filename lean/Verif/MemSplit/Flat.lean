import Verif.MemSplit.Spec
import Verif.Bytes.Props

/-
The flat memory, and the bytewise operations of the prelude in terms of it.
-/

namespace Smack.MemSplit

open Smack.Bytes (PtrRep Spread addr)

/-- The two representations of addresses. -/
structure Laws (P : PtrRep) : Prop where
  cancel : ∀ (p q : P.Ref) (i : Nat), addr p i = addr q i → p = q
  spread : ∀ (p : P.Ref) (n : Nat), n ≤ 2 ^ 64 → Spread p n

theorem laws_int : Laws Bytes.intPtr where
  cancel := by
    intro p q i h
    have e1 := Bytes.addr_int p i
    have e2 := Bytes.addr_int q i
    have h2 : (show Int from p) + (i : Int) = (show Int from q) + (i : Int) := e1.symm.trans (h.trans e2)
    show (show Int from p) = (show Int from q)
    omega
  spread := fun p n _ => Bytes.c08_spread_int p n

theorem laws_bv : Laws (Bytes.bvPtr 64) where
  cancel := by
    intro p q i h
    have e1 := Bytes.addr_bv (w := 64) p i
    have e2 := Bytes.addr_bv (w := 64) q i
    have h2 : (show BitVec 64 from p) + BitVec.ofNat 64 i = (show BitVec 64 from q) + BitVec.ofNat 64 i :=
      e1.symm.trans (h.trans e2)
    exact (BitVec.add_left_inj _).1 h2
  spread := fun p n hn => Bytes.c08_spread_bv p n hn

theorem laws (m : Mode) : Laws (ptrRep m) := by
  unfold ptrRep
  split
  · exact laws_bv
  · exact laws_int

theorem find_range {p : Nat → Bool} {n i : Nat} (hi : i < n) (hp : p i = true) (hu : ∀ j, j < n → p j = true → j = i) :
    (List.range n).find? p = some i := by
  cases h : (List.range n).find? p with
  | none =>
    have := List.find?_eq_none.1 h i (List.mem_range.2 hi)
    exact absurd hp this
  | some j =>
    have h1 := List.find?_some h
    have h2 := List.mem_range.1 (List.mem_of_find?_eq_some h)
    rw [hu j h2 h1]

theorem flatWrite_hit {P : PtrRep} {w : Nat} (M : P.Ref → BitVec 8) (p : P.Ref) (n : Nat) (b : BitVec w) (hs : Spread p n)
    (i : Nat) (hi : i < n) : flatWrite M p n b (addr p i) = byteOf b i := by
  unfold flatWrite
  rw [find_range hi (by simp) (fun j hj h => hs j i hj hi (by simpa using h))]

theorem flatWrite_miss {P : PtrRep} {w : Nat} (M : P.Ref → BitVec 8) (p : P.Ref) (n : Nat) (b : BitVec w) (q : P.Ref)
    (h : ∀ i < n, addr p i ≠ q) : flatWrite M p n b q = M q := by
  unfold flatWrite
  rw [List.find?_eq_none.2]
  intro i hi
  simpa using h i (List.mem_range.1 hi)

theorem flatNat_congr {P : PtrRep} (M N : P.Ref → BitVec 8) (p : P.Ref) (n : Nat)
    (h : ∀ i < n, M (addr p i) = N (addr p i)) : flatNat M p n = flatNat N p n := by
  induction n with
  | zero => rfl
  | succ n ih => rw [flatNat, flatNat, ih (fun i hi => h i (by omega)), h n (by omega)]

theorem flatRead_congr {P : PtrRep} (M N : P.Ref → BitVec 8) (p : P.Ref) (t : Ty)
    (h : ∀ i < t.store, M (addr p i) = N (addr p i)) : flatRead M p t = flatRead N p t := by
  unfold flatRead; rw [flatNat_congr M N p _ h]

theorem flatNat_bytes {P : PtrRep} {w : Nat} (M : P.Ref → BitVec 8) (p : P.Ref) (b : BitVec w) (n : Nat)
    (h : ∀ i < n, M (addr p i) = byteOf b i) : flatNat M p n = b.toNat % 256 ^ n := by
  induction n with
  | zero => simp [flatNat, Nat.mod_one]
  | succ n ih =>
    rw [flatNat, ih (fun i hi => h i (by omega)), h n (by omega), byteOf, BitVec.toNat_ofNat, Nat.pow_succ (n := 256) (m := n),
      Nat.mod_mul (a := 256 ^ n), Nat.mul_comm (256 ^ n)]

theorem pow_store (t : Ty) : 2 ^ t.bits ≤ 256 ^ t.store := by
  have : (256 : Nat) = 2 ^ 8 := rfl
  rw [this, ← Nat.pow_mul]
  apply Nat.pow_le_pow_right (by omega)
  unfold Ty.store
  omega

/-- Bytes that are those of `b` are read as `b`. -/
theorem flatRead_bytes {P : PtrRep} (M : P.Ref → BitVec 8) (p : P.Ref) (t : Ty) (b : BitVec t.bits)
    (h : ∀ i < t.store, M (addr p i) = byteOf b i) : flatRead M p t = b := by
  unfold flatRead
  rw [flatNat_bytes M p b _ h, Nat.mod_eq_of_lt (Nat.lt_of_lt_of_le b.isLt (pow_store t))]
  apply BitVec.eq_of_toNat_eq
  simp

theorem flatRead_write {P : PtrRep} (M : P.Ref → BitVec 8) (p : P.Ref) (t : Ty) (b : BitVec t.bits) (hs : Spread p t.store) :
    flatRead (flatWrite M p t.store b) p t = b :=
  flatRead_bytes _ p t b fun i hi => flatWrite_hit M p t.store b hs i hi

/-! ### The bytewise operations -/

theorem loadBody_toNat {P : PtrRep} (M : Bytes.Mem P) (p : P.Ref) (n : Nat) :
    (Bytes.loadBody M p n).toNat = flatNat M p n := by
  induction n with
  | zero => rfl
  | succ n ih =>
    rw [Bytes.loadBody, show flatNat M p (n + 1) = flatNat M p n + (M (addr p n)).toNat * 256 ^ n from rfl, BitVec.toNat_cast, BitVec.toNat_append, ← ih]
    have hlt := (Bytes.loadBody M p n).isLt
    rw [Nat.shiftLeft_eq]
    have h256 : (256 : Nat) ^ n = 2 ^ (8 * n) := by rw [show (256 : Nat) = 2 ^ 8 from rfl, ← Nat.pow_mul]
    rw [h256, Nat.mul_comm _ (2 ^ (8 * n)), ← Nat.two_pow_add_eq_or_of_lt hlt, Nat.add_comm]

/-- The widths for which the operations are right. -/
def Good (t : Ty) : Prop := 0 < t.bits ∧ (t.bits < 8 ∨ t.bits % 8 = 0)

theorem bytes_load {P : PtrRep} (M : Bytes.Mem P) (p : P.Ref) (w : Nat) (hw : 0 < w ∧ (w < 8 ∨ w % 8 = 0)) :
    Bytes.load w M p = ⟨w, BitVec.ofNat w (flatNat M p ((w + 7) / 8))⟩ := by
  unfold Bytes.load
  by_cases h8 : w < 8
  · rw [if_pos h8]
    have h1 : (w + 7) / 8 = 1 := by omega
    rw [h1]
    congr 1
    apply BitVec.eq_of_toNat_eq
    simp [flatNat]
  · rw [if_neg h8]
    have hd : w >>> 3 = w / 8 := by rw [Nat.shiftRight_eq_div_pow]
    have h1 : (w + 7) / 8 = w / 8 := by omega
    rw [hd, h1]
    have key : ∀ n, w = 8 * n → (⟨8 * n, Bytes.loadBody M p n⟩ : (w : Nat) × BitVec w) = ⟨w, BitVec.ofNat w (flatNat M p n)⟩ := by
      intro n hn
      subst hn
      congr 1
      apply BitVec.eq_of_toNat_eq
      rw [loadBody_toNat, BitVec.toNat_ofNat, Nat.mod_eq_of_lt]
      rw [← loadBody_toNat]
      exact (Bytes.loadBody M p n).isLt
    exact key _ (by omega)

theorem extract_byte {w : Nat} (b : BitVec w) (i : Nat) : b.extractLsb' (8 * i) 8 = byteOf b i := by
  apply BitVec.eq_of_toNat_eq
  rw [BitVec.extractLsb'_toNat, byteOf, BitVec.toNat_ofNat, Nat.shiftRight_eq_div_pow]
  rw [show (256 : Nat) = 2 ^ 8 from rfl, ← Nat.pow_mul]

theorem bytes_store {P : PtrRep} {w : Nat} (M : Bytes.Mem P) (p : P.Ref) (b : BitVec w) (hw : 0 < w ∧ (w < 8 ∨ w % 8 = 0))
    (hs : Spread p ((w + 7) / 8)) : Bytes.store M p b = flatWrite M p ((w + 7) / 8) b := by
  have hb : Bytes.bytes w = (w + 7) / 8 := by unfold Bytes.bytes; split <;> omega
  funext q
  by_cases hq : ∃ i < (w + 7) / 8, addr p i = q
  · obtain ⟨i, hi, rfl⟩ := hq
    rw [flatWrite_hit M p _ b hs i hi]
    by_cases h8 : w < 8
    · have : i = 0 := by omega
      subst this
      unfold Bytes.store
      rw [if_pos h8, Bytes.upd_same]
      apply BitVec.eq_of_toNat_eq
      simp [byteOf]
    · rw [Bytes.c08_little_endian M p b (by omega) (by rw [hb]; exact hs) i (by omega), extract_byte]
  · rw [flatWrite_miss M p _ b q (fun i hi h => hq ⟨i, hi, h⟩)]
    exact Bytes.c08_frame M p q b (fun i hi h => hq ⟨i, by rw [← hb]; exact hi, h.symm⟩)

end Smack.MemSplit
