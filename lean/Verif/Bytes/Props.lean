/-
Property C08: byte-level memory.
-/
import Verif.Bytes.Model

namespace Smack.Bytes

/-- The addresses `p, p+1, …, p+n-1` are pairwise different. -/
def Spread {P : PtrRep} (p : P.Ref) (n : Nat) : Prop := ∀ i j, i < n → j < n → addr p i = addr p j → i = j

theorem upd_same {P : PtrRep} (M : Mem P) (q : P.Ref) (b : BitVec 8) : upd M q b q = b := by
  simp [upd]
theorem upd_other {P : PtrRep} (M : Mem P) {q r : P.Ref} (b : BitVec 8) (h : r ≠ q) : upd M q b r = M r := by
  simp [upd, h]

theorem storeBody_frame {P : PtrRep} {w : Nat} (M : Mem P) (p : P.Ref) (v : BitVec w) (q : P.Ref) (n : Nat)
    (h : ∀ i < n, q ≠ addr p i) : storeBody M p v n q = M q := by
  induction n with
  | zero => rfl
  | succ n ih =>
    rw [storeBody, upd_other _ _ (h n (by omega)), ih (fun i hi => h i (by omega))]

theorem storeBody_byte {P : PtrRep} {w : Nat} (M : Mem P) (p : P.Ref) (v : BitVec w) (n : Nat)
    (hs : Spread p n) (i : Nat) (hi : i < n) : storeBody M p v n (addr p i) = v.extractLsb' (8 * i) 8 := by
  induction n with
  | zero => omega
  | succ n ih =>
    rw [storeBody]
    by_cases h : i = n
    · subst h
      rw [upd_same]
      apply BitVec.eq_of_getLsbD_eq
      intro k hk
      simp [Nat.shiftLeft_eq, Nat.mul_comm]
    · rw [upd_other]
      · exact ih (fun a b ha hb => hs a b (by omega) (by omega)) (by omega)
      · intro he
        exact h (hs i n hi (by omega) he)

theorem loadBody_bit {P : PtrRep} (M : Mem P) (p : P.Ref) (n k : Nat) (hk : k < 8 * n) :
    (loadBody M p n).getLsbD k = (M (addr p (k / 8))).getLsbD (k % 8) := by
  induction n with
  | zero => omega
  | succ n ih =>
    rw [loadBody, BitVec.getLsbD_cast, BitVec.getLsbD_append]
    by_cases h : k < 8 * n
    · rw [if_pos h, ih h]
    · rw [if_neg h]
      have h1 : k / 8 = n := by omega
      have h2 : k % 8 = k - 8 * n := by omega
      rw [h1, h2]

/-- Narrower or equal loads from inside a stored value, as a lemma on bodies. -/
theorem load_slice {P : PtrRep} {w : Nat} (M : Mem P) (p q : P.Ref) (v : BitVec w) (n m j : Nat)
    (hs : Spread p n) (hq : ∀ i < m, addr q i = addr p (j + i)) (hjm : j + m ≤ n) :
    loadBody (storeBody M p v n) q m = v.extractLsb' (8 * j) (8 * m) := by
  apply BitVec.eq_of_getLsbD_eq
  intro k hk
  rw [loadBody_bit _ _ _ _ hk, hq _ (by omega), storeBody_byte M p v n hs _ (by omega)]
  rw [BitVec.getLsbD_extractLsb', BitVec.getLsbD_extractLsb']
  have h1 : k % 8 < 8 := by omega
  simp only [h1, hk, decide_true, Bool.true_and]
  congr 1
  omega

/-- **C08, round trip.** For every width below 8 or divisible by 8, every memory, address and value: loading what was
stored yields the value (with the declared width). `Spread` says that the touched addresses do not wrap around onto each
other; it holds for all integer pointers and for bit-vector pointers (`c08_spread_int`, `c08_spread_bv`). -/
theorem c08_round_trip_partial {P : PtrRep} {size : Nat} (M : Mem P) (p : P.Ref) (v : BitVec size)
    (hsz : size < 8 ∨ size % 8 = 0) (hs : Spread p (bytes size)) :
    load size (store M p v) p = ⟨size, v⟩ := by
  unfold load store
  unfold bytes at hs
  by_cases h8 : size < 8
  · simp only [h8, if_true, upd_same]
    congr 1
    apply BitVec.eq_of_getLsbD_eq
    intro k hk
    have hk8 : k < 8 := by omega
    simp [hk, hk8]
  · simp only [h8, if_false] at hs ⊢
    have hd : size >>> 3 = size / 8 := by rw [Nat.shiftRight_eq_div_pow]
    rw [hd]
    have h1 := load_slice M p p v (size / 8) (size / 8) 0 hs (fun i _ => by rw [Nat.zero_add]) (by omega)
    rw [h1]
    have h2 : 8 * (size / 8) = size := by omega
    have : ∀ n, n = size → (⟨n, v.extractLsb' (8 * 0) n⟩ : (w : Nat) × BitVec w) = ⟨size, v⟩ := by
      intro n hn
      subst hn
      congr 1
      apply BitVec.eq_of_getLsbD_eq
      intro k hk
      simp [hk]
    exact this _ h2

/-- **C08, frame.** A store changes nothing outside the addressed bytes. -/
theorem c08_frame {P : PtrRep} {size : Nat} (M : Mem P) (p q : P.Ref) (v : BitVec size)
    (h : ∀ i < bytes size, q ≠ addr p i) : store M p v q = M q := by
  unfold store
  unfold bytes at h
  by_cases h8 : size < 8
  · simp only [h8, if_true] at h ⊢
    exact upd_other _ _ (h 0 (by omega))
  · simp only [h8, if_false] at h ⊢
    apply storeBody_frame
    rw [Nat.shiftRight_eq_div_pow]
    exact h

/-- **C08, little endian.** After storing a value of at least 8 bits, byte `i` holds bits `8i … 8i+7` of it. -/
theorem c08_little_endian {P : PtrRep} {size : Nat} (M : Mem P) (p : P.Ref) (v : BitVec size) (h8 : 8 ≤ size)
    (hs : Spread p (bytes size)) (i : Nat) (hi : i < size / 8) :
    store M p v (addr p i) = v.extractLsb' (8 * i) 8 := by
  unfold store bytes at *
  have h8' : ¬ size < 8 := by omega
  simp only [h8', if_false] at hs ⊢
  rw [Nat.shiftRight_eq_div_pow]
  exact storeBody_byte M p v _ hs i hi

/-- **C08, narrower loads.** Loading `m` bytes at offset `j` inside a stored value yields exactly the corresponding
bits of the value. `hq`: address arithmetic composes, true for both pointer encodings (`c08_addr_assoc_int`,
`c08_addr_assoc_bv`). -/
theorem c08_narrow_load {P : PtrRep} {size : Nat} (M : Mem P) (p q : P.Ref) (v : BitVec size) (h8 : 8 ≤ size)
    (hs : Spread p (bytes size)) (m j : Nat) (hm : 1 ≤ m) (hjm : 8 * (j + m) ≤ size)
    (hq : ∀ i < m, addr q i = addr p (j + i)) :
    load (8 * m) (store M p v) q = ⟨8 * m, v.extractLsb' (8 * j) (8 * m)⟩ := by
  unfold load store bytes at *
  have h8' : ¬ size < 8 := by omega
  have hm8 : ¬ 8 * m < 8 := by omega
  simp only [h8', hm8, if_false] at hs ⊢
  have hd : size >>> 3 = size / 8 := by rw [Nat.shiftRight_eq_div_pow]
  have hd2 : (8 * m) >>> 3 = m := by rw [Nat.shiftRight_eq_div_pow]; omega
  rw [hd, hd2, load_slice M p q v (size / 8) m j hs hq (by omega)]

theorem addr_int (p : Int) (k : Nat) : addr (P := intPtr) p k = p + (k : Int) := by
  by_cases hk : k = 0
  · subst hk; exact (Int.add_zero p).symm
  · simp only [addr, hk]; rfl

theorem addr_bv {w : Nat} (p : BitVec w) (k : Nat) : addr (P := bvPtr w) p k = p + BitVec.ofNat w k := by
  by_cases hk : k = 0
  · subst hk; exact (BitVec.add_zero p).symm
  · simp only [addr, hk]; rfl

theorem c08_spread_int (p : intPtr.Ref) (n : Nat) : Spread p n := by
  intro i j _ _ h
  have h2 : (show Int from p) + (i:Int) = (show Int from p) + (j:Int) := by
    rw [← addr_int, ← addr_int]; exact h
  omega

theorem c08_spread_bv {w : Nat} (p : (bvPtr w).Ref) (n : Nat) (hn : n ≤ 2 ^ w) : Spread p n := by
  intro i j hi hj h
  have h2 : (show BitVec w from p) + BitVec.ofNat w i = (show BitVec w from p) + BitVec.ofNat w j := by
    rw [← addr_bv, ← addr_bv]; exact h
  have h3 := congrArg BitVec.toNat ((BitVec.add_right_inj _).mp h2)
  rw [BitVec.toNat_ofNat, BitVec.toNat_ofNat, Nat.mod_eq_of_lt (by omega), Nat.mod_eq_of_lt (by omega)] at h3
  exact h3

theorem c08_addr_assoc_int (p : intPtr.Ref) (j i : Nat) : addr (addr p j) i = addr p (j + i) := by
  have e := addr_int p
  rw [e j, e (j + i), addr_int]
  show (show Int from p) + (j:Int) + (i:Int) = (show Int from p) + ((j + i : Nat) : Int)
  omega

theorem c08_addr_assoc_bv {w : Nat} (p : (bvPtr w).Ref) (j i : Nat) : addr (addr p j) i = addr p (j + i) := by
  have e := addr_bv p
  rw [e j, e (j + i), addr_bv]
  show (show BitVec w from p) + BitVec.ofNat w j + BitVec.ofNat w i = (show BitVec w from p) + BitVec.ofNat w (j + i)
  rw [BitVec.ofNat_add, BitVec.add_assoc]

/-- Non-trivial instance: a 64-bit value at a bit-vector address that wraps around the end of the address space. -/
example : Spread (P := bvPtr 64) (-3#64) (bytes 64) := c08_spread_bv _ _ (by decide)
example (M : Mem (bvPtr 64)) : load 32 (store M (-3#64) (0x1122334455667788#64)) (addr (-3#64) 2)
    = ⟨32, 0x33445566#32⟩ := by
  have := c08_narrow_load M (-3#64) (addr (-3#64) 2) (0x1122334455667788#64) (by decide)
    (c08_spread_bv _ _ (by decide)) 4 2 (by decide) (by decide) (fun i _ => c08_addr_assoc_bv _ 2 i)
  simpa using this

/-- **C08 fails for widths that are not a multiple of 8.** The prelude declares such operations (widths 33 in the table
of Prelude.cpp:175): the body of `$load.bytes.bv33` has 32 bits, and the top bit of a stored value is lost: two different
values produce the same memory. -/
theorem c08_width33_fails {P : PtrRep} (M : Mem P) (p : P.Ref) :
    (load 33 M p).1 = 32 ∧ store M p (0#33) = store M p (0x100000000#33) := by
  refine ⟨rfl, ?_⟩
  have h : ¬ 33 < 8 := by decide
  simp only [store, h, if_false, show 33 >>> 3 = 4 by decide, storeBody]
  congr 1

/-- The same for every width ≥ 8 that is not a multiple of 8. -/
theorem c08_unaligned_width_fails {P : PtrRep} (size : Nat) (h8 : 8 ≤ size) (hsz : size % 8 ≠ 0)
    (M : Mem P) (p : P.Ref) : (load size M p).1 < size ∧
    store M p (0#size) = store M p (BitVec.ofNat size (2 ^ (size - 1))) := by
  have h : ¬ size < 8 := by omega
  have hd : size >>> 3 = size / 8 := by rw [Nat.shiftRight_eq_div_pow]
  refine ⟨by simp only [load, h, if_false]; omega, ?_⟩
  simp only [store, h, if_false, hd]
  have key : ∀ n, n ≤ size / 8 →
      storeBody M p (0#size) n = storeBody M p (BitVec.ofNat size (2 ^ (size - 1))) n := by
    intro n
    induction n with
    | zero => intro _; rfl
    | succ n ih =>
      intro hn
      rw [storeBody, storeBody, ih (by omega)]
      congr 1
      apply BitVec.eq_of_getLsbD_eq
      intro k hk
      have h1 : n * 8 + k < size := by omega
      have h2 : size - 1 ≠ n * 8 + k := by omega
      simp only [BitVec.getLsbD_extractLsb', Nat.shiftLeft_eq, BitVec.getLsbD_ofNat, Nat.testBit_two_pow,
        show (2:Nat) ^ 3 = 8 from rfl, h2, Nat.zero_testBit, decide_false, Bool.and_false]
  exact key _ (Nat.le_refl _)

end Smack.Bytes
