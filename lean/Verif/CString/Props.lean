import Verif.CString.Search

/-
C54: the string library functions against the C standard.
-/

namespace Smack.CString

/-- The memory of the examples: `l` at 100, the string `k` at 200, and `n` further accessible bytes at 300. -/
def exMem (l k : List Byte) (n : Nat) : Mem := fun a =>
  if a < 100 then none
  else if a < 200 then l[a - 100]?
  else if a < 300 then (k ++ [0])[a - 200]?
  else if a < 300 + n then some 7 else none

/-! ### Length and copying -/

/-- C54, strlen. -/
theorem c54_strlen (m : Mem) (s : Nat) (x : List Byte) (h : Str m s x) : strlen m s = some x.length := by
  rw [strlen, strlenLoop_eq (by simpa using h), Nat.zero_add]

theorem exStr : Str (exMem [104, 105, 0] [98, 105] 8) 100 [104, 105] :=
  str_cons.mpr ⟨by decide, rfl, str_cons.mpr ⟨by decide, rfl, str_nil.mpr rfl⟩⟩

theorem exStr2 : Str (exMem [104, 105, 0] [98, 105] 8) 200 [98, 105] :=
  str_cons.mpr ⟨by decide, rfl, str_cons.mpr ⟨by decide, rfl, str_nil.mpr rfl⟩⟩

theorem exRoom : Room (exMem [104, 105, 0] [98, 105] 8) 300 8 := by
  intro i hi
  have h1 : ¬300 + i < 100 := by omega
  have h2 : ¬300 + i < 200 := by omega
  have h3 : ¬300 + i < 300 := by omega
  have h4 : 300 + i < 300 + 8 := by omega
  simp only [exMem, h1, h2, h3, if_false, if_pos h4, Option.isSome_some]

example : strlen (exMem [104, 105, 0] [98, 105] 8) 100 = some 2 := c54_strlen _ _ _ exStr

/-- C54, strcpy: if the objects do not overlap and the destination is large enough, the string and its terminator are
copied, nothing else changes, and the destination is returned. -/
theorem c54_strcpy (m : Mem) (d s : Nat) (x : List Byte) (h : Str m s x) (hr : Room m d (x.length + 1))
    (ha : Apart d (x.length + 1) s (x.length + 1)) :
    ∃ m', strcpy m d s = some (m', d) ∧ Str m' d x ∧ Frame m m' d (x.length + 1) := by
  obtain ⟨m', hc, hb, hf, _⟩ := copyLoop_spec h hr ha
  exact ⟨m', by simp only [strcpy, Option.bind_eq_bind, hc, Option.bind_some], ⟨hb, h.nonzero⟩, hf⟩

example : ∃ m', strcpy (exMem [104, 105, 0] [98, 105] 8) 300 100 = some (m', 300) ∧ Str m' 300 [104, 105] ∧
    Frame (exMem [104, 105, 0] [98, 105] 8) m' 300 3 :=
  c54_strcpy _ _ _ _ exStr (fun i hi => exRoom i (by simp at hi; omega)) (Or.inr (by simp))

/-- C54, strncpy: exactly `n` bytes are written: the bytes of the source up to its terminator, then zeros. The source
`x` holds no NUL and is either the whole string or has at least the `n` bytes that are copied. -/
theorem c54_strncpy (m : Mem) (d s n : Nat) (x : List Byte) (hz : (0 : Byte) ∉ x) (hb : Bytes m s x)
    (he : n ≤ x.length ∨ m (s + x.length) = some 0) (hr : Room m d n) (ha : Apart d n s (min n (x.length + 1))) :
    ∃ m', strncpy m d s n = some (m', d) ∧ Bytes m' d ((x ++ List.replicate n 0).take n) ∧ Frame m m' d n := by
  have hlen : (x.take n).length = min n x.length := List.length_take
  have hb' : Bytes m (s + 0) (x.take n) := by
    intro i b hi
    refine hb i b ?_
    rw [List.getElem?_take] at hi
    split at hi
    · exact hi
    · cases hi
  obtain ⟨m1, hc, hb1, hf1, hs1⟩ := ncopy_spec (m := m) (dest := d) (src := s) (n := n) (i := 0) (x.take n)
    (fun h => hz (List.mem_of_mem_take h)) hb' (by rw [hlen]; omega)
    (by
      rw [hlen]
      by_cases h : n ≤ x.length
      · left; omega
      · right
        rw [show min n x.length = x.length by omega, Nat.add_zero]
        exact he.resolve_left h)
    hr
    (by
      rw [hlen]
      unfold Apart at ha ⊢
      split <;> omega) (by omega)
  obtain ⟨m2, hc2, hb2, hf2⟩ := pad_spec (m := m1) (dest := d) (n := n) (i := 0 + (x.take n).length) (n - min n x.length)
    (by rw [hlen]; omega) (fun i hi => by rw [hs1]; exact hr i hi)
  refine ⟨m2, ?_, ?_, ?_⟩
  · simp only [strncpy, Option.bind_eq_bind, hc, Option.bind_some, hc2]
  · have : (x ++ List.replicate n 0).take n = x.take n ++ List.replicate (n - min n x.length) (0 : Byte) := by
      rw [List.take_append, List.take_replicate]
      congr 1
      congr 1
      omega
    rw [this, bytes_append]
    refine ⟨?_, by rw [Nat.zero_add] at hb2; exact hb2⟩
    refine bytes_frame (p := d) (by simpa using hb1) hf2 (Or.inr (by omega))
  · refine frame_trans (frame_mono hf1 (by omega) (by rw [hlen]; omega)) (frame_mono hf2 (by omega) (by rw [hlen]; omega))

example : ∃ m', strncpy (exMem [104, 105, 0] [98, 105] 8) 300 100 5 = some (m', 300) ∧
    Bytes m' 300 [104, 105, 0, 0, 0] ∧ Frame (exMem [104, 105, 0] [98, 105] 8) m' 300 5 :=
  c54_strncpy _ 300 100 5 [104, 105] (by decide) (bytes_append.mp exStr.bytes).1 (Or.inr rfl)
    (fun i hi => exRoom i (by omega)) (Or.inr (by simp))

/-- C54, strcat. -/
theorem c54_strcat (m : Mem) (d s : Nat) (x y : List Byte) (hd : Str m d x) (hs : Str m s y)
    (hr : Room m d (x.length + y.length + 1)) (ha : Apart d (x.length + y.length + 1) s (y.length + 1)) :
    ∃ m', strcat m d s = some (m', d) ∧ Str m' d (x ++ y) ∧ Frame m m' d (x.length + y.length + 1) := by
  obtain ⟨m', hc, hb, hf, _⟩ := copyLoop_spec (m := m) (d := d + x.length) hs
    (fun i hi => by rw [Nat.add_assoc]; exact hr _ (by omega)) (by unfold Apart at ha ⊢; omega)
  refine ⟨m', by simp only [strcat, Option.bind_eq_bind, endLoop_eq hd, Option.bind_some, hc], ⟨?_, ?_⟩, ?_⟩
  · rw [List.append_assoc, bytes_append]
    refine ⟨bytes_frame (bytes_append.mp hd.bytes).1 hf (Or.inr (by omega)), hb⟩
  · rw [List.mem_append, not_or]; exact ⟨hd.nonzero, hs.nonzero⟩
  · exact frame_mono hf (by omega) (by omega)

/-- C54, strncat for `n` up to the length of the source. Missing: larger `n`, where it is wrong (`c54_strncat_fails`). -/
theorem c54_strncat_partial (m : Mem) (d s n : Nat) (x y : List Byte) (hd : Str m d x) (hs : Str m s y) (hn : n ≤ y.length)
    (hr : Room m d (x.length + n + 1)) (ha : Apart d (x.length + n + 1) s (y.length + 1)) :
    ∃ m', strncat m d s n = some (m', d) ∧ Str m' d (x ++ y.take n) ∧ Frame m m' d (x.length + n + 1) := by
  have hlen : (y.take n).length = n := by rw [List.length_take]; omega
  have hb : Bytes m s (y.take n) := by
    intro i b hi
    refine (bytes_append.mp hs.bytes).1 i b ?_
    rw [List.getElem?_take] at hi
    split at hi
    · exact hi
    · cases hi
  obtain ⟨m1, hc, hb1, hf1, hs1⟩ := ncat_spec (m := m) (d := d + x.length) (y.take n) hb
    (fun i hi => by rw [Nat.add_assoc]; exact hr _ (by omega)) (by unfold Apart at ha ⊢; omega)
  rw [hlen] at hc hf1
  obtain ⟨m2, hw, hm2, hf2, _⟩ := wr_some (m := m1) (a := d + x.length + n) (b := 0)
    (by rw [hs1, Nat.add_assoc]; exact hr _ (by omega))
  refine ⟨m2, by simp only [strncat, Option.bind_eq_bind, endLoop_eq hd, Option.bind_some, hc, hw], ⟨?_, ?_⟩, ?_⟩
  · rw [List.append_assoc, bytes_append, bytes_append, hlen]
    refine ⟨?_, ?_, bytes_cons.mpr ⟨hm2, bytes_nil _ _⟩⟩
    · exact bytes_frame (bytes_frame (bytes_append.mp hd.bytes).1 hf1 (Or.inr (by omega))) hf2 (Or.inr (by omega))
    · exact bytes_frame hb1 hf2 (Or.inr (by omega))
  · rw [List.mem_append, not_or]; exact ⟨hd.nonzero, fun h => hs.nonzero (List.mem_of_mem_take h)⟩
  · exact frame_trans (frame_mono hf1 (by omega) (by omega)) (frame_mono hf2 (by omega) (by omega))

/-- C54 fails for strncat when `n` exceeds the length of the source: it goes on reading after the terminator, which is
undefined when nothing may be read there. -/
theorem c54_strncat_fails (m : Mem) (d s n : Nat) (x y : List Byte) (hd : Str m d x) (hs : Str m s y)
    (hn : y.length + 1 < n) (_hr : Room m d (x.length + y.length + 1))
    (ha : Apart d (x.length + y.length + 1) s (y.length + 2)) (hnone : m (s + y.length + 1) = none) :
    strncat m d s n = none := by
  have key : ∀ (l : List Byte) (m : Mem) (d s : Nat) (k : Nat), Bytes m s l → m (s + l.length) = none →
      Apart d l.length s (l.length + 1) → strncatLoop m d s (l.length + (k + 1)) = none := by
    intro l
    induction l with
    | nil =>
      intro m d s k _ h _
      rw [List.length_nil, Nat.zero_add, strncatLoop]
      rw [List.length_nil, Nat.add_zero] at h
      rw [h]; rfl
    | cons b l ih =>
      intro m d s k hb h hap
      obtain ⟨h1, h2⟩ := bytes_cons.mp hb
      rw [List.length_cons] at hap h ⊢
      rw [show l.length + 1 + (k + 1) = l.length + (k + 1) + 1 by omega, strncatLoop, h1]
      simp only [Option.bind_eq_bind, Option.bind_some]
      cases hw : wr m d b with
      | none => rfl
      | some m' =>
        simp only [Option.bind_some]
        have hfr : Frame m m' d 1 := by
          rw [wr] at hw
          split at hw
          · cases hw
          · cases hw
            intro a ha
            have : a ≠ d := by omega
            simp [this]
        refine ih m' (d + 1) (s + 1) k (bytes_frame h2 hfr (by unfold Apart at hap ⊢; omega)) ?_ (by unfold Apart at hap ⊢; omega)
        rw [hfr _ (by unfold Apart at hap; omega), show s + 1 + l.length = s + (l.length + 1) by omega]
        exact h
  have := key (y ++ [0]) m (d + x.length) s (n - y.length - 2) hs.bytes
    (by rw [List.length_append, List.length_singleton, ← Nat.add_assoc]; exact hnone)
    (by rw [List.length_append, List.length_singleton]; unfold Apart at ha ⊢; omega)
  rw [List.length_append, List.length_singleton, show y.length + 1 + (n - y.length - 2 + 1) = n by omega] at this
  simp only [strncat, Option.bind_eq_bind, endLoop_eq hd, Option.bind_some, this, Option.bind_none]

example : ∃ m', strcat (exMem [104, 105, 0, 0, 0, 0] [98, 105] 8) 100 200 = some (m', 100) ∧
    Str m' 100 [104, 105, 98, 105] ∧ Frame (exMem [104, 105, 0, 0, 0, 0] [98, 105] 8) m' 100 5 :=
  c54_strcat _ 100 200 [104, 105] [98, 105]
    (str_cons.mpr ⟨by decide, rfl, str_cons.mpr ⟨by decide, rfl, str_nil.mpr rfl⟩⟩)
    (str_cons.mpr ⟨by decide, rfl, str_cons.mpr ⟨by decide, rfl, str_nil.mpr rfl⟩⟩)
    (by
      intro i hi
      have : i = 0 ∨ i = 1 ∨ i = 2 ∨ i = 3 ∨ i = 4 := by simp at hi; omega
      rcases this with rfl | rfl | rfl | rfl | rfl <;> rfl)
    (Or.inl (by simp))

example : ∃ m', strncat (exMem [104, 105, 0, 0, 0, 0] [98, 105] 8) 100 200 1 = some (m', 100) ∧
    Str m' 100 [104, 105, 98] ∧ Frame (exMem [104, 105, 0, 0, 0, 0] [98, 105] 8) m' 100 4 :=
  c54_strncat_partial _ 100 200 1 [104, 105] [98, 105]
    (str_cons.mpr ⟨by decide, rfl, str_cons.mpr ⟨by decide, rfl, str_nil.mpr rfl⟩⟩)
    (str_cons.mpr ⟨by decide, rfl, str_cons.mpr ⟨by decide, rfl, str_nil.mpr rfl⟩⟩) (by decide)
    (by
      intro i hi
      have : i = 0 ∨ i = 1 ∨ i = 2 ∨ i = 3 := by simp at hi; omega
      rcases this with rfl | rfl | rfl | rfl <;> rfl)
    (Or.inl (by simp))

/-- A legal call: "ab" appended to an empty string with n = 9. -/
example : strncat (exMem [0, 0, 0, 0] [97, 98] 0) 100 200 9 = none :=
  c54_strncat_fails _ 100 200 9 [] [97, 98] (str_nil.mpr rfl)
    (str_cons.mpr ⟨by decide, rfl, str_cons.mpr ⟨by decide, rfl, str_nil.mpr rfl⟩⟩) (by decide)
    (by
      intro i hi
      have : i = 0 ∨ i = 1 ∨ i = 2 := by simp at hi; omega
      rcases this with rfl | rfl | rfl <;> rfl)
    (Or.inl (by simp)) rfl

/-! ### Comparing -/

/-- C54, memcmp: it is defined on two blocks of `n` bytes, and over the choices of the nondeterministic int its possible
results are exactly: 0 for equal blocks, all negative ints if the first is smaller, all positive ints if it is larger. -/
theorem c54_memcmp (m : Mem) (s1 s2 : Nat) (x y : List Byte) (hl : x.length = y.length) (h1 : Bytes m s1 x)
    (h2 : Bytes m s2 y) :
    (∀ nd, (memcmp m nd s1 s2 x.length).isSome) ∧
    ∀ v : Int, (∃ nd : Int, -2 ^ 31 ≤ nd ∧ nd < 2 ^ 31 ∧ memcmp m nd s1 s2 x.length = some (some v)) ↔
      (x = y ∧ v = 0) ∨ (-2 ^ 31 ≤ v ∧ v < 2 ^ 31 ∧ ((Lt x y ∧ v < 0) ∨ (Lt y x ∧ v > 0))) := by
  rcases memcmp_cases x y hl h1 h2 with ⟨h, h'⟩ | ⟨h, h'⟩ | ⟨h, h'⟩
  · refine ⟨fun nd => by rw [h' nd]; rfl, fun v => ⟨?_, ?_⟩⟩
    · rintro ⟨nd, _, _, hv⟩
      rw [h' nd] at hv
      cases hv
      exact Or.inl ⟨h, rfl⟩
    · rintro (⟨_, hv⟩ | ⟨_, _, ⟨hlt, _⟩ | ⟨hlt, _⟩⟩)
      · exact ⟨0, by decide, by decide, by rw [h' 0, hv]⟩
      · rw [h] at hlt; exact absurd hlt (lt_irrefl y)
      · rw [h] at hlt; exact absurd hlt (lt_irrefl y)
  · refine ⟨fun nd => by rw [h' nd]; rfl, fun v => ⟨?_, ?_⟩⟩
    · rintro ⟨nd, hn1, hn2, hv⟩
      rw [h' nd] at hv
      by_cases hnd : nd < 0
      · rw [if_pos hnd] at hv; cases hv
        exact Or.inr ⟨hn1, hn2, Or.inl ⟨h, hnd⟩⟩
      · rw [if_neg hnd] at hv; cases hv
    · rintro (⟨he, _⟩ | ⟨hv1, hv2, ⟨_, hv⟩ | ⟨hgt, _⟩⟩)
      · rw [he] at h; exact absurd h (lt_irrefl y)
      · exact ⟨v, hv1, hv2, by rw [h' v, if_pos hv]⟩
      · exact absurd hgt (lt_asymm h)
  · refine ⟨fun nd => by rw [h' nd]; rfl, fun v => ⟨?_, ?_⟩⟩
    · rintro ⟨nd, hn1, hn2, hv⟩
      rw [h' nd] at hv
      by_cases hnd : nd > 0
      · rw [if_pos hnd] at hv; cases hv
        exact Or.inr ⟨hn1, hn2, Or.inr ⟨h, hnd⟩⟩
      · rw [if_neg hnd] at hv; cases hv
    · rintro (⟨he, _⟩ | ⟨hv1, hv2, ⟨hlt, _⟩ | ⟨_, hv⟩⟩)
      · rw [he] at h; exact absurd h (lt_irrefl y)
      · exact absurd hlt (lt_asymm h)
      · exact ⟨v, hv1, hv2, by rw [h' v, if_pos hv]⟩

example : Lt [1, 2, 3] [1, 200, 0] := ⟨1, 2, 200, rfl, rfl, rfl, by decide⟩

/-- C54, strcmp: always defined; 0 exactly for equal strings; the sign is that of the first differing bytes compared as
signed char. -/
theorem c54_strcmp_signed (m : Mem) (s1 s2 : Nat) (x y : List Byte) (h1 : Str m s1 x) (h2 : Str m s2 y) :
    ∃ r, strcmp m s1 s2 = some r ∧ (r = 0 ↔ x = y) ∧ (r < 0 ↔ SLt (x ++ [0]) (y ++ [0])) ∧
      (r > 0 ↔ SLt (y ++ [0]) (x ++ [0])) := by
  obtain ⟨r, hr, hc⟩ := strcmpLoop_spec (n := 0) (by simpa using h1) (by simpa using h2)
  obtain ⟨h3, h4, h5⟩ := scmp_iff hc
  refine ⟨r, hr, ?_, h4, h5⟩
  rw [h3]
  exact ⟨fun h => List.append_cancel_right h, fun h => by rw [h]⟩

/-- C54, strcmp as the standard prescribes (unsigned char) for strings of bytes below 128. Missing: other bytes, for
which the sign is wrong (`c54_strcmp_fails`). -/
theorem c54_strcmp_partial (m : Mem) (s1 s2 : Nat) (x y : List Byte) (h1 : Str m s1 x) (h2 : Str m s2 y)
    (hx : ∀ b, b ∈ x → b.toNat < 128) (hy : ∀ b, b ∈ y → b.toNat < 128) :
    ∃ r, strcmp m s1 s2 = some r ∧ (r = 0 ↔ x = y) ∧ (r < 0 ↔ Lt (x ++ [0]) (y ++ [0])) ∧
      (r > 0 ↔ Lt (y ++ [0]) (x ++ [0])) := by
  obtain ⟨r, hr, h3, h4, h5⟩ := c54_strcmp_signed m s1 s2 x y h1 h2
  have hz : ∀ (l : List Byte), (∀ b, b ∈ l → b.toNat < 128) → ∀ b, b ∈ l ++ [0] → b.toNat < 128 := by
    intro l hl b hb
    rcases List.mem_append.mp hb with hb | hb
    · exact hl b hb
    · rw [List.mem_singleton.mp hb]; decide
  refine ⟨r, hr, h3, ?_, ?_⟩
  · rw [h4, lt_iff_slt (hz x hx) (hz y hy)]
  · rw [h5, lt_iff_slt (hz y hy) (hz x hx)]

example : ∃ r, strcmp (exMem [104, 105, 0] [98, 105] 8) 100 200 = some r ∧ r > 0 := by
  obtain ⟨r, h1, _, _, h2⟩ := c54_strcmp_partial _ 100 200 [104, 105] [98, 105] exStr exStr2 (by decide) (by decide)
  exact ⟨r, h1, h2.mpr ⟨0, 98, 104, rfl, rfl, rfl, by decide⟩⟩

/-- C54 fails for strcmp: when the first differing bytes are `a ≥ 128` and `b < 128`, the result is negative although
the first string is larger. -/
theorem c54_strcmp_fails (m : Mem) (s1 s2 : Nat) (p x y : List Byte) (a b : Byte) (ha : 128 ≤ a.toNat) (hb : b.toNat < 128)
    (h1 : Str m s1 (p ++ a :: x)) (h2 : Str m s2 (p ++ b :: y)) :
    ∃ r, strcmp m s1 s2 = some r ∧ r < 0 ∧ Lt (p ++ b :: y ++ [0]) (p ++ a :: x ++ [0]) := by
  obtain ⟨r, hr, _, h4, _⟩ := c54_strcmp_signed m s1 s2 _ _ h1 h2
  refine ⟨r, hr, h4.mpr ⟨p.length, a, b, ?_, ?_, ?_, ?_⟩, p.length, b, a, ?_, ?_, ?_, by omega⟩
  · simp
  · simp
  · simp
  · rw [toInt_low hb, BitVec.toInt_eq_toNat_cond, if_neg (by omega)]
    have := a.isLt
    omega
  · simp
  · simp
  · simp

example : ∃ r, strcmp (exMem [200, 0] [50] 0) 100 200 = some r ∧ r < 0 ∧ Lt [50, 0] [200, 0] :=
  c54_strcmp_fails _ 100 200 [] [] [] 200 50 (by decide) (by decide)
    (str_cons.mpr ⟨by decide, rfl, str_nil.mpr rfl⟩) (str_cons.mpr ⟨by decide, rfl, str_nil.mpr rfl⟩)

/-- C54, strncmp on strings of bytes below 128 for `n` not beyond either terminator. Missing: larger `n`
(`c54_strncmp_fails`, `c54_strncmp_ub_fails`) and other bytes (as for strcmp). -/
theorem c54_strncmp_partial (m : Mem) (s1 s2 n : Nat) (x y : List Byte) (h1 : Str m s1 x) (h2 : Str m s2 y)
    (hx : ∀ b, b ∈ x → b.toNat < 128) (hy : ∀ b, b ∈ y → b.toNat < 128) (hn1 : n ≤ x.length + 1) (hn2 : n ≤ y.length + 1) :
    ∃ r, strncmp m s1 s2 n = some r ∧ (r = 0 ↔ (x ++ [0]).take n = (y ++ [0]).take n) ∧
      (r < 0 ↔ Lt ((x ++ [0]).take n) ((y ++ [0]).take n)) ∧ (r > 0 ↔ Lt ((y ++ [0]).take n) ((x ++ [0]).take n)) := by
  have hb : ∀ {s : Nat} {l : List Byte}, Str m s l → Bytes m s ((l ++ [0]).take n) := by
    intro s l h i b hi
    refine h.bytes i b ?_
    rw [List.getElem?_take] at hi
    split at hi
    · exact hi
    · cases hi
  have hlx : ((x ++ [0]).take n).length = n := by rw [List.length_take, List.length_append, List.length_singleton]; omega
  have hly : ((y ++ [0]).take n).length = n := by rw [List.length_take, List.length_append, List.length_singleton]; omega
  obtain ⟨r, hr, hc⟩ := strncmp_bytes _ _ (hlx.trans hly.symm) (hb h1) (hb h2)
  rw [hlx] at hr
  obtain ⟨h3, h4, h5⟩ := scmp_iff hc
  have hz : ∀ (l : List Byte), (∀ b, b ∈ l → b.toNat < 128) → ∀ b, b ∈ (l ++ [0]).take n → b.toNat < 128 := by
    intro l hl b hb
    rcases List.mem_append.mp (List.mem_of_mem_take hb) with hb | hb
    · exact hl b hb
    · rw [List.mem_singleton.mp hb]; decide
  exact ⟨r, hr, h3, by rw [h4, lt_iff_slt (hz x hx) (hz y hy)], by rw [h5, lt_iff_slt (hz y hy) (hz x hx)]⟩

/-- C54 fails for strncmp on equal strings when `n` goes beyond the terminator: the result depends on the bytes behind it. -/
theorem c54_strncmp_fails (m : Mem) (s1 s2 n : Nat) (x : List Byte) (a b : Byte) (h1 : Str m s1 x) (h2 : Str m s2 x)
    (hn : x.length + 1 < n) (ha : m (s1 + (x.length + 1)) = some a) (hb : m (s2 + (x.length + 1)) = some b) (hab : a ≠ b) :
    ∃ r, strncmp m s1 s2 n = some r ∧ r ≠ 0 := by
  have hsk := strncmp_skip (x ++ [0]) (n - x.length - 1) h1.bytes h2.bytes
  rw [List.length_append, List.length_singleton, show x.length + 1 + (n - x.length - 1) = n by omega] at hsk
  have hlt : 0 < n - x.length - 1 := by omega
  cases hk : n - x.length - 1 with
  | zero => omega
  | succ k =>
    rw [hk] at hsk
    refine ⟨a.toInt - b.toInt, ?_, ?_⟩
    · rw [hsk, strncmp, ha, hb]
      simp [hab]
    · have := toInt_inj hab
      omega

/-- … and is undefined if nothing may be read there. -/
theorem c54_strncmp_ub_fails (m : Mem) (s1 s2 n : Nat) (x : List Byte) (h1 : Str m s1 x) (h2 : Str m s2 x)
    (hn : x.length + 1 < n) (ha : m (s1 + (x.length + 1)) = none) : strncmp m s1 s2 n = none := by
  have hsk := strncmp_skip (x ++ [0]) (n - x.length - 1) h1.bytes h2.bytes
  rw [List.length_append, List.length_singleton, show x.length + 1 + (n - x.length - 1) = n by omega] at hsk
  cases hk : n - x.length - 1 with
  | zero => omega
  | succ k =>
    rw [hk] at hsk
    rw [hsk, strncmp, ha]
    rfl

example : ∃ r, strncmp (exMem [104, 105, 0] [98, 105] 8) 100 200 2 = some r ∧ r > 0 := by
  obtain ⟨r, h1, _, _, h2⟩ := c54_strncmp_partial _ 100 200 2 [104, 105] [98, 105] exStr exStr2 (by decide) (by decide)
    (by decide) (by decide)
  exact ⟨r, h1, h2.mpr ⟨0, 98, 104, rfl, rfl, rfl, by decide⟩⟩

example : strncmp (exMem [97, 0] [97] 0) 100 200 5 = none :=
  c54_strncmp_ub_fails _ 100 200 5 [97] (str_cons.mpr ⟨by decide, rfl, str_nil.mpr rfl⟩)
    (str_cons.mpr ⟨by decide, rfl, str_nil.mpr rfl⟩) (by decide) rfl

/-! ### Searching -/

theorem toChar_iff {c : Int} (h1 : -128 ≤ c) (h2 : c < 128) (b : Byte) : b.toInt = c ↔ b = toChar c := by
  constructor
  · rintro rfl
    rw [toChar, BitVec.ofInt_toInt]
  · rintro rfl
    rw [toChar, BitVec.toInt_ofInt]
    exact Int.bmod_eq_of_le (by omega) (by omega)

theorem firstAt_append_zero {x : List Byte} {c : Byte} (hc : c ≠ 0) (i : Nat) :
    FirstAt (x ++ [0]) c i ↔ FirstAt x c i := by
  have hi : ∀ (h : (x ++ [0])[i]? = some c), i < x.length := by
    intro h
    rcases Nat.lt_or_ge i x.length with hl | hl
    · exact hl
    · rw [List.getElem?_append_right hl] at h
      have := List.mem_singleton.mp (List.mem_of_getElem? h)
      exact absurd this hc
  constructor
  · rintro ⟨h1, h2⟩
    have hl := hi h1
    rw [List.getElem?_append_left hl] at h1
    rw [List.take_append_of_le_length (by omega)] at h2
    exact ⟨h1, h2⟩
  · rintro ⟨h1, h2⟩
    have hl := (List.getElem?_eq_some_iff.mp h1).1
    refine ⟨by rw [List.getElem?_append_left hl]; exact h1, ?_⟩
    rw [List.take_append_of_le_length (by omega)]; exact h2

theorem lastAt_append_zero {x : List Byte} {c : Byte} (hc : c ≠ 0) (i : Nat) : LastAt (x ++ [0]) c i ↔ LastAt x c i := by
  constructor
  · rintro ⟨h1, h2⟩
    have hl : i < x.length := by
      rcases Nat.lt_or_ge i x.length with hl | hl
      · exact hl
      · rw [List.getElem?_append_right hl] at h1
        exact absurd (List.mem_singleton.mp (List.mem_of_getElem? h1)) hc
    rw [List.getElem?_append_left hl] at h1
    rw [List.drop_append_of_le_length (by omega), List.mem_append, not_or] at h2
    exact ⟨h1, h2.1⟩
  · rintro ⟨h1, h2⟩
    have hl := (List.getElem?_eq_some_iff.mp h1).1
    refine ⟨by rw [List.getElem?_append_left hl]; exact h1, ?_⟩
    rw [List.drop_append_of_le_length (by omega), List.mem_append, not_or]
    exact ⟨h2, fun h => hc (List.mem_singleton.mp h)⟩

theorem firstAt_unique {x : List Byte} {c : Byte} {i j : Nat} (h1 : FirstAt x c i) (h2 : FirstAt x c j) : i = j := by
  have key : ∀ {i j : Nat}, FirstAt x c i → FirstAt x c j → ¬i < j := by
    intro i j h1 h2 hlt
    refine h2.2 (List.mem_of_getElem? (i := i) ?_)
    rw [List.getElem?_take, if_pos hlt]; exact h1.1
  have := key h1 h2
  have := key h2 h1
  omega

theorem lastAt_unique {x : List Byte} {c : Byte} {i j : Nat} (h1 : LastAt x c i) (h2 : LastAt x c j) : i = j := by
  have key : ∀ {i j : Nat}, LastAt x c i → LastAt x c j → ¬i < j := by
    intro i j h1 h2 hlt
    refine h1.2 (List.mem_of_getElem? (i := j - (i + 1)) ?_)
    rw [List.getElem?_drop, show i + 1 + (j - (i + 1)) = j by omega]; exact h2.1
  have := key h1 h2
  have := key h2 h1
  omega

/-- C54, strchr for a character other than NUL given as a value of `char`: the first occurrence, or null if there is
none. Missing: NUL (`c54_strchr_nul_fails`) and ints outside the range of char (`c54_strchr_conv_fails`). -/
theorem c54_strchr_partial (m : Mem) (s : Nat) (x : List Byte) (c : Int) (h : Str m s x) (hc0 : c ≠ 0) (hc1 : -128 ≤ c)
    (hc2 : c < 128) :
    ∃ r, strchr m s c = some r ∧ (∀ a, r = some a ↔ ∃ i, a = s + i ∧ FirstAt (x ++ [0]) (toChar c) i) ∧
      (r = none ↔ toChar c ∉ x ++ [0]) := by
  have hnz : toChar c ≠ 0 := by
    intro h
    have := (toChar_iff hc1 hc2 0).mpr h.symm
    exact hc0 this.symm
  obtain ⟨r, hr, hx⟩ := strchr_spec (c := c) h
  refine ⟨r, hr, ?_⟩
  rcases hx with ⟨h1, h2⟩ | ⟨b, i, h1, h2, h3⟩
  · have hn : toChar c ∉ x := fun hm => h2 _ hm ((toChar_iff hc1 hc2 _).mpr rfl)
    subst h1
    refine ⟨fun a => ⟨nofun, ?_⟩, fun _ => ?_, fun _ => rfl⟩
    · rintro ⟨i, _, h⟩
      rw [firstAt_append_zero hnz] at h
      exact absurd (List.mem_of_getElem? h.1) hn
    · rw [List.mem_append, not_or]
      exact ⟨hn, fun h => hnz (List.mem_singleton.mp h)⟩
  · have hb : b = toChar c := (toChar_iff hc1 hc2 b).mp h1
    rw [hb] at h3
    subst h2
    refine ⟨fun a => ⟨?_, ?_⟩, nofun, ?_⟩
    · intro h; cases h
      exact ⟨i, rfl, (firstAt_append_zero hnz i).mpr h3⟩
    · rintro ⟨j, rfl, h⟩
      rw [firstAt_append_zero hnz] at h
      rw [firstAt_unique h3 h]
    · intro h
      exact absurd (List.mem_append_left _ (List.mem_of_getElem? h3.1)) h

/-- C54, strrchr under the same conditions: the last occurrence. -/
theorem c54_strrchr_partial (m : Mem) (s : Nat) (x : List Byte) (c : Int) (h : Str m s x) (hc0 : c ≠ 0) (hc1 : -128 ≤ c)
    (hc2 : c < 128) :
    ∃ r, strrchr m s c = some r ∧ (∀ a, r = some a ↔ ∃ i, a = s + i ∧ LastAt (x ++ [0]) (toChar c) i) ∧
      (r = none ↔ toChar c ∉ x ++ [0]) := by
  have hnz : toChar c ≠ 0 := by
    intro h
    have := (toChar_iff hc1 hc2 0).mpr h.symm
    exact hc0 this.symm
  obtain ⟨r, hr, hx⟩ := strrchrLoop_spec (c := c) (res := none) h
  refine ⟨r, hr, ?_⟩
  rcases hx with ⟨h1, h2⟩ | ⟨b, i, h1, h2, h3⟩
  · have hn : toChar c ∉ x := fun hm => h2 _ hm ((toChar_iff hc1 hc2 _).mpr rfl)
    subst h1
    refine ⟨fun a => ⟨nofun, ?_⟩, fun _ => ?_, fun _ => rfl⟩
    · rintro ⟨i, _, h⟩
      rw [lastAt_append_zero hnz] at h
      exact absurd (List.mem_of_getElem? h.1) hn
    · rw [List.mem_append, not_or]
      exact ⟨hn, fun h => hnz (List.mem_singleton.mp h)⟩
  · have hb : b = toChar c := (toChar_iff hc1 hc2 b).mp h1
    rw [hb] at h3
    subst h2
    refine ⟨fun a => ⟨?_, ?_⟩, nofun, ?_⟩
    · intro h; cases h
      exact ⟨i, rfl, (lastAt_append_zero hnz i).mpr h3⟩
    · rintro ⟨j, rfl, h⟩
      rw [lastAt_append_zero hnz] at h
      rw [lastAt_unique h3 h]
    · intro h
      exact absurd (List.mem_append_left _ (List.mem_of_getElem? h3.1)) h

/-- C54 fails for strchr and strrchr with NUL: they return null on every string, instead of the terminator. -/
theorem c54_strchr_nul_fails (m : Mem) (s : Nat) (x : List Byte) (h : Str m s x) :
    strchr m s 0 = some none ∧ strrchr m s 0 = some none ∧ FirstAt (x ++ [0]) (toChar 0) x.length := by
  have hz : ∀ b : Byte, b ∈ x → b.toInt ≠ 0 := by
    intro b hb h0
    have : b = 0 := BitVec.eq_of_toInt_eq h0
    rw [this] at hb
    exact h.nonzero hb
  refine ⟨?_, ?_, ?_, ?_⟩
  · obtain ⟨r, hr, ⟨h1, _⟩ | ⟨b, i, h1, _, h3⟩⟩ := strchr_spec (c := 0) h
    · rw [hr, h1]
    · exact absurd h1 (hz b (List.mem_of_getElem? h3.1))
  · obtain ⟨r, hr, ⟨h1, _⟩ | ⟨b, i, h1, _, h3⟩⟩ := strrchrLoop_spec (c := 0) (res := none) h
    · rw [strrchr, hr, h1]
    · exact absurd h1 (hz b (List.mem_of_getElem? h3.1))
  · simp; rfl
  · rw [List.take_append_of_le_length (Nat.le_refl _), List.take_length]
    exact h.nonzero

/-- C54 fails for strchr with an int above 127, which the standard converts to char: null on every string, also if it
holds the character. -/
theorem c54_strchr_conv_fails (m : Mem) (s : Nat) (x : List Byte) (h : Str m s x) (c : Int) (hc : 128 ≤ c) :
    strchr m s c = some none ∧ strrchr m s c = some none := by
  have hz : ∀ b : Byte, b.toInt ≠ c := by
    intro b hb
    have := BitVec.toInt_lt (x := b)
    omega
  constructor
  · obtain ⟨r, hr, ⟨h1, _⟩ | ⟨b, i, h1, _⟩⟩ := strchr_spec (c := c) h
    · rw [hr, h1]
    · exact absurd h1 (hz b)
  · obtain ⟨r, hr, ⟨h1, _⟩ | ⟨b, i, h1, _⟩⟩ := strrchrLoop_spec (c := c) (res := none) h
    · rw [strrchr, hr, h1]
    · exact absurd h1 (hz b)

/-- `strchr("\xe9", 0xe9)`. -/
example : strchr (exMem [] [233] 0) 200 233 = some none ∧ FirstAt [233, 0] (toChar 233) 0 :=
  ⟨(c54_strchr_conv_fails _ 200 [233] (str_cons.mpr ⟨by decide, rfl, str_nil.mpr rfl⟩) 233 (by decide)).1, rfl, by decide⟩

example : ∃ r, strchr (exMem [104, 105, 0] [98, 105] 8) 100 105 = some r ∧ r = some 101 := by
  obtain ⟨r, h1, h2, _⟩ := c54_strchr_partial _ 100 [104, 105] 105 exStr (by decide) (by decide) (by decide)
  exact ⟨r, h1, (h2 101).mpr ⟨1, rfl, rfl, by decide⟩⟩

/-- C54, strspn. -/
theorem c54_strspn (m : Mem) (s1 s2 : Nat) (x y : List Byte) (h1 : Str m s1 x) (h2 : Str m s2 y) :
    ∃ n, strspn m s1 s2 = some n ∧ SpanLen x (· ∈ y) n := by
  obtain ⟨k, h, hs⟩ := strspnLoop_spec (n := 0) h1 h2
  exact ⟨k, by rw [strspn, h, Nat.zero_add], hs⟩

/-- C54, strcspn. -/
theorem c54_strcspn (m : Mem) (s1 s2 : Nat) (x y : List Byte) (h1 : Str m s1 x) (h2 : Str m s2 y) :
    ∃ n, strcspn m s1 s2 = some n ∧ SpanLen x (· ∉ y) n := by
  obtain ⟨k, h, hs⟩ := strcspnLoop_spec (n := 0) h1 h2
  exact ⟨k, by rw [strcspn, h, Nat.zero_add], hs⟩

/-- C54, strpbrk. -/
theorem c54_strpbrk (m : Mem) (s1 s2 : Nat) (x y : List Byte) (h1 : Str m s1 x) (h2 : Str m s2 y) :
    ∃ r, strpbrk m s1 s2 = some r ∧ (∀ a, r = some a ↔ ∃ i, a = s1 + i ∧ FirstOf x y i) ∧
      (r = none ↔ ∀ b, b ∈ x → b ∉ y) := by
  obtain ⟨r, hr, hx⟩ := strpbrk_spec h1 h2
  refine ⟨r, hr, ?_⟩
  rcases hx with ⟨h3, h4⟩ | ⟨i, h3, h4⟩
  · subst h3
    refine ⟨fun a => ⟨nofun, ?_⟩, fun _ => h4, fun _ => rfl⟩
    rintro ⟨i, _, ⟨b, hb, hby⟩, _⟩
    exact absurd hby (h4 b (List.mem_of_getElem? hb))
  · subst h3
    refine ⟨fun a => ⟨?_, ?_⟩, nofun, ?_⟩
    · intro h; cases h; exact ⟨i, rfl, h4⟩
    · rintro ⟨j, rfl, h⟩
      have key : ∀ {i j : Nat}, FirstOf x y i → FirstOf x y j → ¬i < j := by
        rintro i j ⟨⟨b, hb, hby⟩, _⟩ ⟨_, h2⟩ hlt
        refine h2 b (List.mem_of_getElem? (i := i) ?_) hby
        rw [List.getElem?_take, if_pos hlt]; exact hb
      have h5 := key h4 h
      have h6 := key h h4
      rw [show i = j by omega]
    · intro h
      obtain ⟨⟨b, hb, hby⟩, _⟩ := h4
      exact absurd hby (h b (List.mem_of_getElem? hb))

example : ∃ n, strspn (exMem [104, 105, 0] [98, 105] 8) 200 100 = some n ∧ SpanLen [98, 105] (· ∈ [104, 105]) n :=
  c54_strspn _ _ _ _ _ exStr2 exStr
example : SpanLen [98, 98, 105] (· ∈ [98, 104]) 2 := ⟨by decide, by decide, by simp⟩
example : FirstOf [98, 105] [104, 105] 1 := ⟨⟨105, rfl, by decide⟩, by decide⟩

/-- C54, strstr unless both strings are empty. Missing: that case (`c54_strstr_fails`). -/
theorem c54_strstr_partial (m : Mem) (h n : Nat) (x y : List Byte) (h1 : Str m h x) (h2 : Str m n y)
    (hne : x ≠ [] ∨ y ≠ []) :
    ∃ r, strstr m h n = some r ∧ (∀ a, r = some a ↔ ∃ i, a = h + i ∧ FirstOcc x y i) ∧
      (r = none ↔ ¬y <:+: x) := by
  have hend : ∀ i, i ≤ x.length → y <+: x.drop i → ∃ j, j < x.length ∧ j ≤ i ∧ y <+: x.drop j := by
    intro i hi hp
    by_cases hl : i < x.length
    · exact ⟨i, hl, Nat.le_refl _, hp⟩
    · rw [List.drop_eq_nil_of_le (by omega)] at hp
      have hy : y = [] := List.prefix_nil.mp hp
      have hx : x ≠ [] := hne.resolve_right (fun e => e hy)
      refine ⟨0, List.length_pos_iff.mpr hx, Nat.zero_le _, ?_⟩
      rw [hy]; exact List.nil_prefix
  obtain ⟨r, hr, hx⟩ := strstr_spec h1 h2
  refine ⟨r, hr, ?_⟩
  rcases hx with ⟨h3, h4⟩ | ⟨i, h3, h4, h5, h6⟩
  · subst h3
    refine ⟨fun a => ⟨nofun, ?_⟩, fun _ => ?_, fun _ => rfl⟩
    · rintro ⟨i, _, hi, hp, _⟩
      obtain ⟨j, hj, _, hjp⟩ := hend i hi hp
      exact absurd hjp (h4 j hj)
    · rintro ⟨u, v, huv⟩
      have hlen : u.length ≤ x.length := by rw [← huv]; simp
      obtain ⟨j, hj, _, hjp⟩ := hend u.length hlen (by
        rw [← huv, List.append_assoc, List.drop_left]
        exact List.prefix_append _ _)
      exact h4 j hj hjp
  · subst h3
    refine ⟨fun a => ⟨?_, ?_⟩, nofun, ?_⟩
    · intro h; cases h; exact ⟨i, rfl, by omega, h5, h6⟩
    · rintro ⟨j, rfl, _, h7, h8⟩
      have h9 : ¬i < j := fun hlt => h8 i hlt h5
      have h10 : ¬j < i := fun hlt => h6 j hlt h7
      rw [show i = j by omega]
    · intro h
      exact absurd (h5.isInfix.trans (List.drop_suffix i x).isInfix) h

/-- C54 fails for strstr on two empty strings: null instead of the first argument. -/
theorem c54_strstr_fails (m : Mem) (h n : Nat) (h1 : Str m h []) (_h2 : Str m n []) :
    strstr m h n = some none ∧ FirstOcc [] [] 0 := by
  refine ⟨?_, by simp, by simp, by simp⟩
  rw [strstr, str_nil.mp h1]
  rfl

example : ∃ r, strstr (exMem [104, 105, 0] [105] 8) 100 200 = some r ∧ r = some 101 := by
  obtain ⟨r, h1, h2, _⟩ := c54_strstr_partial (exMem [104, 105, 0] [105] 8) 100 200 [104, 105] [105]
    (str_cons.mpr ⟨by decide, rfl, str_cons.mpr ⟨by decide, rfl, str_nil.mpr rfl⟩⟩)
    (str_cons.mpr ⟨by decide, rfl, str_nil.mpr rfl⟩) (Or.inl (by simp))
  exact ⟨r, h1, (h2 101).mpr ⟨1, rfl, by decide, by decide, by decide⟩⟩

end Smack.CString
