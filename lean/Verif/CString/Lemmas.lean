import Verif.CString.Spec

namespace Smack.CString

/-! ### Memory -/

theorem bytes_nil (m : Mem) (p : Nat) : Bytes m p [] := by intro i b h; simp at h

theorem bytes_cons {m : Mem} {p : Nat} {b : Byte} {l : List Byte} :
    Bytes m p (b :: l) ↔ m p = some b ∧ Bytes m (p + 1) l := by
  constructor
  · intro h
    refine ⟨h 0 b rfl, ?_⟩
    intro i c hc
    have := h (i + 1) c (by simpa using hc)
    rw [show p + 1 + i = p + (i + 1) by omega]; exact this
  · rintro ⟨h1, h2⟩ i c hc
    cases i with
    | zero => simp at hc; rw [← hc]; exact h1
    | succ i =>
      have := h2 i c (by simpa using hc)
      rw [show p + (i + 1) = p + 1 + i by omega]; exact this

theorem bytes_append {m : Mem} {p : Nat} {x y : List Byte} :
    Bytes m p (x ++ y) ↔ Bytes m p x ∧ Bytes m (p + x.length) y := by
  induction x generalizing p with
  | nil => simp [bytes_nil]
  | cons b x ih =>
    rw [List.cons_append, bytes_cons, bytes_cons, ih]
    rw [List.length_cons, show p + (x.length + 1) = p + 1 + x.length by omega]
    exact and_assoc.symm

theorem str_nil {m : Mem} {p : Nat} : Str m p [] ↔ m p = some 0 := by
  constructor
  · intro h; exact (bytes_cons.mp h.bytes).1
  · intro h
    refine ⟨?_, by simp⟩
    show Bytes m p [0]
    exact bytes_cons.mpr ⟨h, bytes_nil m _⟩

theorem str_cons {m : Mem} {p : Nat} {b : Byte} {l : List Byte} :
    Str m p (b :: l) ↔ b ≠ 0 ∧ m p = some b ∧ Str m (p + 1) l := by
  constructor
  · intro h
    obtain ⟨h1, h2⟩ := bytes_cons.mp h.bytes
    have hn := h.nonzero
    rw [List.mem_cons, not_or] at hn
    exact ⟨fun e => hn.1 e.symm, h1, h2, hn.2⟩
  · rintro ⟨h1, h2, h3⟩
    refine ⟨bytes_cons.mpr ⟨h2, h3.bytes⟩, ?_⟩
    rw [List.mem_cons, not_or]
    exact ⟨fun e => h1 e.symm, h3.nonzero⟩

theorem str_end {m : Mem} {p : Nat} {l : List Byte} (h : Str m p l) : m (p + l.length) = some 0 :=
  h.bytes l.length 0 (by simp)

theorem bytes_congr {m m' : Mem} {p : Nat} {l : List Byte} (h : Bytes m p l)
    (he : ∀ i, i < l.length → m' (p + i) = m (p + i)) : Bytes m' p l := by
  intro i b hb
  rw [he i (List.getElem?_eq_some_iff.mp hb).1]
  exact h i b hb

theorem bytes_frame {m m' : Mem} {p q n : Nat} {l : List Byte} (h : Bytes m p l) (hf : Frame m m' q n)
    (ha : Apart q n p l.length) : Bytes m' p l := by
  refine bytes_congr h (fun i hi => hf _ ?_)
  rcases ha with ha | ha
  · right; omega
  · left; omega

theorem str_frame {m m' : Mem} {p q n : Nat} {l : List Byte} (h : Str m p l) (hf : Frame m m' q n)
    (ha : Apart q n p (l.length + 1)) : Str m' p l :=
  ⟨bytes_frame h.bytes hf (by simpa using ha), h.nonzero⟩

theorem frame_refl (m : Mem) (p n : Nat) : Frame m m p n := fun _ _ => rfl

theorem frame_trans {m m1 m2 : Mem} {p n : Nat} (h1 : Frame m m1 p n) (h2 : Frame m1 m2 p n) : Frame m m2 p n :=
  fun a ha => (h2 a ha).trans (h1 a ha)

theorem frame_mono {m m' : Mem} {p n q k : Nat} (h : Frame m m' p n) (h1 : q ≤ p) (h2 : p + n ≤ q + k) : Frame m m' q k :=
  fun a ha => h a (by omega)

/-- Writing an accessible address. -/
theorem wr_some {m : Mem} {a : Nat} {b : Byte} (h : (m a).isSome) :
    ∃ m', wr m a b = some m' ∧ m' a = some b ∧ Frame m m' a 1 ∧ ∀ x, (m' x).isSome = (m x).isSome := by
  refine ⟨fun x => if x = a then some b else m x, ?_, by simp, ?_, ?_⟩
  · rw [wr]
    cases hm : m a with
    | none => rw [hm] at h; cases h
    | some c => rfl
  · intro x hx
    have : x ≠ a := by omega
    simp [this]
  · intro x
    by_cases hx : x = a
    · simp [hx, h]
    · simp [hx]

/-! ### Reading functions -/

theorem strlenLoop_eq {m : Mem} {s c : Nat} {l : List Byte} (h : Str m (s + c) l) :
    strlenLoop m s c = some (c + l.length) := by
  induction l generalizing c with
  | nil =>
    rw [strlenLoop, str_nil.mp h]; rfl
  | cons b l ih =>
    obtain ⟨hb, h1, h2⟩ := str_cons.mp h
    rw [strlenLoop, h1]
    have := ih (c := c + 1) (by rw [← Nat.add_assoc]; exact h2)
    simp only [Option.bind_eq_bind, Option.bind_some, if_pos hb, this, List.length_cons]
    congr 1; omega

theorem endLoop_eq {m : Mem} {d : Nat} {l : List Byte} (h : Str m d l) : endLoop m d = some (d + l.length) := by
  induction l generalizing d with
  | nil => rw [endLoop, str_nil.mp h]; rfl
  | cons b l ih =>
    obtain ⟨hb, h1, h2⟩ := str_cons.mp h
    rw [endLoop, h1]
    simp only [Option.bind_eq_bind, Option.bind_some, if_pos hb, ih h2, List.length_cons]
    congr 1; omega

/-! ### Copying -/

theorem copyLoop_spec {m : Mem} {d s : Nat} {l : List Byte} (h : Str m s l) (hr : Room m d (l.length + 1))
    (ha : Apart d (l.length + 1) s (l.length + 1)) :
    ∃ m', copyLoop m d s = some m' ∧ Bytes m' d (l ++ [0]) ∧ Frame m m' d (l.length + 1) ∧
      ∀ x, (m' x).isSome = (m x).isSome := by
  induction l generalizing m d s with
  | nil =>
    obtain ⟨m', hw, h1, h2, h3⟩ := wr_some (b := 0) (hr 0 (by simp))
    rw [Nat.add_zero] at hw h1 h2
    refine ⟨m', ?_, bytes_cons.mpr ⟨h1, bytes_nil _ _⟩, h2, h3⟩
    rw [copyLoop, str_nil.mp h]
    simp only [Option.bind_eq_bind, Option.bind_some, hw]
    rfl
  | cons b l ih =>
    obtain ⟨hb, h1, h2⟩ := str_cons.mp h
    obtain ⟨m1, hw, hm1, hf1, hs1⟩ := wr_some (b := b) (hr 0 (by simp))
    rw [Nat.add_zero] at hw hm1 hf1
    simp only [List.length_cons] at ha hr ⊢
    have hstr : Str m1 (s + 1) l := str_frame h2 hf1 (by unfold Apart at ha ⊢; omega)
    obtain ⟨m', hc, hby, hfr, hs⟩ := ih (d := d + 1) hstr
      (fun i hi => by rw [hs1, show d + 1 + i = d + (i + 1) by omega]; exact hr (i + 1) (by omega))
      (by unfold Apart at ha ⊢; omega)
    refine ⟨m', ?_, ?_, ?_, fun x => (hs x).trans (hs1 x)⟩
    · rw [copyLoop, h1]
      simp only [Option.bind_eq_bind, Option.bind_some, hw, if_pos hb, hc]
    · exact bytes_cons.mpr ⟨by rw [hfr d (by omega), hm1], hby⟩
    · exact frame_trans (frame_mono hf1 (by omega) (by omega)) (frame_mono hfr (by omega) (by omega))

theorem pad_spec {m : Mem} {dest n i : Nat} (k : Nat) (hk : n = i + k) (hr : Room m dest n) :
    ∃ m', strncpyPad m dest n i = some m' ∧ Bytes m' (dest + i) (List.replicate k 0) ∧ Frame m m' (dest + i) k := by
  induction k generalizing m i with
  | zero =>
    refine ⟨m, ?_, bytes_nil _ _, frame_refl _ _ _⟩
    rw [strncpyPad, if_neg (by omega)]
  | succ k ih =>
    obtain ⟨m1, hw, hm1, hf1, hs1⟩ := wr_some (b := 0) (hr i (by omega))
    obtain ⟨m', hc, hby, hfr⟩ := ih (m := m1) (i := i + 1) (by omega) (fun j hj => by rw [hs1]; exact hr j hj)
    refine ⟨m', ?_, ?_, ?_⟩
    · rw [strncpyPad, if_pos (by omega)]
      simp only [Option.bind_eq_bind, Option.bind_some, hw, hc]
    · rw [List.replicate_succ]
      exact bytes_cons.mpr ⟨by rw [hfr _ (by omega), hm1], hby⟩
    · exact frame_trans (frame_mono hf1 (by omega) (by omega)) (frame_mono hfr (by omega) (by omega))

/-- The copying loop of strncpy from index `i`, where `l` are the bytes before a NUL or the bound. -/
theorem ncopy_spec {m : Mem} {dest src n i : Nat} (l : List Byte) (hz : (0 : Byte) ∉ l) (hb : Bytes m (src + i) l)
    (hn : i + l.length ≤ n) (hend : i + l.length = n ∨ m (src + i + l.length) = some 0)
    (hr : Room m dest n) (ha : Apart dest n (src + i) (if i + l.length = n then l.length else l.length + 1)) (hi : i ≤ n) :
    ∃ m', strncpyCopy m dest src n i = some (m', i + l.length) ∧ Bytes m' (dest + i) l ∧ Frame m m' (dest + i) l.length ∧
      ∀ x, (m' x).isSome = (m x).isSome := by
  induction l generalizing m i with
  | nil =>
    refine ⟨m, ?_, bytes_nil _ _, frame_refl _ _ _, fun _ => rfl⟩
    rw [strncpyCopy]
    by_cases h : i < n
    · rw [if_pos h]
      have : m (src + i) = some 0 := by
        rcases hend with h' | h'
        · simp at h'; omega
        · simpa using h'
      rw [this]; rfl
    · rw [if_neg h]; rfl
  | cons b l ih =>
    obtain ⟨h1, h2⟩ := bytes_cons.mp hb
    rw [List.mem_cons, not_or] at hz
    have hbz : b ≠ 0 := fun e => hz.1 e.symm
    simp only [List.length_cons] at hn hend ha ⊢
    obtain ⟨m1, hw, hm1, hf1, hs1⟩ := wr_some (b := b) (hr i (by omega))
    have hap : Apart dest n (src + i) (l.length + 1) := by
      unfold Apart at ha ⊢; split at ha <;> omega
    have hby1 : Bytes m1 (src + (i + 1)) l := by
      refine bytes_frame (by rw [← Nat.add_assoc]; exact h2) hf1 ?_
      unfold Apart at hap ⊢; omega
    obtain ⟨m', hc, hby, hfr, hs⟩ := ih (m := m1) (i := i + 1) hz.2 hby1 (by omega)
      (by
        rcases hend with h | h
        · left; omega
        · by_cases hfull : i + 1 + l.length = n
          · left; exact hfull
          · right
            rw [hf1 _ ?_]
            · rw [show src + (i + 1) + l.length = src + i + (l.length + 1) by omega]; exact h
            · rw [if_neg (by omega)] at ha
              unfold Apart at ha; omega)
      (fun j hj => by rw [hs1]; exact hr j hj)
      (by
        by_cases hfull : i + 1 + l.length = n
        · rw [if_pos hfull]; rw [if_pos (by omega)] at ha; unfold Apart at ha ⊢; omega
        · rw [if_neg hfull]; rw [if_neg (by omega)] at ha; unfold Apart at ha ⊢; omega) (by omega)
    refine ⟨m', ?_, ?_, ?_, fun x => (hs x).trans (hs1 x)⟩
    · rw [strncpyCopy, if_pos (by omega)]
      simp only [Option.bind_eq_bind, h1, Option.bind_some, if_pos hbz, hw, hc]
      congr 2; omega
    · exact bytes_cons.mpr ⟨by rw [hfr _ (by omega), hm1], by rw [Nat.add_assoc]; exact hby⟩
    · exact frame_trans (frame_mono hf1 (by omega) (by omega)) (frame_mono hfr (by omega) (by omega))

theorem ncat_spec {m : Mem} {d s : Nat} (l : List Byte) (hb : Bytes m s l) (hr : Room m d l.length)
    (ha : Apart d l.length s l.length) :
    ∃ m', strncatLoop m d s l.length = some (m', d + l.length) ∧ Bytes m' d l ∧ Frame m m' d l.length ∧
      ∀ x, (m' x).isSome = (m x).isSome := by
  induction l generalizing m d s with
  | nil => exact ⟨m, rfl, bytes_nil _ _, frame_refl _ _ _, fun _ => rfl⟩
  | cons b l ih =>
    obtain ⟨h1, h2⟩ := bytes_cons.mp hb
    simp only [List.length_cons] at hr ha ⊢
    obtain ⟨m1, hw, hm1, hf1, hs1⟩ := wr_some (b := b) (hr 0 (by omega))
    rw [Nat.add_zero] at hw hm1 hf1
    obtain ⟨m', hc, hby, hfr, hs⟩ := ih (m := m1) (d := d + 1) (s := s + 1)
      (bytes_frame h2 hf1 (by unfold Apart at ha ⊢; omega))
      (fun i hi => by rw [hs1, show d + 1 + i = d + (i + 1) by omega]; exact hr (i + 1) (by omega))
      (by unfold Apart at ha ⊢; omega)
    refine ⟨m', ?_, ?_, ?_, fun x => (hs x).trans (hs1 x)⟩
    · rw [strncatLoop, h1]
      simp only [Option.bind_eq_bind, Option.bind_some, hw, hc]
      congr 2; omega
    · exact bytes_cons.mpr ⟨by rw [hfr d (by omega), hm1], hby⟩
    · exact frame_trans (frame_mono hf1 (by omega) (by omega)) (frame_mono hfr (by omega) (by omega))

end Smack.CString
