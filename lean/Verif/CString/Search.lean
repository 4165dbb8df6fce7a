import Verif.CString.Lemmas

namespace Smack.CString

/-! ### Comparing -/

theorem lt_cons {a : Byte} {x y : List Byte} : Lt (a :: x) (a :: y) ↔ Lt x y := by
  constructor
  · rintro ⟨k, c, d, h1, h2, h3, h4⟩
    cases k with
    | zero =>
      simp at h2 h3
      rw [← h2, ← h3] at h4; omega
    | succ k => exact ⟨k, c, d, by simpa using h1, by simpa using h2, by simpa using h3, h4⟩
  · rintro ⟨k, c, d, h1, h2, h3, h4⟩
    exact ⟨k + 1, c, d, by simpa using h1, by simpa using h2, by simpa using h3, h4⟩

theorem lt_cons_ne {a b : Byte} (x y : List Byte) (h : a ≠ b) : Lt (a :: x) (b :: y) ↔ a.toNat < b.toNat := by
  constructor
  · rintro ⟨k, c, d, h1, h2, h3, h4⟩
    cases k with
    | zero =>
      simp at h2 h3
      rw [h2, h3]; exact h4
    | succ k => simp at h1; exact absurd h1.1 h
  · intro h'
    exact ⟨0, a, b, rfl, rfl, rfl, h'⟩

theorem slt_cons {a : Byte} {x y : List Byte} : SLt (a :: x) (a :: y) ↔ SLt x y := by
  constructor
  · rintro ⟨k, c, d, h1, h2, h3, h4⟩
    cases k with
    | zero =>
      simp at h2 h3
      rw [← h2, ← h3] at h4; omega
    | succ k => exact ⟨k, c, d, by simpa using h1, by simpa using h2, by simpa using h3, h4⟩
  · rintro ⟨k, c, d, h1, h2, h3, h4⟩
    exact ⟨k + 1, c, d, by simpa using h1, by simpa using h2, by simpa using h3, h4⟩

theorem slt_cons_ne {a b : Byte} (x y : List Byte) (h : a ≠ b) : SLt (a :: x) (b :: y) ↔ a.toInt < b.toInt := by
  constructor
  · rintro ⟨k, c, d, h1, h2, h3, h4⟩
    cases k with
    | zero =>
      simp at h2 h3
      rw [h2, h3]; exact h4
    | succ k => simp at h1; exact absurd h1.1 h
  · intro h'
    exact ⟨0, a, b, rfl, rfl, rfl, h'⟩

theorem lt_asymm {x y : List Byte} (h : Lt x y) : ¬Lt y x := by
  induction x generalizing y with
  | nil => obtain ⟨k, a, b, _, h2, _⟩ := h; simp at h2
  | cons a x ih =>
    cases y with
    | nil => obtain ⟨k, a, b, _, _, h3, _⟩ := h; simp at h3
    | cons b y =>
      by_cases hab : a = b
      · subst hab
        rw [lt_cons] at h ⊢
        exact ih h
      · rw [lt_cons_ne _ _ hab] at h
        rw [lt_cons_ne _ _ (fun e => hab e.symm)]
        omega

theorem lt_irrefl (x : List Byte) : ¬Lt x x := fun h => lt_asymm h h

theorem slt_asymm {x y : List Byte} (h : SLt x y) : ¬SLt y x := by
  induction x generalizing y with
  | nil => obtain ⟨k, a, b, _, h2, _⟩ := h; simp at h2
  | cons a x ih =>
    cases y with
    | nil => obtain ⟨k, a, b, _, _, h3, _⟩ := h; simp at h3
    | cons b y =>
      by_cases hab : a = b
      · subst hab
        rw [slt_cons] at h ⊢
        exact ih h
      · rw [slt_cons_ne _ _ hab] at h
        rw [slt_cons_ne _ _ (fun e => hab e.symm)]
        omega

theorem slt_irrefl (x : List Byte) : ¬SLt x x := fun h => slt_asymm h h

theorem toInt_low {a : Byte} (h : a.toNat < 128) : a.toInt = a.toNat := by
  rw [BitVec.toInt_eq_toNat_cond, if_pos (by omega)]

theorem lt_iff_slt {x y : List Byte} (hx : ∀ b, b ∈ x → b.toNat < 128) (hy : ∀ b, b ∈ y → b.toNat < 128) :
    Lt x y ↔ SLt x y := by
  constructor
  · rintro ⟨k, a, b, h1, h2, h3, h4⟩
    refine ⟨k, a, b, h1, h2, h3, ?_⟩
    rw [toInt_low (hx a (List.mem_of_getElem? h2)), toInt_low (hy b (List.mem_of_getElem? h3))]
    omega
  · rintro ⟨k, a, b, h1, h2, h3, h4⟩
    refine ⟨k, a, b, h1, h2, h3, ?_⟩
    rw [toInt_low (hx a (List.mem_of_getElem? h2)), toInt_low (hy b (List.mem_of_getElem? h3))] at h4
    omega

theorem memcmp_cases {m : Mem} {s1 s2 : Nat} (x y : List Byte) (hl : x.length = y.length) (h1 : Bytes m s1 x)
    (h2 : Bytes m s2 y) :
    (x = y ∧ ∀ nd, memcmp m nd s1 s2 x.length = some (some 0)) ∨
    (Lt x y ∧ ∀ nd, memcmp m nd s1 s2 x.length = some (if nd < 0 then some nd else none)) ∨
    (Lt y x ∧ ∀ nd, memcmp m nd s1 s2 x.length = some (if nd > 0 then some nd else none)) := by
  induction x generalizing y s1 s2 with
  | nil =>
    cases y with
    | nil => exact Or.inl ⟨rfl, fun _ => rfl⟩
    | cons b y => simp at hl
  | cons a x ih =>
    cases y with
    | nil => simp at hl
    | cons b y =>
      obtain ⟨ha, h1'⟩ := bytes_cons.mp h1
      obtain ⟨hb, h2'⟩ := bytes_cons.mp h2
      by_cases hab : a = b
      · subst hab
        have hstep : ∀ nd, memcmp m nd s1 s2 (a :: x).length = memcmp m nd (s1 + 1) (s2 + 1) x.length := by
          intro nd
          rw [List.length_cons, memcmp, ha, hb]
          simp
        rcases ih y (by simpa using hl) h1' h2' with ⟨h, h'⟩ | ⟨h, h'⟩ | ⟨h, h'⟩
        · exact Or.inl ⟨by rw [h], fun nd => (hstep nd).trans (h' nd)⟩
        · exact Or.inr (Or.inl ⟨lt_cons.mpr h, fun nd => (hstep nd).trans (h' nd)⟩)
        · exact Or.inr (Or.inr ⟨lt_cons.mpr h, fun nd => (hstep nd).trans (h' nd)⟩)
      · by_cases hlt : a.toNat < b.toNat
        · refine Or.inr (Or.inl ⟨(lt_cons_ne _ _ hab).mpr hlt, fun nd => ?_⟩)
          rw [List.length_cons, memcmp, ha, hb]
          simp [hab, hlt]
        · have hne : a.toNat ≠ b.toNat := fun e => hab (BitVec.eq_of_toNat_eq e)
          refine Or.inr (Or.inr ⟨(lt_cons_ne _ _ (fun e => hab e.symm)).mpr (by omega), fun nd => ?_⟩)
          rw [List.length_cons, memcmp, ha, hb]
          simp [hab, hlt]

theorem toInt_inj {a b : Byte} (h : a ≠ b) : a.toInt ≠ b.toInt := fun e => h (BitVec.eq_of_toInt_eq e)

/-- The result of comparing two byte lists with signed characters. -/
def SCmp (x y : List Byte) (r : Int) : Prop :=
  (x = y ∧ r = 0) ∨ (SLt x y ∧ r < 0) ∨ (SLt y x ∧ r > 0)

theorem scmp_cons {a : Byte} {x y : List Byte} {r : Int} (h : SCmp x y r) : SCmp (a :: x) (a :: y) r := by
  rcases h with ⟨h, h'⟩ | ⟨h, h'⟩ | ⟨h, h'⟩
  · exact Or.inl ⟨by rw [h], h'⟩
  · exact Or.inr (Or.inl ⟨slt_cons.mpr h, h'⟩)
  · exact Or.inr (Or.inr ⟨slt_cons.mpr h, h'⟩)

theorem scmp_ne {a b : Byte} (x y : List Byte) (h : a ≠ b) : SCmp (a :: x) (b :: y) (a.toInt - b.toInt) := by
  have := toInt_inj h
  by_cases hlt : a.toInt < b.toInt
  · exact Or.inr (Or.inl ⟨(slt_cons_ne _ _ h).mpr hlt, by omega⟩)
  · exact Or.inr (Or.inr ⟨(slt_cons_ne _ _ (fun e => h e.symm)).mpr (by omega), by omega⟩)

theorem scmp_iff {x y : List Byte} {r : Int} (h : SCmp x y r) :
    (r = 0 ↔ x = y) ∧ (r < 0 ↔ SLt x y) ∧ (r > 0 ↔ SLt y x) := by
  rcases h with ⟨h, h'⟩ | ⟨h, h'⟩ | ⟨h, h'⟩
  · subst h
    have := slt_irrefl x
    exact ⟨by simp [h'], by constructor <;> intro h2; omega; exact absurd h2 this,
      by constructor <;> intro h2; omega; exact absurd h2 this⟩
  · have h1 := slt_asymm h
    have h2 : x ≠ y := by rintro rfl; exact slt_irrefl x h
    exact ⟨⟨fun h3 => by omega, fun h3 => absurd h3 h2⟩, ⟨fun _ => h, fun _ => h'⟩, ⟨fun h3 => by omega, fun h3 => absurd h3 h1⟩⟩
  · have h1 := slt_asymm h
    have h2 : x ≠ y := by rintro rfl; exact slt_irrefl x h
    exact ⟨⟨fun h3 => by omega, fun h3 => absurd h3 h2⟩, ⟨fun h3 => by omega, fun h3 => absurd h3 h1⟩, ⟨fun _ => h, fun _ => h'⟩⟩

theorem strcmpLoop_spec {m : Mem} {s1 s2 n : Nat} {x y : List Byte} (h1 : Str m (s1 + n) x) (h2 : Str m (s2 + n) y) :
    ∃ r, strcmpLoop m s1 s2 n = some r ∧ SCmp (x ++ [0]) (y ++ [0]) r := by
  induction x generalizing y n with
  | nil =>
    have ha := str_nil.mp h1
    cases y with
    | nil =>
      refine ⟨0, ?_, Or.inl ⟨rfl, rfl⟩⟩
      rw [strcmpLoop, ha, str_nil.mp h2]
      rfl
    | cons b y =>
      obtain ⟨hb, h3, _⟩ := str_cons.mp h2
      refine ⟨_, ?_, scmp_ne _ _ (fun e => hb e.symm)⟩
      rw [strcmpLoop, ha, h3]
      simp only [Option.bind_eq_bind, Option.bind_some]
      rw [if_neg (fun e => hb e.symm)]
  | cons a x ih =>
    obtain ⟨ha, h3, h1'⟩ := str_cons.mp h1
    cases y with
    | nil =>
      refine ⟨_, ?_, scmp_ne _ _ ha⟩
      rw [strcmpLoop, h3, str_nil.mp h2]
      simp only [Option.bind_eq_bind, Option.bind_some]
      rw [if_neg ha]
    | cons b y =>
      obtain ⟨hb, h4, h2'⟩ := str_cons.mp h2
      by_cases hab : a = b
      · subst hab
        obtain ⟨r, hr, hc⟩ := ih (n := n + 1) (by rw [← Nat.add_assoc]; exact h1') (by rw [← Nat.add_assoc]; exact h2')
        refine ⟨r, ?_, scmp_cons hc⟩
        rw [strcmpLoop, h3, h4]
        simp only [Option.bind_eq_bind, Option.bind_some, if_true, if_neg ha]
        exact hr
      · refine ⟨_, ?_, scmp_ne _ _ hab⟩
        rw [strcmpLoop, h3, h4]
        simp only [Option.bind_eq_bind, Option.bind_some]
        rw [if_neg hab]

/-- strncmp on two byte blocks: it does not look at NUL. -/
theorem strncmp_bytes {m : Mem} {s1 s2 : Nat} (x y : List Byte) (hl : x.length = y.length) (h1 : Bytes m s1 x)
    (h2 : Bytes m s2 y) : ∃ r, strncmp m s1 s2 x.length = some r ∧ SCmp x y r := by
  induction x generalizing y s1 s2 with
  | nil =>
    cases y with
    | nil => exact ⟨0, rfl, Or.inl ⟨rfl, rfl⟩⟩
    | cons b y => simp at hl
  | cons a x ih =>
    cases y with
    | nil => simp at hl
    | cons b y =>
      obtain ⟨ha, h1'⟩ := bytes_cons.mp h1
      obtain ⟨hb, h2'⟩ := bytes_cons.mp h2
      by_cases hab : a = b
      · subst hab
        obtain ⟨r, hr, hc⟩ := ih y (by simpa using hl) h1' h2'
        refine ⟨r, ?_, scmp_cons hc⟩
        rw [List.length_cons, strncmp, ha, hb]
        simp only [Option.bind_eq_bind, Option.bind_some, ne_eq, not_true_eq_false, if_false]
        exact hr
      · refine ⟨_, ?_, scmp_ne _ _ hab⟩
        rw [List.length_cons, strncmp, ha, hb]
        simp [hab]

/-- After a common block strncmp continues. -/
theorem strncmp_skip {m : Mem} {s1 s2 : Nat} (x : List Byte) (k : Nat) (h1 : Bytes m s1 x) (h2 : Bytes m s2 x) :
    strncmp m s1 s2 (x.length + k) = strncmp m (s1 + x.length) (s2 + x.length) k := by
  induction x generalizing s1 s2 with
  | nil => simp
  | cons a x ih =>
    obtain ⟨ha, h1⟩ := bytes_cons.mp h1
    obtain ⟨hb, h2⟩ := bytes_cons.mp h2
    rw [List.length_cons, show x.length + 1 + k = x.length + k + 1 by omega, strncmp, ha, hb]
    simp only [Option.bind_eq_bind, Option.bind_some, ne_eq, not_true_eq_false, if_false]
    rw [ih h1 h2]
    congr 1 <;> omega

/-! ### Searching -/

theorem firstAt_cons {b c : Byte} {l : List Byte} {i : Nat} :
    FirstAt (b :: l) c i ↔ (i = 0 ∧ b = c) ∨ ∃ j, i = j + 1 ∧ b ≠ c ∧ FirstAt l c j := by
  constructor
  · rintro ⟨h1, h2⟩
    cases i with
    | zero => left; simpa using h1
    | succ j =>
      right
      simp at h1 h2
      exact ⟨j, rfl, fun e => h2.1 e.symm, h1, h2.2⟩
  · rintro (⟨rfl, rfl⟩ | ⟨j, rfl, hne, h1, h2⟩)
    · exact ⟨rfl, by simp⟩
    · refine ⟨by simpa using h1, ?_⟩
      simp only [List.take_succ_cons, List.mem_cons, not_or]
      exact ⟨fun e => hne e.symm, h2⟩

theorem strchr_spec {m : Mem} {s : Nat} {x : List Byte} {c : Int} (h : Str m s x) :
    ∃ r, strchr m s c = some r ∧
      ((r = none ∧ ∀ b, b ∈ x → b.toInt ≠ c) ∨ ∃ b i, b.toInt = c ∧ r = some (s + i) ∧ FirstAt x b i) := by
  induction x generalizing s with
  | nil =>
    refine ⟨none, ?_, Or.inl ⟨rfl, by simp⟩⟩
    rw [strchr, str_nil.mp h]; rfl
  | cons a x ih =>
    obtain ⟨ha, h1, h2⟩ := str_cons.mp h
    by_cases hc : a.toInt = c
    · refine ⟨some s, ?_, Or.inr ⟨a, 0, hc, rfl, firstAt_cons.mpr (Or.inl ⟨rfl, rfl⟩)⟩⟩
      rw [strchr, h1]
      simp only [Option.bind_eq_bind, Option.bind_some, if_pos ha, if_pos hc]
    · obtain ⟨r, hr, hx⟩ := ih h2
      refine ⟨r, ?_, ?_⟩
      · rw [strchr, h1]
        simp only [Option.bind_eq_bind, Option.bind_some, if_pos ha, if_neg hc]
        exact hr
      · rcases hx with ⟨h3, h4⟩ | ⟨b, i, h3, h4, h5⟩
        · left
          refine ⟨h3, ?_⟩
          intro b hb
          rcases List.mem_cons.mp hb with hb | hb
          · rw [hb]; exact hc
          · exact h4 b hb
        · right
          refine ⟨b, i + 1, h3, by rw [h4]; congr 1; omega, firstAt_cons.mpr (Or.inr ⟨i, rfl, ?_, h5⟩)⟩
          rintro rfl
          exact hc h3

theorem strrchrLoop_spec {m : Mem} {s : Nat} {x : List Byte} {c : Int} {res : Option Nat} (h : Str m s x) :
    ∃ r, strrchrLoop m s c res = some r ∧
      ((r = res ∧ ∀ b, b ∈ x → b.toInt ≠ c) ∨ ∃ b i, b.toInt = c ∧ r = some (s + i) ∧ LastAt x b i) := by
  induction x generalizing s res with
  | nil =>
    refine ⟨res, ?_, Or.inl ⟨rfl, by simp⟩⟩
    rw [strrchrLoop, str_nil.mp h]; rfl
  | cons a x ih =>
    obtain ⟨ha, h1, h2⟩ := str_cons.mp h
    obtain ⟨r, hr, hx⟩ := ih (res := if a.toInt = c then some s else res) h2
    refine ⟨r, ?_, ?_⟩
    · rw [strrchrLoop, h1]
      simp only [Option.bind_eq_bind, Option.bind_some, if_pos ha]
      exact hr
    · rcases hx with ⟨h3, h4⟩ | ⟨b, i, h3, h4, h5⟩
      · by_cases hc : a.toInt = c
        · rw [if_pos hc] at h3
          refine Or.inr ⟨a, 0, hc, h3, rfl, ?_⟩
          intro hm
          exact h4 a (by simpa using hm) hc
        · rw [if_neg hc] at h3
          left
          refine ⟨h3, ?_⟩
          intro b hb
          rcases List.mem_cons.mp hb with hb | hb
          · rw [hb]; exact hc
          · exact h4 b hb
      · exact Or.inr ⟨b, i + 1, h3, by rw [h4]; congr 1; omega, by simpa using h5.1, by simpa using h5.2⟩

theorem scanLoop_eq {m : Mem} {p s1 : Nat} {a : Byte} {y : List Byte} (h : Str m p y) (ha : m s1 = some a) :
    scanLoop m p s1 = some (if a ∈ y then a else 0) := by
  induction y generalizing p with
  | nil => rw [scanLoop, str_nil.mp h]; rfl
  | cons b y ih =>
    obtain ⟨hb, h1, h2⟩ := str_cons.mp h
    rw [scanLoop, h1]
    simp only [Option.bind_eq_bind, Option.bind_some, if_pos hb, ha]
    by_cases hba : b = a
    · subst hba; simp
    · rw [if_pos hba, ih h2]
      have : a ≠ b := fun e => hba e.symm
      simp [this]

theorem pbrkInner_eq {m : Mem} {c1 c2 : Nat} {a : Byte} {y : List Byte} (h : Str m c2 y) (ha : m c1 = some a) :
    pbrkInner m c1 c2 = some (decide (a ∈ y)) := by
  induction y generalizing c2 with
  | nil => rw [pbrkInner, str_nil.mp h]; rfl
  | cons b y ih =>
    obtain ⟨hb, h1, h2⟩ := str_cons.mp h
    rw [pbrkInner, h1]
    simp only [Option.bind_eq_bind, Option.bind_some, if_pos hb, ha]
    by_cases hab : a = b
    · subst hab; simp
    · rw [if_neg hab, ih h2]
      simp [hab]

theorem spanLen_cons {b : Byte} {l : List Byte} {P : Byte → Prop} {n : Nat} (hb : P b) (h : SpanLen l P n) :
    SpanLen (b :: l) P (n + 1) := by
  obtain ⟨h1, h2, h3⟩ := h
  refine ⟨by simpa using h1, ?_, by simpa using h3⟩
  intro c hc
  rw [List.take_succ_cons] at hc
  rcases List.mem_cons.mp hc with hc | hc
  · rw [hc]; exact hb
  · exact h2 c hc

theorem spanLen_zero {b : Byte} {l : List Byte} {P : Byte → Prop} (hb : ¬P b) : SpanLen (b :: l) P 0 := by
  refine ⟨Nat.zero_le _, by simp, ?_⟩
  intro c hc
  simp at hc
  rw [← hc]; exact hb

theorem strspnLoop_spec {m : Mem} {s1 s2 n : Nat} {x y : List Byte} (h1 : Str m s1 x) (h2 : Str m s2 y) :
    ∃ k, strspnLoop m s1 s2 n = some (n + k) ∧ SpanLen x (· ∈ y) k := by
  induction x generalizing s1 n with
  | nil =>
    refine ⟨0, ?_, Nat.zero_le _, by simp, by simp⟩
    rw [strspnLoop, str_nil.mp h1]; rfl
  | cons a x ih =>
    obtain ⟨ha, h3, h4⟩ := str_cons.mp h1
    by_cases hm : a ∈ y
    · obtain ⟨k, hk, hs⟩ := ih (n := n + 1) h4
      refine ⟨k + 1, ?_, spanLen_cons hm hs⟩
      rw [strspnLoop, h3]
      simp only [Option.bind_eq_bind, Option.bind_some, if_pos ha, scanLoop_eq h2 h3, if_pos hm, if_neg ha]
      rw [hk]; congr 1; omega
    · refine ⟨0, ?_, spanLen_zero hm⟩
      rw [strspnLoop, h3]
      simp only [Option.bind_eq_bind, Option.bind_some, if_pos ha, scanLoop_eq h2 h3, if_neg hm]
      rfl

theorem strcspnLoop_spec {m : Mem} {s1 s2 n : Nat} {x y : List Byte} (h1 : Str m s1 x) (h2 : Str m s2 y) :
    ∃ k, strcspnLoop m s1 s2 n = some (n + k) ∧ SpanLen x (· ∉ y) k := by
  induction x generalizing s1 n with
  | nil =>
    refine ⟨0, ?_, Nat.zero_le _, by simp, by simp⟩
    rw [strcspnLoop, str_nil.mp h1]; rfl
  | cons a x ih =>
    obtain ⟨ha, h3, h4⟩ := str_cons.mp h1
    by_cases hm : a ∈ y
    · refine ⟨0, ?_, spanLen_zero (fun h => h hm)⟩
      rw [strcspnLoop, h3]
      simp only [Option.bind_eq_bind, Option.bind_some, if_pos ha, scanLoop_eq h2 h3, if_pos hm]
      rfl
    · obtain ⟨k, hk, hs⟩ := ih (n := n + 1) h4
      refine ⟨k + 1, ?_, spanLen_cons hm hs⟩
      rw [strcspnLoop, h3]
      simp only [Option.bind_eq_bind, Option.bind_some, if_pos ha, scanLoop_eq h2 h3, if_neg hm]
      rw [if_neg (fun h => h rfl), hk]; congr 1; omega

theorem strpbrk_spec {m : Mem} {s1 s2 : Nat} {x y : List Byte} (h1 : Str m s1 x) (h2 : Str m s2 y) :
    ∃ r, strpbrk m s1 s2 = some r ∧
      ((r = none ∧ ∀ b, b ∈ x → b ∉ y) ∨ ∃ i, r = some (s1 + i) ∧ FirstOf x y i) := by
  induction x generalizing s1 with
  | nil =>
    refine ⟨none, ?_, Or.inl ⟨rfl, by simp⟩⟩
    rw [strpbrk, str_nil.mp h1]; rfl
  | cons a x ih =>
    obtain ⟨ha, h3, h4⟩ := str_cons.mp h1
    by_cases hm : a ∈ y
    · refine ⟨some s1, ?_, Or.inr ⟨0, rfl, ⟨a, rfl, hm⟩, by simp⟩⟩
      rw [strpbrk, h3]
      simp only [Option.bind_eq_bind, Option.bind_some, if_pos ha, pbrkInner_eq h2 h3, decide_eq_true_eq, if_pos hm]
    · obtain ⟨r, hr, hx⟩ := ih h4
      refine ⟨r, ?_, ?_⟩
      · rw [strpbrk, h3]
        simp only [Option.bind_eq_bind, Option.bind_some, if_pos ha, pbrkInner_eq h2 h3, decide_eq_true_eq, if_neg hm]
        exact hr
      · rcases hx with ⟨h5, h6⟩ | ⟨i, h5, ⟨b, h6, h7⟩, h8⟩
        · left
          refine ⟨h5, ?_⟩
          intro b hb
          rcases List.mem_cons.mp hb with hb | hb
          · rw [hb]; exact hm
          · exact h6 b hb
        · right
          refine ⟨i + 1, by rw [h5]; congr 1; omega, ⟨b, by simpa using h6, h7⟩, ?_⟩
          intro c hc
          rw [List.take_succ_cons] at hc
          rcases List.mem_cons.mp hc with hc | hc
          · rw [hc]; exact hm
          · exact h8 c hc

theorem matchLoop_spec {m : Mem} {h n : Nat} {x y : List Byte} (h1 : Str m h x) (h2 : Str m n y) :
    ∃ n' b, matchLoop m h n = some n' ∧ m n' = some b ∧ (b = 0 ↔ y <+: x) := by
  induction x generalizing h n y with
  | nil =>
    have hstep : matchLoop m h n = some n := by
      rw [matchLoop, str_nil.mp h1]; rfl
    cases y with
    | nil => exact ⟨n, 0, hstep, str_nil.mp h2, by simp⟩
    | cons b y =>
      obtain ⟨hb, h3, _⟩ := str_cons.mp h2
      exact ⟨n, b, hstep, h3, ⟨fun e => absurd e hb, fun e => by simp at e⟩⟩
  | cons a x ih =>
    obtain ⟨ha, h3, h4⟩ := str_cons.mp h1
    cases y with
    | nil =>
      refine ⟨n, 0, ?_, str_nil.mp h2, by simp⟩
      rw [matchLoop, h3]
      simp only [Option.bind_eq_bind, Option.bind_some, if_pos ha, str_nil.mp h2]
      rfl
    | cons b y =>
      obtain ⟨hb, h5, h6⟩ := str_cons.mp h2
      by_cases hab : a = b
      · subst hab
        obtain ⟨n', c, h7, h8, h9⟩ := ih h4 h6
        refine ⟨n', c, ?_, h8, ?_⟩
        · rw [matchLoop, h3]
          simp only [Option.bind_eq_bind, Option.bind_some, h5, ne_eq, ha, not_false_eq_true, and_self, if_true]
          exact h7
        · rw [h9, List.cons_prefix_cons]; simp
      · refine ⟨n, b, ?_, h5, ?_⟩
        · rw [matchLoop, h3]
          simp only [Option.bind_eq_bind, Option.bind_some, if_pos ha, h5]
          rw [if_neg (fun e => hab e.2)]
        · rw [List.cons_prefix_cons]
          constructor
          · intro e; exact absurd e hb
          · intro e; exact absurd e.1.symm hab

theorem strstr_spec {m : Mem} {h n : Nat} {x y : List Byte} (h1 : Str m h x) (h2 : Str m n y) :
    ∃ r, strstr m h n = some r ∧
      ((r = none ∧ ∀ i, i < x.length → ¬y <+: x.drop i) ∨
        ∃ i, r = some (h + i) ∧ i < x.length ∧ y <+: x.drop i ∧ ∀ j, j < i → ¬y <+: x.drop j) := by
  induction x generalizing h with
  | nil =>
    refine ⟨none, ?_, Or.inl ⟨rfl, by simp⟩⟩
    rw [strstr, str_nil.mp h1]; rfl
  | cons a x ih =>
    obtain ⟨ha, h3, h4⟩ := str_cons.mp h1
    obtain ⟨n', b, h5, h6, h7⟩ := matchLoop_spec h1 h2
    by_cases hb : b = 0
    · refine ⟨some h, ?_, Or.inr ⟨0, rfl, by simp, by simpa using h7.mp hb, by simp⟩⟩
      rw [strstr, h3]
      simp only [Option.bind_eq_bind, Option.bind_some, if_pos ha, h5, h6, if_pos hb]
    · have hnp : ¬y <+: a :: x := fun e => hb (h7.mpr e)
      obtain ⟨r, hr, hx⟩ := ih h4
      refine ⟨r, ?_, ?_⟩
      · rw [strstr, h3]
        simp only [Option.bind_eq_bind, Option.bind_some, if_pos ha, h5, h6, if_neg hb]
        exact hr
      · rcases hx with ⟨h8, h9⟩ | ⟨i, h8, h9, h10, h11⟩
        · left
          refine ⟨h8, ?_⟩
          intro i hi
          cases i with
          | zero => simpa using hnp
          | succ i => simpa using h9 i (by simpa using hi)
        · right
          refine ⟨i + 1, by rw [h8]; congr 1; omega, by simpa using h9, by simpa using h10, ?_⟩
          intro j hj
          cases j with
          | zero => simpa using hnp
          | succ j => simpa using h11 j (by omega)

end Smack.CString
