import Verif.CAlloc.Model

/-
C55: calloc and realloc.
-/

namespace Smack.CAlloc

open Smack.Alloc Smack.MemIntr

/-- All bytes of `[p, p+n)` are zero, and nothing else has changed. -/
def Zeroed (m m' : Int → Int) (p : Int) (n : Nat) : Prop :=
  (∀ x, p ≤ x → x < p + n → m' x = 0) ∧ ∀ x, x < p ∨ p + n ≤ x → m' x = m x

/-- The first `k` bytes at `p'` are those that were at `p`. -/
def Kept (m m' : Int → Int) (p p' : Int) (k : Nat) : Prop := ∀ i : Nat, i < k → m' (p' + i) = m (p + i)

theorem memset_zeroed {m m' : Int → Int} {p : Int} {n : Nat} (h : memsetPost intRef none m p 0 (n : Int) m') :
    Zeroed m m' p n := by
  have hlen : ¬length none ≤ threshold := by decide
  rw [memsetPost, if_neg hlen] at h
  obtain ⟨h1, h2, h3⟩ := h
  constructor
  · intro x hx1 hx2
    refine h1 x ?_
    simp only [intRef, Bool.and_eq_true, decide_eq_true_eq]
    exact ⟨hx1, hx2⟩
  · intro x hx
    rcases hx with hx | hx
    · exact h2 x (by simp only [intRef, decide_eq_true_eq]; exact hx)
    · exact h3 x (by simp only [intRef, decide_eq_true_eq]; exact hx)

/-- C55, calloc with integers (in every memory model, with or without memory safety): the result is null and nothing has
changed, or it is a block from malloc of `num * size` bytes, all of them zero, and no other byte has changed. -/
theorem c55_calloc_int_partial (c : Cfg) (I : Interp) (num size : Nat) (ret : Int) (h h' : HSt)
    (hc : calloc c I false num size ret h h') :
    (ret = 0 ∧ h' = h) ∨ (mallocRel c I ((num * size : Nat) : Int) ret h.st h'.st ∧ Zeroed h.mem h'.mem ret (num * size)) := by
  rcases hc with hc | ⟨h1, h2⟩
  · exact Or.inl hc
  · exact Or.inr ⟨h1, memset_zeroed h2⟩

/-- C55, calloc with bit-vectors if the product does not overflow. Missing: overflow (`c55_calloc_overflow_fails`). -/
theorem c55_calloc_bv_partial (c : Cfg) (I : Interp) (num size : Nat) (ret : Int) (h h' : HSt) (hov : num * size < 2 ^ 64)
    (hc : calloc c I true num size ret h h') :
    (ret = 0 ∧ h' = h) ∨ (mallocRel c I ((num * size : Nat) : Int) ret h.st h'.st ∧ Zeroed h.mem h'.mem ret (num * size)) := by
  have hp : product true num size = num * size := by
    rw [product, if_pos rfl]; exact Nat.mod_eq_of_lt hov
  rcases hc with hc | ⟨h1, h2⟩
  · exact Or.inl hc
  · rw [hp] at h1 h2
    exact Or.inr ⟨h1, memset_zeroed h2⟩

/-- An interpretation and a state for the examples: one block of 4 bytes at 1024, the next free address is 1028. -/
def exI : Interp := { base := fun q => if q < 1028 then 1024 else 1028, size := fun _ => 4, top := 2 ^ 40 }
def exSt (mem : Int → Int) : HSt :=
  { st := { alloc := fun q => q == 1024, size := fun _ => 4, curr := 1028, counter := 1 }, mem := mem }

/-- A call of calloc(1, 4) that returns a block. -/
example : calloc ⟨.impls, false⟩ exI false 1 4 1028 (exSt (fun _ => 7))
    { st := { (exSt (fun _ => 7)).st with curr := 1032 }, mem := fun x => if 1028 ≤ x ∧ x < 1032 then 0 else 7 } := by
  refine Or.inr ⟨?_, ?_⟩
  · show allocImpls exI 4 1028 _ _
    refine ⟨by decide, ?_⟩
    rw [if_pos (by decide)]
    exact ⟨rfl, by decide, by decide, rfl, rfl, rfl⟩
  · have hlen : ¬length none ≤ threshold := by decide
    rw [memsetPost, if_neg hlen]
    refine ⟨?_, ?_, ?_⟩
    · intro x hx
      simp only [intRef, Bool.and_eq_true, decide_eq_true_eq, product] at hx
      show (if 1028 ≤ x ∧ x < 1032 then (0 : Int) else 7) = 0
      rw [if_pos ⟨hx.1, hx.2⟩]
    · intro x hx
      simp only [intRef, decide_eq_true_eq] at hx
      show (if 1028 ≤ x ∧ x < 1032 then (0 : Int) else 7) = 7
      rw [if_neg (by omega)]
    · intro x hx
      simp only [intRef, decide_eq_true_eq, product] at hx
      have hx : (1028 : Int) + 4 ≤ x := hx
      show (if 1028 ≤ x ∧ x < 1032 then (0 : Int) else 7) = 7
      rw [if_neg (by omega)]

/-- C55 fails for calloc with bit-vectors when the product overflows: whatever happens, the block is one of
`num * size mod 2^64` bytes, fewer than requested, instead of null. -/
theorem c55_calloc_overflow_fails (c : Cfg) (I : Interp) (num size : Nat) (ret : Int) (h h' : HSt)
    (hov : 2 ^ 64 ≤ num * size) (hc : calloc c I true num size ret h h') :
    (ret = 0 ∧ h' = h) ∨ ∃ n : Nat, n < num * size ∧ mallocRel c I (n : Int) ret h.st h'.st := by
  rcases hc with hc | ⟨h1, h2⟩
  · exact Or.inl hc
  · refine Or.inr ⟨product true num size, ?_, h1⟩
    have : product true num size = num * size % 2 ^ 64 := by rw [product, if_pos rfl]
    rw [this]
    have := Nat.mod_lt (num * size) (show 0 < 2 ^ 64 by decide)
    omega

/-- calloc(2^32, 2^32 + 1) can return a block of 2^32 bytes. -/
example : product true (2 ^ 32) (2 ^ 32 + 1) = 2 ^ 32 := by decide

/-- C55, realloc: it frees the old block and returns a block from malloc of the requested size. Missing: the contents, which
are not copied (`c55_realloc_fails`). -/
theorem c55_realloc_partial (c : Cfg) (I : Interp) (ptr : Int) (size : Nat) (ret : Int) (h h' : HSt)
    (hr : realloc c I ptr size ret h h') :
    freeOk c I h.st ptr ∧ (∃ s1, freeRel c ptr h.st s1 ∧ mallocRel c I size ret s1 h'.st) ∧ ∀ x, h'.mem x = h.mem x := by
  obtain ⟨h1, s1, h2, h3, h4⟩ := hr
  exact ⟨h1, ⟨s1, h2, h3⟩, fun x => by rw [h4]⟩

/-- The contents are kept only if the new place happens to hold the same bytes. -/
theorem c55_realloc_contents (c : Cfg) (I : Interp) (ptr : Int) (size old : Nat) (ret : Int) (h h' : HSt)
    (hr : realloc c I ptr size ret h h') :
    Kept h.mem h'.mem ptr ret (min old size) ↔ ∀ i : Nat, i < min old size → h.mem (ret + i) = h.mem (ptr + i) := by
  obtain ⟨_, s1, _, _, h4⟩ := hr
  rw [Kept, h4]

/-- C55 fails for realloc in every memory model, with and without memory safety: a block of 4 bytes `v` is replaced by a
block of 4 bytes with other contents. -/
theorem c55_realloc_fails (c : Cfg) (v w : Int) (hvw : v ≠ w) :
    ∃ I h h' ret, realloc c I 1024 4 ret h h' ∧ (∀ i : Nat, i < 4 → h.mem (1024 + i) = v) ∧
      (∀ i : Nat, i < 4 → h'.mem (ret + i) = w) ∧ ¬Kept h.mem h'.mem 1024 ret 4 := by
  obtain ⟨mem, hm1, hm2⟩ : ∃ mem : Int → Int, (∀ i : Nat, i < 4 → mem (1024 + i) = v) ∧ ∀ i : Nat, i < 4 → mem (1040 + i) = w := by
    refine ⟨fun x => if x < 1028 then v else w, fun i hi => ?_, fun i hi => ?_⟩
    · show (if (1024 + i : Int) < 1028 then v else w) = v
      rw [if_pos (by omega)]
    · show (if (1040 + i : Int) < 1028 then v else w) = w
      rw [if_neg (by omega)]
  let I : Interp := { base := fun q => if q < 1040 then 1024 else 1040, size := fun _ => 4, top := 2 ^ 40 }
  let s : St := { alloc := fun q => q == 1024, size := fun _ => 4, curr := 1040, counter := 1 }
  let sF : St := { alloc := fun _ => false, size := fun _ => 4, curr := 1040, counter := 0 }
  let sM : St := { alloc := fun q => q == 1040, size := fun _ => 4, curr := 1044, counter := 1 }
  have key : ∀ (s1 s2 : St), freeOk c I s 1024 → freeRel c 1024 s s1 → mallocRel c I ((4 : Nat) : Int) 1040 s1 s2 →
      ∃ I h h' ret, realloc c I 1024 4 ret h h' ∧ (∀ i : Nat, i < 4 → h.mem (1024 + i) = v) ∧
      (∀ i : Nat, i < 4 → h'.mem (ret + i) = w) ∧ ¬Kept h.mem h'.mem 1024 ret 4 := by
    intro s1 s2 h1 h2 h3
    refine ⟨I, ⟨s, mem⟩, ⟨s2, mem⟩, 1040, ⟨h1, s1, h2, h3, rfl⟩, hm1, hm2, ?_⟩
    intro hk
    have := hk 0 (by decide)
    have e1 := hm1 0 (by decide)
    have e2 := hm2 0 (by decide)
    exact hvw (by rw [← e1, ← e2]; exact this.symm)
  have hbase : ∀ q, inRange 1040 4 q → I.base q = 1040 := by
    rintro q ⟨h1, h2⟩
    show (if q < 1040 then (1024 : Int) else 1040) = 1040
    rw [if_neg (by omega)]
  have hne : ∀ q : Int, q ≠ 1024 → (q == 1024) = false := fun q hq => by simpa using hq
  have hne2 : ∀ q : Int, q ≠ 1040 → (q == 1040) = false := fun q hq => by simpa using hq
  obtain ⟨model, safety⟩ := c
  cases model <;> cases safety
  · -- impls, no memory safety
    refine key s { s with curr := 1044 } trivial rfl ?_
    show allocImpls I 4 1040 _ _
    refine ⟨by decide, ?_⟩
    rw [if_pos (by decide)]
    exact ⟨rfl, by decide, by decide, rfl, rfl, rfl⟩
  · -- impls, memory safety
    refine key { s with alloc := fun q => if q = 1024 then false else q == 1024, counter := 0 }
      { s with alloc := fun q => if q = 1040 then true else if q = 1024 then false else q == 1024, counter := 1, curr := 1044 }
      (fun _ => ⟨rfl, rfl, by decide⟩) ?_ ?_
    · simp only [freeRel]
      rw [if_pos (by decide)]
      rfl
    · show allocImplsSafe I 4 1040 _ _
      refine ⟨by decide, ?_⟩
      rw [if_pos (by decide)]
      exact ⟨rfl, by decide, by decide, rfl, hbase, rfl, rfl, rfl⟩
  · -- reuse, no memory safety
    refine key { sF with counter := 1 } { sM with curr := 1040 } trivial
      ⟨rfl, fun q hq => (hne q hq).symm, rfl, rfl, rfl⟩ ?_
    show allocReuse I 4 1040 _ _
    exact ⟨by decide, fun _ => by decide, nofun, rfl, nofun, rfl, rfl, fun _ _ => rfl, fun q hq => hne2 q hq, rfl, rfl⟩
  · -- reuse, memory safety
    refine key sF { sM with curr := 1040 } (Or.inr ⟨by decide, rfl, rfl⟩)
      ⟨fun _ => rfl, fun _ q hq => (hne q hq).symm, fun _ => rfl, nofun, rfl, rfl⟩ ?_
    show allocReuseSafe I 4 1040 _ _
    exact ⟨by decide, fun _ => by decide, nofun, rfl, nofun, rfl, rfl, fun _ _ => rfl, fun q hq => hne2 q hq, hbase, rfl, rfl⟩
  · -- no reuse, no memory safety
    refine key s { s with curr := 1044 } trivial rfl ?_
    show allocNoReuse I 4 1040 _ _
    exact ⟨by decide, fun _ => ⟨by decide, rfl⟩, by decide, nofun, rfl, rfl, rfl⟩
  · -- no reuse, memory safety
    refine key sF sM (Or.inr ⟨by decide, rfl, rfl⟩)
      ⟨fun _ => rfl, fun _ q hq => (hne q hq).symm, fun _ => rfl, nofun, rfl, rfl⟩ ?_
    show allocNoReuseSafe I 4 1040 _ _
    exact ⟨by decide, fun _ => ⟨by decide, rfl⟩, by decide, fun _ => rfl, fun _ => hbase, fun _ => rfl, nofun, nofun,
      fun q hq => hne2 q hq, rfl, rfl⟩

end Smack.CAlloc
