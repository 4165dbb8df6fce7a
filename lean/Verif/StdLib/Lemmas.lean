import Verif.StdLib.Spec
import Verif.CString.Props

namespace Smack.StdLib

open CString (Mem Byte wr strlen strspn strpbrk Str Apart SpanLen FirstOf Bytes)
open Spec

theorem delim_append_left {D a b : List Byte} {i : Nat} (h : i < a.length) : Delim D (a ++ b) i ↔ Delim D a i := by
  unfold Delim; rw [List.getElem?_append_left h]

theorem delim_append_right {D a b : List Byte} {i : Nat} : Delim D (a ++ b) (a.length + i) ↔ Delim D b i := by
  unfold Delim; rw [List.getElem?_append_right (Nat.le_add_right _ _), Nat.add_sub_cancel_left]

theorem delim_all {D a : List Byte} (h : ∀ b ∈ a, b ∈ D) {i : Nat} (hi : i < a.length) : Delim D a i :=
  ⟨a[i], List.getElem?_eq_getElem hi, h _ (List.getElem_mem hi)⟩

theorem delim_none {D a : List Byte} (h : ∀ b ∈ a, b ∉ D) (i : Nat) : ¬ Delim D a i := by
  rintro ⟨b, hb, hd⟩
  exact h b (List.mem_of_getElem? hb) hd

/-- A string of delimiters has no tokens. -/
theorem tokens_all {D x : List Byte} (h : ∀ b ∈ x, b ∈ D) : Tokens D x [] := by
  refine ⟨?_, .nil⟩
  intro i n
  constructor
  · intro h; cases h
  · intro ht
    have := ht.within
    have := ht.pos
    exact absurd (delim_all h (by omega)) (ht.free i (Nat.le_refl _) (by omega))

/-- What is known about the positions of `pre ++ t ++ r`. -/
theorem isTok_head {D pre t r : List Byte} (hp : ∀ b ∈ pre, b ∈ D) (ht : ∀ b ∈ t, b ∉ D) (hne : t ≠ [])
    (hr : r = [] ∨ ∃ c r', r = c :: r' ∧ c ∈ D) : IsTok D (pre ++ (t ++ r)) pre.length t.length := by
  have hl : 0 < t.length := List.length_pos_iff.2 hne
  refine ⟨hl, by simp only [List.length_append]; omega, ?_, ?_, ?_⟩
  · intro j h1 h2
    obtain ⟨k, rfl⟩ : ∃ k, j = pre.length + k := ⟨j - pre.length, by omega⟩
    rw [delim_append_right, delim_append_left (by omega)]
    exact delim_none ht k
  · intro j hj
    rw [delim_append_left (by omega)]
    exact delim_all hp (by omega)
  · intro h
    rw [delim_append_right, show t.length = t.length + 0 from rfl, delim_append_right]
    rcases hr with rfl | ⟨c, r', rfl, hc⟩
    · simp at h
    · exact ⟨c, rfl, hc⟩

/-- A token that starts in the first token or before is the first token. -/
theorem isTok_first {D pre t r : List Byte} (hp : ∀ b ∈ pre, b ∈ D) (ht : ∀ b ∈ t, b ∉ D)
    (hr : r = [] ∨ ∃ c r', r = c :: r' ∧ c ∈ D) {i n : Nat} (h : IsTok D (pre ++ (t ++ r)) i n) (hi : i < pre.length + t.length) :
    i = pre.length ∧ n = t.length := by
  have hn := h.pos
  have h1 : pre.length ≤ i := by
    rcases Nat.lt_or_ge i pre.length with hlt | hge
    · exact absurd ((delim_append_left hlt).2 (delim_all hp hlt)) (h.free i (Nat.le_refl _) (by omega))
    · exact hge
  have h2 : i = pre.length := by
    rcases Nat.lt_or_ge pre.length i with hlt | hge
    · exfalso
      have := h.before (i - 1) (by omega)
      obtain ⟨k, hk⟩ : ∃ k, i - 1 = pre.length + k := ⟨i - 1 - pre.length, by omega⟩
      rw [hk, delim_append_right, delim_append_left (by omega)] at this
      exact delim_none ht k this
    · omega
  refine ⟨h2, ?_⟩
  subst h2
  rcases Nat.lt_trichotomy n t.length with hlt | heq | hgt
  · exfalso
    have := h.after (by simp only [List.length_append]; omega)
    rw [delim_append_right, delim_append_left hlt] at this
    exact delim_none ht n this
  · exact heq
  · exfalso
    have hw := h.within
    rcases hr with rfl | ⟨c, r', rfl, hc⟩
    · simp only [List.length_append, List.length_nil] at hw; omega
    · have := h.free (pre.length + t.length) (by omega) (by omega)
      rw [delim_append_right, show t.length = t.length + 0 from rfl, delim_append_right] at this
      exact this ⟨c, rfl, hc⟩

theorem tokens_last {D pre t : List Byte} (hp : ∀ b ∈ pre, b ∈ D) (ht : ∀ b ∈ t, b ∉ D) (hne : t ≠ []) :
    Tokens D (pre ++ t) [(pre.length, t.length)] := by
  have hx : pre ++ t = pre ++ (t ++ []) := by simp
  rw [hx]
  refine ⟨?_, by simp⟩
  intro i n
  constructor
  · intro h
    cases List.mem_singleton.1 h
    exact isTok_head hp ht hne (.inl rfl)
  · intro h
    have hw := h.within
    have hn := h.pos
    simp only [List.length_append, List.length_nil] at hw
    obtain ⟨rfl, rfl⟩ := isTok_first hp ht (.inl rfl) h (by omega)
    exact List.mem_singleton.2 rfl

theorem isTok_shift {D a b : List Byte} {c : Byte} (hc : c ∈ D) {i n : Nat} :
    IsTok D (a ++ (c :: b)) (a.length + 1 + i) n ↔ IsTok D b i n := by
  have e : ∀ j, Delim D (a ++ (c :: b)) (a.length + 1 + j) ↔ Delim D b j := by
    intro j
    rw [show a.length + 1 + j = a.length + ([c].length + j) by simp; omega, delim_append_right]
    exact delim_append_right (a := [c])
  have e0 : Delim D (a ++ (c :: b)) a.length := by
    rw [show a.length = a.length + 0 from rfl, delim_append_right]
    exact ⟨c, rfl, hc⟩
  have el : (a ++ (c :: b)).length = a.length + 1 + b.length := by simp only [List.length_append, List.length_cons]; omega
  constructor
  · rintro ⟨h1, h2, h3, h4, h5⟩
    refine ⟨h1, by omega, ?_, ?_, ?_⟩
    · intro j hj1 hj2
      rw [← e]
      exact h3 _ (by omega) (by omega)
    · intro j hj
      rw [← e]
      exact h4 _ (by omega)
    · intro h
      rw [← e, ← Nat.add_assoc]
      exact h5 (by omega)
  · rintro ⟨h1, h2, h3, h4, h5⟩
    refine ⟨h1, by omega, ?_, ?_, ?_⟩
    · intro j hj1 hj2
      obtain ⟨k, rfl⟩ : ∃ k, j = a.length + 1 + k := ⟨j - (a.length + 1), by omega⟩
      rw [e]
      exact h3 k (by omega) (by omega)
    · intro j hj
      rcases Nat.eq_zero_or_pos i with rfl | hi
      · rw [show j = a.length by omega]; exact e0
      · obtain ⟨k, rfl⟩ : ∃ k, j = a.length + 1 + k := ⟨j - (a.length + 1), by omega⟩
        rw [e]
        exact h4 k (by omega)
    · intro h
      rw [Nat.add_assoc, e]
      exact h5 (by omega)

def shift (k : Nat) (ts : List (Nat × Nat)) : List (Nat × Nat) := ts.map fun t => (k + t.1, t.2)

theorem tokens_more {D pre t rest : List Byte} {c : Byte} {ts : List (Nat × Nat)} (hp : ∀ b ∈ pre, b ∈ D) (ht : ∀ b ∈ t, b ∉ D)
    (hne : t ≠ []) (hc : c ∈ D) (h : Tokens D rest ts) :
    Tokens D (pre ++ (t ++ c :: rest)) ((pre.length, t.length) :: shift (pre.length + t.length + 1) ts) := by
  have hr : (c :: rest) = [] ∨ ∃ c' r', c :: rest = c' :: r' ∧ c' ∈ D := .inr ⟨c, rest, rfl, hc⟩
  have hlen : (pre ++ t).length = pre.length + t.length := List.length_append
  have hsh : ∀ i n, IsTok D (pre ++ (t ++ c :: rest)) (pre.length + t.length + 1 + i) n ↔ IsTok D rest i n := by
    intro i n
    rw [← List.append_assoc, ← hlen]
    exact isTok_shift hc
  constructor
  · intro i n
    rw [List.mem_cons]
    constructor
    · rintro (h' | h')
      · cases h'
        exact isTok_head hp ht hne hr
      · obtain ⟨⟨j, k⟩, hj, e⟩ := List.mem_map.1 h'
        cases e
        exact (hsh j k).2 ((h.mem j k).1 hj)
    · intro hi
      rcases Nat.lt_or_ge i (pre.length + t.length) with hlt | hge
      · obtain ⟨rfl, rfl⟩ := isTok_first hp ht hr hi hlt
        exact .inl rfl
      · right
        have hne' : i ≠ pre.length + t.length := by
          rintro rfl
          refine hi.free _ (Nat.le_refl _) (by have := hi.pos; omega) ?_
          rw [delim_append_right, show t.length = t.length + 0 from rfl, delim_append_right]
          exact ⟨c, rfl, hc⟩
        obtain ⟨k, rfl⟩ : ∃ k, i = pre.length + t.length + 1 + k := ⟨i - (pre.length + t.length + 1), by omega⟩
        exact List.mem_map.2 ⟨(k, n), (h.mem k n).2 ((hsh k n).1 hi), rfl⟩
  · refine List.pairwise_cons.2 ⟨?_, ?_⟩
    · intro b hb
      obtain ⟨t', _, rfl⟩ := List.mem_map.1 hb
      show pre.length < _
      dsimp only
      omega
    · unfold shift
      rw [List.pairwise_map]
      refine h.sorted.imp ?_
      intro a b hab
      dsimp only
      omega

/-- The ways a string can begin. -/
theorem split_string (D x : List Byte) : (∀ b ∈ x, b ∈ D) ∨
    ∃ pre t r, x = pre ++ (t ++ r) ∧ (∀ b ∈ pre, b ∈ D) ∧ (∀ b ∈ t, b ∉ D) ∧ t ≠ [] ∧ (r = [] ∨ ∃ c r', r = c :: r' ∧ c ∈ D) := by
  have key : ∀ y : List Byte, ∃ t r, y = t ++ r ∧ (∀ b ∈ t, b ∉ D) ∧ (r = [] ∨ ∃ c r', r = c :: r' ∧ c ∈ D) := by
    intro y
    induction y with
    | nil => exact ⟨[], [], rfl, by simp, .inl rfl⟩
    | cons b y ih =>
      by_cases hb : b ∈ D
      · exact ⟨[], b :: y, rfl, by simp, .inr ⟨b, y, rfl, hb⟩⟩
      · obtain ⟨t, r, rfl, h1, h2⟩ := ih
        refine ⟨b :: t, r, rfl, ?_, h2⟩
        intro c hc
        rcases List.mem_cons.1 hc with rfl | hc
        · exact hb
        · exact h1 c hc
  induction x with
  | nil => exact .inl (by simp)
  | cons b x ih =>
    by_cases hb : b ∈ D
    · rcases ih with h | ⟨pre, t, r, rfl, h1, h2⟩
      · left
        intro c hc
        rcases List.mem_cons.1 hc with rfl | hc
        · exact hb
        · exact h c hc
      · right
        refine ⟨b :: pre, t, r, rfl, ?_, h2⟩
        intro c hc
        rcases List.mem_cons.1 hc with rfl | hc
        · exact hb
        · exact h1 c hc
    · right
      obtain ⟨t, r, e, h1, h2⟩ := key (b :: x)
      refine ⟨[], t, r, by rw [e]; rfl, by simp, h1, ?_, h2⟩
      rintro rfl
      rcases h2 with rfl | ⟨c, r', rfl, hc⟩
      · cases e
      · cases e
        exact hb hc

theorem spanLen_unique {x : List Byte} {P : Byte → Prop} {n k : Nat} (h1 : SpanLen x P n) (h2 : SpanLen x P k) : n = k := by
  have key : ∀ {n k : Nat}, SpanLen x P n → SpanLen x P k → ¬ n < k := by
    intro n k h1 h2 hlt
    have hk := h2.1
    have hx : x[n]? = some x[n] := List.getElem?_eq_getElem (by omega)
    refine h1.2.2 _ hx (h2.2.1 _ (List.mem_of_getElem? (i := n) ?_))
    rw [List.getElem?_take, if_pos hlt, hx]
  have := key h1 h2
  have := key h2 h1
  omega

theorem spanLen_prefix {pre r : List Byte} {P : Byte → Prop} (h : ∀ b ∈ pre, P b) (hr : ∀ c, r.head? = some c → ¬ P c) :
    SpanLen (pre ++ r) P pre.length := by
  refine ⟨by simp, ?_, ?_⟩
  · intro b hb
    rw [List.take_left'  rfl] at hb
    exact h b hb
  · intro b hb
    rw [List.getElem?_append_right (Nat.le_refl _), Nat.sub_self] at hb
    exact hr b (by rw [List.head?_eq_getElem?]; exact hb)

theorem str_drop {m : Mem} {p : Nat} {a b : List Byte} (h : Str m p (a ++ b)) : Str m (p + a.length) b := by
  refine ⟨?_, fun hb => h.nonzero (List.mem_append_right _ hb)⟩
  have := h.bytes
  rw [List.append_assoc] at this
  exact (CString.bytes_append.1 this).2

end Smack.StdLib
