import Verif.JsonDb.Spec
/-!
# Lemmas for C100
-/
namespace Smack.JsonDb

open Spec

abbrev digits : List Char := ['1', '2', '3', '4', '5', '6', '7', '8', '9']

theorem digit_iff (d : Char) : ('1' ≤ d ∧ d ≤ '9') ↔ d ∈ digits := by
  constructor
  · rintro ⟨h1, h2⟩
    have h1' : 49 ≤ d.toNat := h1
    have h2' : d.toNat ≤ 57 := h2
    have hd : d = Char.ofNat d.toNat := (Char.ofNat_toNat d).symm
    rw [hd]
    generalize d.toNat = n at h1' h2'
    have : n = 49 ∨ n = 50 ∨ n = 51 ∨ n = 52 ∨ n = 53 ∨ n = 54 ∨ n = 55 ∨ n = 56 ∨ n = 57 := by omega
    rcases this with rfl | rfl | rfl | rfl | rfl | rfl | rfl | rfl | rfl <;> decide
  · intro h
    revert d
    decide

/-- Nothing or a blank follows. -/
def Gap (t : Str) : Prop := t = [] ∨ ∃ r, t = ' ' :: r

theorem gap_boundary {t : Str} (h : Gap t) : boundary t = true := by
  rcases h with rfl | ⟨r, rfl⟩ <;> rfl

/-! ## Outputs -/

theorem objMatch_gap {t : Str} (h : Gap t) : objMatch t = none := by
  rcases h with rfl | ⟨r, rfl⟩ <;> rfl

theorem objHere_iff (s q : Str) : objHere s = some q ↔ s = '.' :: 'o' :: q ∧ boundary q = true := by
  unfold objHere
  split
  · rename_i r
    split
    · rename_i h
      constructor
      · intro e; cases e; exact ⟨rfl, h⟩
      · rintro ⟨e, _⟩; cases e; rfl
    · rename_i h
      constructor
      · intro e; cases e
      · rintro ⟨e, h'⟩; cases e; exact absurd h' h
  · rename_i h
    constructor
    · intro e; cases e
    · rintro ⟨e, _⟩; exact absurd e (h q)

theorem objMatch_object (p t : Str) (hp : ' ' ∉ p) (ht : Gap t) : objMatch (p ++ '.' :: 'o' :: t) = some (p, t) := by
  induction p with
  | nil =>
    have h0 : objHere ('o' :: t) = none := rfl
    have h1 : objMatch ('o' :: t) = none := by
      rw [objMatch, if_neg (by decide), objMatch_gap ht, h0]
      rfl
    rw [List.nil_append, objMatch, if_neg (by decide), h1, (objHere_iff ('.' :: 'o' :: t) t).mpr ⟨rfl, gap_boundary ht⟩]
    rfl
  | cons c p ih =>
    have hc : c ≠ ' ' := fun e => hp (by simp [e])
    rw [List.cons_append, objMatch, if_neg hc, ih fun h => hp (List.mem_cons_of_mem _ h)]

theorem objMatch_other (w t : Str) (hw : ¬ ['.', 'o'] <:+: w) (ht : Gap t) : objMatch (w ++ t) = none := by
  induction w with
  | nil => exact objMatch_gap ht
  | cons c w ih =>
    have h1 := ih fun h => hw (List.infix_cons h)
    have h2 : (if c = ' ' then none else objMatch (w ++ t)) = none := by split; rfl; exact h1
    have h3 : objHere (c :: (w ++ t)) = none := by
      rw [Option.eq_none_iff_forall_ne_some]
      intro q hq
      obtain ⟨e, _⟩ := (objHere_iff _ _).mp hq
      cases w with
      | nil =>
        rcases ht with rfl | ⟨r, rfl⟩ <;> simp at e
      | cons d w =>
        simp only [List.cons_append, List.cons.injEq] at e
        obtain ⟨rfl, rfl, _⟩ := e
        exact hw ⟨[], w, rfl⟩
    rw [List.cons_append, objMatch, h2, h3]
    rfl

theorem objMatch_length {s p q : Str} (h : objMatch s = some (p, q)) : q.length < s.length := by
  induction s generalizing p with
  | nil => cases h
  | cons c s ih =>
    rw [objMatch] at h
    split at h
    · rename_i p' q' h'
      cases h
      split at h'
      · cases h'
      · have := ih h'
        rw [List.length_cons]
        omega
    · obtain ⟨r, hr, e⟩ := Option.map_eq_some_iff.mp h
      cases e
      obtain ⟨e, _⟩ := (objHere_iff _ _).mp hr
      rw [e, List.length_cons, List.length_cons]
      omega

theorem outHere_iff (s p q : Str) : outHere s = some (p, q) ↔ ∃ r, s = '-' :: 'o' :: ' ' :: r ∧ objMatch r = some (p, q) := by
  unfold outHere
  split
  · rename_i r
    exact ⟨fun h => ⟨r, rfl, h⟩, fun ⟨r', e, h⟩ => by cases e; exact h⟩
  · rename_i h
    exact ⟨fun e => (by cases e), fun ⟨r, e, _⟩ => absurd e (h r)⟩

theorem outSub_fuel (n m : Nat) (s : Str) (hn : s.length ≤ n) (hm : s.length ≤ m) : outSub n s = outSub m s := by
  induction n generalizing m s with
  | zero =>
    have : s = [] := List.length_eq_zero_iff.mp (by omega)
    subst this
    cases m <;> rfl
  | succ n ih =>
    cases s with
    | nil => cases m <;> rfl
    | cons c s =>
      cases m with
      | zero => simp at hm
      | succ m =>
        rw [outSub, outSub]
        cases ho : outHere (c :: s) with
        | none =>
          rw [List.length_cons] at hn hm
          dsimp only
          rw [ih m s (by omega) (by omega)]
        | some x =>
          obtain ⟨p, q⟩ := x
          obtain ⟨r, e, hr⟩ := (outHere_iff _ _ _).mp ho
          have := objMatch_length hr
          rw [e] at hn hm
          simp only [List.length_cons] at hn hm
          dsimp only
          rw [ih m q (by omega) (by omega)]

/-- The first substitution. -/
def outS (s : Str) : Str := outSub s.length s

theorem outS_none (c : Char) (s : Str) (h : outHere (c :: s) = none) : outS (c :: s) = c :: outS s := by
  unfold outS
  rw [List.length_cons, outSub, h]

theorem outS_match (p q : Str) (s : Str) (h : objMatch s = some (p, q)) :
    outS ('-' :: 'o' :: ' ' :: s) = ['-', 'o', ' '] ++ p ++ ['.', 'b', 'c'] ++ outS q := by
  have hl := objMatch_length h
  have hq := outSub_fuel (s.length + 2) q.length q (by omega) (by omega)
  unfold outS
  rw [show ('-' :: 'o' :: ' ' :: s).length = (s.length + 2) + 1 from rfl, outSub, (outHere_iff _ _ _).mpr ⟨s, rfl, h⟩]
  dsimp only
  rw [hq]

theorem outHere_none {s : Str} (h : ∀ r, s ≠ '-' :: 'o' :: ' ' :: r) : outHere s = none := by
  rw [Option.eq_none_iff_forall_ne_some]
  rintro ⟨p, q⟩ e
  obtain ⟨r, e, _⟩ := (outHere_iff _ _ _).mp e
  exact h r e

theorem outS_word (w t : Str) (hb : ' ' ∉ w) (hw : ¬ ['-', 'o'] <:+ w) (ht : Gap t) : outS (w ++ t) = w ++ outS t := by
  induction w with
  | nil => rfl
  | cons c w ih =>
    have h1 : ¬ ['-', 'o'] <:+ w := fun h => hw (h.trans (List.suffix_cons c w))
    rw [List.cons_append, outS_none, ih (fun h => hb (List.mem_cons_of_mem _ h)) h1, List.cons_append]
    refine outHere_none fun r e => ?_
    cases w with
    | nil =>
      rcases ht with rfl | ⟨_, rfl⟩ <;> simp at e
    | cons d w =>
      cases w with
      | nil =>
        simp only [List.cons_append, List.cons.injEq] at e
        obtain ⟨rfl, rfl, _⟩ := e
        exact hw (List.suffix_refl _)
      | cons b w =>
        simp only [List.cons_append, List.cons.injEq] at e
        obtain ⟨rfl, rfl, rfl, _⟩ := e
        exact hb (by simp)

theorem outS_blank (t : Str) : outS (' ' :: t) = ' ' :: outS t := outS_none _ _ rfl

/-! ## Optimization levels -/

theorem optHere_iff (s r : Str) : optHere s = some r ↔ ∃ d, s = '-' :: 'O' :: d :: r ∧ d ∈ digits ∧ boundary r = true := by
  unfold optHere
  split
  · rename_i d r'
    split
    · rename_i h
      exact ⟨fun e => by cases e; exact ⟨d, rfl, (digit_iff d).mp h.1, h.2⟩, fun ⟨_, e, _⟩ => by cases e; rfl⟩
    · rename_i h
      exact ⟨fun e => (by cases e), fun ⟨_, e, h1, h2⟩ => by cases e; exact absurd ⟨(digit_iff d).mpr h1, h2⟩ h⟩
  · rename_i h
    exact ⟨fun e => (by cases e), fun ⟨d, e, _⟩ => absurd e (h d r)⟩

theorem optSub_fuel (n m : Nat) (s : Str) (hn : s.length ≤ n) (hm : s.length ≤ m) : optSub n s = optSub m s := by
  induction n generalizing m s with
  | zero =>
    have : s = [] := List.length_eq_zero_iff.mp (by omega)
    subst this
    cases m <;> rfl
  | succ n ih =>
    cases s with
    | nil => cases m <;> rfl
    | cons c s =>
      cases m with
      | zero => simp at hm
      | succ m =>
        rw [optSub, optSub]
        cases ho : optHere (c :: s) with
        | none =>
          rw [List.length_cons] at hn hm
          dsimp only
          rw [ih m s (by omega) (by omega)]
        | some r =>
          obtain ⟨d, e, _⟩ := (optHere_iff _ _).mp ho
          rw [e] at hn hm
          simp only [List.length_cons] at hn hm
          dsimp only
          rw [ih m r (by omega) (by omega)]

/-- The second substitution. -/
def optS (s : Str) : Str := optSub s.length s

theorem optS_other (c : Char) (s : Str) (h : ∀ d r, d ∈ digits → c :: s ≠ '-' :: 'O' :: d :: r) : optS (c :: s) = c :: optS s := by
  have hn : optHere (c :: s) = none := by
    rw [Option.eq_none_iff_forall_ne_some]
    intro r e
    obtain ⟨d, e, hd, _⟩ := (optHere_iff _ _).mp e
    exact h d r hd e
  unfold optS
  rw [List.length_cons, optSub, hn]

theorem optS_level (d : Char) (t : Str) (hd : d ∈ digits) (ht : Gap t) : optS ('-' :: 'O' :: d :: t) = ['-', 'O', '0'] ++ optS t := by
  unfold optS
  rw [show ('-' :: 'O' :: d :: t).length = (t.length + 2) + 1 from rfl, optSub, (optHere_iff _ t).mpr ⟨d, rfl, hd, gap_boundary ht⟩]
  dsimp only
  rw [optSub_fuel (t.length + 2) t.length t (by omega) (by omega)]

/-- No optimization levels. -/
def NoLevel (w : Str) : Prop := ∀ d ∈ digits, ¬ ['-', 'O', d] <:+: w

theorem optS_word (w t : Str) (hw : NoLevel w) (ht : t = [] ∨ ∃ c r, t = c :: r ∧ (c = ' ' ∨ c = '.')) : optS (w ++ t) = w ++ optS t := by
  induction w with
  | nil => rfl
  | cons c w ih =>
    rw [List.cons_append, optS_other, ih fun d hd h => hw d hd (List.infix_cons h), List.cons_append]
    intro d r hd e
    cases w with
    | nil =>
      rcases ht with rfl | ⟨x, y, rfl, hx⟩
      · simp at e
      · simp only [List.nil_append, List.cons.injEq] at e
        obtain ⟨_, rfl, _⟩ := e
        rcases hx with hx | hx <;> exact absurd hx (by decide)
    | cons c2 w =>
      cases w with
      | nil =>
        rcases ht with rfl | ⟨x, y, rfl, hx⟩
        · simp at e
        · simp only [List.cons_append, List.nil_append, List.cons.injEq] at e
          obtain ⟨_, _, rfl, _⟩ := e
          rcases hx with rfl | rfl <;> exact absurd hd (by decide)
      | cons c3 w =>
        simp only [List.cons_append, List.cons.injEq] at e
        obtain ⟨rfl, rfl, rfl, _⟩ := e
        exact hw _ hd ⟨[], w, rfl⟩

theorem gap_dot {t : Str} (h : Gap t) : t = [] ∨ ∃ c r, t = c :: r ∧ (c = ' ' ∨ c = '.') := by
  rcases h with rfl | ⟨r, rfl⟩
  · exact Or.inl rfl
  · exact Or.inr ⟨' ', r, rfl, Or.inl rfl⟩

theorem level_eq (w : Str) : (∃ d ∈ digits, w = ['-', 'O', d] ∧ level w = ['-', 'O', '0']) ∨ ((∀ d ∈ digits, w ≠ ['-', 'O', d]) ∧ level w = w) := by
  unfold level
  by_cases h : ∃ d, d ∈ digits ∧ w = ['-', 'O', d]
  · rw [if_pos h]
    obtain ⟨d, hd, e⟩ := h
    exact Or.inl ⟨d, hd, e, rfl⟩
  · rw [if_neg h]
    exact Or.inr ⟨fun d hd e => h ⟨d, hd, e⟩, rfl⟩

theorem optS_flag (w t : Str) (hw : FlagOk w) (ht : Gap t) : optS (w ++ t) = level w ++ optS t := by
  rcases level_eq w with ⟨d, hd, rfl, e⟩ | ⟨h, e⟩
  · rw [e]
    exact optS_level d t hd ht
  · rw [e]
    exact optS_word w t (fun d hd hi => h d hd (hw.2 d hd hi)) (gap_dot ht)

/-! ## Words -/

theorem split_word (w : Str) (hw : WordOk w) (r : Str) : split (w ++ ' ' :: r) = w :: split r := by
  obtain ⟨h1, h2⟩ := hw
  induction w with
  | nil => exact absurd rfl h1
  | cons c w ih =>
    have hc : c ≠ ' ' := fun e => h2 (by simp [e])
    cases w with
    | nil =>
      show split (c :: ' ' :: r) = _
      rw [split.eq_def]
      simp [hc, split]
    | cons d w =>
      have hd : d ≠ ' ' := fun e => h2 (by simp [e])
      rw [List.cons_append, split.eq_def]
      simp only [if_neg hc, List.cons_append, if_neg hd]
      rw [← List.cons_append, ih (by simp) fun h => h2 (List.mem_cons_of_mem _ h)]

theorem split_last (w : Str) (hw : WordOk w) : split w = [w] := by
  obtain ⟨h1, h2⟩ := hw
  induction w with
  | nil => exact absurd rfl h1
  | cons c w ih =>
    have hc : c ≠ ' ' := fun e => h2 (by simp [e])
    cases w with
    | nil => simp [split, hc]
    | cons d w =>
      have hd : d ≠ ' ' := fun e => h2 (by simp [e])
      rw [split.eq_def]
      simp only [if_neg hc, if_neg hd]
      rw [ih (by simp) fun h => h2 (List.mem_cons_of_mem _ h)]

end Smack.JsonDb
