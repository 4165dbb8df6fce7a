/-
What the driver makes of one report.
-/
import Verif.Witness.Lemmas

namespace Smack.Witness

open Smack.Driver Smack.Witness.Spec

variable {fp : List Char → Option (Nat × List Char)}

theorem numeral_tight {d : List Char} (h : Numeral d) : Tight d :=
  tight_of h.1 fun c hc => by
    have hd := h.2 c hc
    cases hw : isWs c with
    | false => rfl
    | true => exact absurd hd (by
        have := (isWs_iff c).1 hw
        simp only [Blank, List.mem_cons, List.not_mem_nil, or_false] at this
        rcases this with rfl | rfl | rfl | rfl | rfl | rfl | rfl | rfl | rfl | rfl <;> decide)

theorem name_ws {x : List Char} (h : Name x) : ∀ c ∈ x, isWs c = false := fun c hc => blank_ws (h.blank c hc)

theorem name_tight {x : List Char} (h : Name x) : Tight x := tight_of h.ne (name_ws h)

theorem name_space {x : List Char} (h : Name x) : ' ' ∉ x := fun hm => h.blank ' ' hm (by unfold Blank; decide)

theorem value_tight {v : Value} (h : v.Wf) : Tight v.text := by
  cases v with
  | int n d =>
    cases n with
    | false => exact numeral_tight h
    | true =>
      obtain ⟨_, s, c, h2, h3⟩ := numeral_tight h
      exact ⟨⟨'-', d, rfl, by decide⟩, '-' :: s, c, by simp [Value.text, h2], h3⟩
  | bv d w => exact tight_append (numeral_tight h.1) _ (numeral_tight h.2)

theorem value_c_tight {v : Value} (h : v.Wf) : Tight v.c := by
  cases v with
  | int n d => exact value_tight (v := .int n d) h
  | bv d w =>
    have := tight_append (b := ['L']) (numeral_tight h.1) ['U'] ⟨⟨'L', [], rfl, by decide⟩, [], 'L', rfl, by decide⟩
    simpa [Value.c] using this

/-- The characters of values. -/
def vch (c : Char) : Bool := isDig c || c == '-' || c == 'b' || c == 'v' || c == 'U' || c == 'L'

theorem value_chars {v : Value} (h : v.Wf) : (∀ c ∈ v.text, vch c = true) ∧ ∀ c ∈ v.c, vch c = true := by
  have hn : ∀ {d : List Char}, Numeral d → ∀ c ∈ d, vch c = true := fun hd c hc => by unfold vch; rw [hd.2 c hc]; rfl
  cases v with
  | int n d =>
    have : ∀ c ∈ (Value.int n d).text, vch c = true := by
      intro c hc
      unfold Value.text at hc
      rcases List.mem_append.1 hc with hc | hc
      · cases n <;> simp at hc; subst hc; decide
      · exact hn h c hc
    exact ⟨this, this⟩
  | bv d w =>
    constructor <;> intro c hc <;> simp only [Value.text, Value.c, List.mem_append, List.mem_cons, List.not_mem_nil, or_false] at hc
    · rcases hc with (hc | rfl | rfl) | hc
      · exact hn h.1 c hc
      · decide
      · decide
      · exact hn h.2 c hc
    · rcases hc with hc | rfl | rfl
      · exact hn h.1 c hc
      · decide
      · decide

theorem not_mem_text {v : Value} (h : v.Wf) {c : Char} (hc : vch c = false) : c ∉ v.text := fun hm => by
  rw [(value_chars h).1 c hm] at hc; cases hc

theorem not_mem_c {v : Value} (h : v.Wf) {c : Char} (hc : vch c = false) : c ∉ v.c := fun hm => by
  rw [(value_chars h).2 c hm] at hc; cases hc

/-! ### Formatting of values -/

theorem dig_false {p : Char → Bool} {d : List Char} (h : ∀ c ∈ d, isDig c = true) (hp : ∀ c, isDig c = true → p c = true) : ∀ c ∈ d, p c = true :=
  fun c hc => hp c (h c hc)

theorem bvHere_digits {d : List Char} (h : ∀ c ∈ d, isDig c = true) (r : List Char) (hr : ∀ c t, r = c :: t → c ≠ 'b' ∧ isDig c = false) :
    bvHere (d ++ r) = none := by
  have h1 : (d ++ r).dropWhile isDig = r := by
    cases r with
    | nil => rw [List.append_nil]; exact dropWhile_all h
    | cons c t => exact dropWhile_append_stop h (.inr ⟨c, t, rfl, (hr c t rfl).2⟩)
  unfold bvHere
  rw [h1]
  have h2 : dropPrefix? "bv".toList r = none := by
    cases r with
    | nil => rfl
    | cons c t =>
      show (if 'b' == c then _ else none) = none
      rw [if_neg]
      intro h; exact (hr c t rfl).1 (eq_of_beq h).symm
  rw [h2]
  cases (d ++ r).takeWhile isDig <;> rfl

theorem no_prefix {p : List Char} {c : Char} {s : List Char} {a : Char} (h : a ≠ c) : dropPrefix? (a :: p) (c :: s) = none := by
  show (if a == c then _ else none) = none
  rw [if_neg (by simpa using h)]

theorem reformat_plain : ∀ (d : List Char), (∀ c ∈ d, isDig c = true) → reformatFrom fp 0 d = d
  | [], _ => by rw [reformatFrom]
  | c :: d, h => by
    have hb : bvHere (c :: d) = none := by
      have := bvHere_digits h [] (by simp)
      simpa using this
    have hx : dropPrefix? "0x".toList (c :: d) = none := by
      refine dropPrefix?_none fun r he => ?_
      have hm : 'x' ∈ c :: d := by rw [he]; simp
      exact absurd (h _ hm) (by decide)
    have hx' : dropPrefix? "-0x".toList (c :: d) = none := by
      refine dropPrefix?_none fun r he => ?_
      have hm : 'x' ∈ c :: d := by rw [he]; simp
      exact absurd (h _ hm) (by decide)
    rw [reformatFrom, hb, hx, hx']
    simp only [Option.isSome_none, Bool.or_self, Bool.false_eq_true, if_false]
    rw [reformat_plain d fun c hc => h c (List.mem_cons_of_mem _ hc)]

theorem reformat_value {v : Value} (h : v.Wf) : reformat fp v.text = v.c := by
  unfold reformat
  rw [strip_tight (value_tight h)]
  cases v with
  | int n d =>
    cases n with
    | false => exact reformat_plain d h.2
    | true =>
      show reformatFrom fp 0 ('-' :: d) = '-' :: d
      have hb : bvHere ('-' :: d) = none := bvHere_digits (d := []) (by simp) ('-' :: d) (by
        intro c t he; injection he with h1 h2; subst h1; decide)
      have hx : dropPrefix? "0x".toList ('-' :: d) = none := no_prefix (by decide)
      have hx' : dropPrefix? "-0x".toList ('-' :: d) = none := by
        refine dropPrefix?_none fun r he => ?_
        have hm : 'x' ∈ '-' :: d := by rw [he]; simp
        rcases List.mem_cons.1 hm with h | hm
        · cases h
        · exact absurd (h.2 _ hm) (by decide)
      rw [reformatFrom, hb, hx, hx']
      simp only [Option.isSome_none, Bool.or_self, Bool.false_eq_true, if_false]
      rw [reformat_plain d h.2]
  | bv d w =>
    obtain ⟨hd, hw⟩ := h
    obtain ⟨hne, hd⟩ := hd
    cases d with
    | nil => exact absurd rfl hne
    | cons c d =>
      have h1 : bvHere ((c :: d) ++ ['b', 'v'] ++ w) = some (c :: d, []) := by
        unfold bvHere
        have e1 : (c :: d ++ ['b', 'v'] ++ w).takeWhile isDig = c :: d := by
          rw [List.append_assoc]; exact takeWhile_append_stop hd (.inr ⟨'b', 'v' :: w, rfl, by decide⟩)
        have e2 : (c :: d ++ ['b', 'v'] ++ w).dropWhile isDig = ['b', 'v'] ++ w := by
          rw [List.append_assoc]; exact dropWhile_append_stop hd (.inr ⟨'b', 'v' :: w, rfl, by decide⟩)
        have e3 : dropPrefix? "bv".toList (['b', 'v'] ++ w) = some w := dropPrefix?_append _ w
        rw [e1, e2, e3]
        simp only [takeWhile_all hw.2, dropWhile_all hw.2]
        rw [if_neg]
        intro he
        exact hw.1 (List.isEmpty_iff.1 he)
      show reformatFrom fp 0 (c :: (d ++ ['b', 'v'] ++ w)) = _
      rw [reformatFrom, show bvHere (c :: (d ++ ['b', 'v'] ++ w)) = some (c :: d, []) from h1]
      simp only [List.length_nil, Nat.sub_zero]
      rw [reformat_drop, List.drop_length, reformatFrom]
      simp [Value.c]

/-! ### Tokens that are left out -/

theorem internal_cons (c : Char) (s : List Char) : internal (c :: s) = (internalHere (c :: s) || internal s) := by rw [internal]

theorem internalHere_first {c : Char} {s : List Char} (h1 : c ≠ 'C') (h2 : c ≠ 'R') : internalHere (c :: s) = false := by
  have e1 : dropPrefix? "CALL".toList (c :: s) = none := no_prefix (Ne.symm h1)
  have e2 : dropPrefix? "RETURN from".toList (c :: s) = none := no_prefix (Ne.symm h2)
  unfold internalHere
  rw [e1, e2]

theorem prefix_iff (p s : List Char) : (dropPrefix? p s).isSome = true ↔ p <+: s := by
  rw [Option.isSome_iff_exists]
  constructor
  · rintro ⟨r, h⟩; exact ⟨r, ((dropPrefix?_iff _ _ _).1 h).symm⟩
  · rintro ⟨r, h⟩; exact ⟨r, (dropPrefix?_iff _ _ _).2 h.symm⟩

theorem own_iff (f : List Char) : ((dropPrefix? "$".toList f).isSome || (dropPrefix? "__SMACK".toList f).isSome) = true ↔ Own f := by
  rw [Bool.or_eq_true, prefix_iff, prefix_iff]; rfl

theorem internal_none : ∀ (s : List Char), ¬ Occurs "CALL".toList s → ¬ Occurs "RETURN from".toList s → internal s = false
  | [], _, _ => rfl
  | c :: s, h1, h2 => by
    rw [internal_cons, internal_none s (fun h => h1 (occurs_trans h ⟨[c], [], by simp⟩)) (fun h => h2 (occurs_trans h ⟨[c], [], by simp⟩)),
      Bool.or_false]
    have e1 : dropPrefix? "CALL".toList (c :: s) = none := dropPrefix?_none fun r he => h1 ⟨[], r, he⟩
    have e2 : dropPrefix? "RETURN from".toList (c :: s) = none := dropPrefix?_none fun r he => h2 ⟨[], r, he⟩
    unfold internalHere
    rw [e1, e2]

theorem internal_name {x : List Char} (h : Name x) : internal x = false :=
  internal_none x h.call (not_occurs_of_char ' ' (by decide) (name_space h))

theorem skipped_call {f : List Char} (h : Name f) : skipped ("CALL ".toList ++ f) = decide (Own f) := by
  have hd : hasSub "Done".toList ("CALL ".toList ++ f) = false := hasSub_false fun ho => by
    rw [show "CALL ".toList ++ f = "CALL".toList ++ ' ' :: f from rfl] at ho
    rcases occurs_sep (by decide) ho with h1 | h1
    · exact absurd h1 (not_occurs_of_char 'D' (by decide) (by decide))
    · exact h.done h1
  have ha : hasSub "ASSERTION".toList ("CALL ".toList ++ f) = false := hasSub_false fun ho => by
    rw [show "CALL ".toList ++ f = "CALL".toList ++ ' ' :: f from rfl] at ho
    rcases occurs_sep (by decide) ho with h1 | h1
    · exact absurd h1 (not_occurs_of_char 'S' (by decide) (by decide))
    · exact h.assertion h1
  unfold skipped
  rw [hd, ha, Bool.or_false, Bool.or_false]
  show internal ('C' :: 'A' :: 'L' :: 'L' :: ' ' :: f) = _
  rw [internal_cons, internal_cons, internal_cons, internal_cons, internal_cons, internal_name h,
    internalHere_first (c := 'A') (by decide) (by decide), internalHere_first (c := 'L') (by decide) (by decide),
    internalHere_first (c := 'L') (by decide) (by decide), internalHere_first (c := ' ') (by decide) (by decide)]
  simp only [Bool.or_false]
  have e1 : dropPrefix? "CALL".toList ('C' :: 'A' :: 'L' :: 'L' :: ' ' :: f) = some (' ' :: f) := dropPrefix?_append "CALL".toList (' ' :: f)
  unfold internalHere
  rw [e1]
  simp only
  have hdw : f.dropWhile isWs = f := by
    obtain ⟨⟨c, s, h1, hc⟩, _⟩ := name_tight h
    rw [h1]; exact dropWhile_id hc
  rw [hdw, show isWs ' ' = true by decide, Bool.true_and, Bool.eq_iff_iff, own_iff, decide_eq_true_iff]

theorem skipped_ret' {f : List Char} (ht : Tight f) (hdone : ¬ Occurs "Done".toList f) (hass : ¬ Occurs "ASSERTION".toList f)
    (hint : internal f = false) : skipped ("RETURN from ".toList ++ f) = decide (Own f) := by
  have hd : hasSub "Done".toList ("RETURN from ".toList ++ f) = false := hasSub_false fun ho => by
    rw [show "RETURN from ".toList ++ f = "RETURN from".toList ++ ' ' :: f from rfl] at ho
    rcases occurs_sep (by decide) ho with h1 | h1
    · exact absurd h1 (not_occurs_of_char 'D' (by decide) (by decide))
    · exact hdone h1
  have ha : hasSub "ASSERTION".toList ("RETURN from ".toList ++ f) = false := hasSub_false fun ho => by
    rw [show "RETURN from ".toList ++ f = "RETURN from".toList ++ ' ' :: f from rfl] at ho
    rcases occurs_sep (by decide) ho with h1 | h1
    · exact absurd h1 (not_occurs_of_char 'S' (by decide) (by decide))
    · exact hass h1
  unfold skipped
  rw [hd, ha, Bool.or_false, Bool.or_false]
  show internal ('R' :: 'E' :: 'T' :: 'U' :: 'R' :: 'N' :: ' ' :: 'f' :: 'r' :: 'o' :: 'm' :: ' ' :: f) = _
  have e4 : internalHere ('R' :: 'N' :: ' ' :: 'f' :: 'r' :: 'o' :: 'm' :: ' ' :: f) = false := by
    have e1 : dropPrefix? "CALL".toList ('R' :: 'N' :: ' ' :: 'f' :: 'r' :: 'o' :: 'm' :: ' ' :: f) = none := no_prefix (by decide)
    have e2 : dropPrefix? "RETURN from".toList ('R' :: 'N' :: ' ' :: 'f' :: 'r' :: 'o' :: 'm' :: ' ' :: f) = none := rfl
    unfold internalHere
    rw [e1, e2]
  rw [internal_cons, internal_cons, internal_cons, internal_cons, internal_cons, internal_cons, internal_cons, internal_cons, internal_cons,
    internal_cons, internal_cons, internal_cons, hint, e4,
    internalHere_first (c := 'E') (by decide) (by decide), internalHere_first (c := 'T') (by decide) (by decide),
    internalHere_first (c := 'U') (by decide) (by decide), internalHere_first (c := 'N') (by decide) (by decide),
    internalHere_first (c := ' ') (by decide) (by decide), internalHere_first (c := 'f') (by decide) (by decide),
    internalHere_first (c := 'r') (by decide) (by decide), internalHere_first (c := 'o') (by decide) (by decide),
    internalHere_first (c := 'm') (by decide) (by decide), internalHere_first (c := ' ') (by decide) (by decide)]
  simp only [Bool.or_false]
  have e1 : dropPrefix? "CALL".toList ('R' :: 'E' :: 'T' :: 'U' :: 'R' :: 'N' :: ' ' :: 'f' :: 'r' :: 'o' :: 'm' :: ' ' :: f) = none := no_prefix (by decide)
  have e2 : dropPrefix? "RETURN from".toList ('R' :: 'E' :: 'T' :: 'U' :: 'R' :: 'N' :: ' ' :: 'f' :: 'r' :: 'o' :: 'm' :: ' ' :: f) = some (' ' :: f) :=
    dropPrefix?_append "RETURN from".toList (' ' :: f)
  unfold internalHere
  rw [e1, e2]
  simp only
  have hdw : f.dropWhile isWs = f := by
    obtain ⟨⟨c, s, h1, hc⟩, _⟩ := ht
    rw [h1]; exact dropWhile_id hc
  rw [hdw, show isWs ' ' = true by decide, Bool.true_and, Bool.eq_iff_iff, own_iff, decide_eq_true_iff]

theorem skipped_ret {f : List Char} (h : Name f) : skipped ("RETURN from ".toList ++ f) = decide (Own f) :=
  skipped_ret' (name_tight h) h.done h.assertion (internal_name h)

theorem internalHere_nows {s : List Char} (h : ∀ c ∈ s, isWs c = false) : internalHere s = false := by
  unfold internalHere
  cases hc : dropPrefix? "CALL".toList s with
  | some r =>
    have hs := (dropPrefix?_iff _ _ _).1 hc
    cases r with
    | nil => rfl
    | cons c r => simp [h c (by rw [hs]; simp)]
  | none =>
    cases hr : dropPrefix? "RETURN from".toList s with
    | some r =>
      have hs := (dropPrefix?_iff _ _ _).1 hr
      cases r with
      | nil => rfl
      | cons c r => simp [h c (by rw [hs]; simp)]
    | none => rfl

theorem internal_nows : ∀ (s : List Char), (∀ c ∈ s, isWs c = false) → internal s = false
  | [], _ => rfl
  | c :: s, h => by
    rw [internal_cons, internalHere_nows h, internal_nows s fun c hc => h c (List.mem_cons_of_mem _ hc)]
    rfl

theorem eq_sep {x v : List Char} : x ++ " = ".toList ++ v = x ++ ' ' :: '=' :: ' ' :: v := by simp

/-- A pattern without blank and `=` occurs in an equation only on one of its sides. -/
theorem occurs_eq {p x v : List Char} (hs : ' ' ∉ p) (he : '=' ∉ p) (hne : p ≠ []) (h : Occurs p (x ++ " = ".toList ++ v)) : Occurs p x ∨ Occurs p v := by
  rw [eq_sep] at h
  rcases occurs_sep hs h with h | h
  · exact .inl h
  · rw [show '=' :: ' ' :: v = ['='] ++ ' ' :: v from rfl] at h
    rcases occurs_sep hs h with h | h
    · obtain ⟨c, hc⟩ := List.exists_mem_of_ne_nil p hne
      exact absurd h (not_occurs_of_char c hc (by intro hm; simp at hm; subst hm; exact he hc))
    · exact .inr h

theorem skipped_value {x : List Char} (h : Name x) {v : List Char} (hv : ∀ c ∈ v, vch c = true) : skipped (x ++ " = ".toList ++ v) = false := by
  have hnv : ∀ c, vch c = false → c ∉ v := fun c hc hm => by rw [hv c hm] at hc; cases hc
  have hd : hasSub "Done".toList (x ++ " = ".toList ++ v) = false := hasSub_false fun ho => by
    rcases occurs_eq (by decide) (by decide) (by decide) ho with h1 | h1
    · exact h.done h1
    · exact not_occurs_of_char 'D' (by decide) (hnv 'D' (by decide)) h1
  have ha : hasSub "ASSERTION".toList (x ++ " = ".toList ++ v) = false := hasSub_false fun ho => by
    rcases occurs_eq (by decide) (by decide) (by decide) ho with h1 | h1
    · exact h.assertion h1
    · exact not_occurs_of_char 'S' (by decide) (hnv 'S' (by decide)) h1
  have hc : ¬ Occurs "CALL".toList (x ++ " = ".toList ++ v) := fun ho => by
    rcases occurs_eq (by decide) (by decide) (by decide) ho with h1 | h1
    · exact h.call h1
    · exact not_occurs_of_char 'C' (by decide) (hnv 'C' (by decide)) h1
  have hr : ¬ Occurs "RETURN from".toList (x ++ " = ".toList ++ v) := fun ho => by
    have h1 : Occurs (' ' :: ['f']) (x ++ " = ".toList ++ v) := occurs_trans ⟨"RETURN".toList, "rom".toList, by decide⟩ ho
    have h2 := occurs_skip (x := x) (y := ' ' :: '=' :: ' ' :: v) eq_sep (name_space h) h1
    exact not_occurs_of_char 'f' (by decide) (by
      intro hm
      simp only [List.mem_cons] at hm
      rcases hm with hm | hm | hm | hm
      · cases hm
      · cases hm
      · cases hm
      · exact hnv 'f' (by decide) hm) h2
  unfold skipped
  rw [hd, ha, internal_none _ hc hr]
  rfl

end Smack.Witness
