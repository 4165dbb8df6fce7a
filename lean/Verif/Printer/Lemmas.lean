/-
Lemmas: the parser of the specification reads what the printer writes.
-/
import Verif.Printer.Spec

namespace Smack.Printer

open Spec

/-! ## Lists -/

theorem takeWhile_append_stop {p : Char → Bool} {a t : Str} (ha : ∀ c ∈ a, p c = true) (ht : ∀ c ∈ t.head?, p c = false) :
    (a ++ t).takeWhile p = a := by
  induction a with
  | nil =>
    cases t with
    | nil => rfl
    | cons c r => simp [ht c (by simp)]
  | cons c a ih =>
    rw [List.cons_append, List.takeWhile_cons, if_pos (ha c (by simp)), ih fun d hd => ha d (by simp [hd])]

theorem dropWhile_append_stop {p : Char → Bool} {a t : Str} (ha : ∀ c ∈ a, p c = true) (ht : ∀ c ∈ t.head?, p c = false) :
    (a ++ t).dropWhile p = t := by
  induction a with
  | nil =>
    cases t with
    | nil => rfl
    | cons c r => simp [ht c (by simp)]
  | cons c a ih =>
    rw [List.cons_append, List.dropWhile_cons, if_pos (ha c (by simp)), ih fun d hd => ha d (by simp [hd])]

theorem expect_append (p s : Str) : expect p (p ++ s) = some s := by
  unfold expect
  have : p.isPrefixOf (p ++ s) = true := by
    rw [List.isPrefixOf_iff_prefix]; exact List.prefix_append p s
  rw [if_pos this, List.drop_left]

theorem expect_cons (c : Char) (s : Str) : expect [c] (c :: s) = some s := expect_append [c] s

/-! ## Numbers -/

theorem toNat_dec (n : Nat) : toNat (dec n) = n := by
  unfold toNat dec
  exact Nat.ofDigitChars_toDigits (by decide) (by decide)

theorem digits_dec (n : Nat) : ∀ c ∈ dec n, c.isDigit = true := by
  intro c hc
  unfold dec at hc
  exact Nat.isDigit_of_mem_toDigits (b := 10) (by decide) (by decide) hc

theorem digit_atom {c : Char} (h : c.isDigit = true) : atomChar c = true := by
  unfold atomChar; rw [h]; simp

theorem digit_ne {c d : Char} (h : c.isDigit = true) (hd : d.isDigit = false) : c ≠ d := by
  intro e; subst e; rw [h] at hd; cases hd

/-! ## Atoms -/

/-- What may follow an expression. -/
def TailOk (t : Str) : Prop := (∀ c ∈ t.head?, atomChar c = false ∧ c ≠ '(') ∧ ¬ ['+', 'o'] <+: t

/-- What follows a complete expression (not a subscript). -/
def EndOk (t : Str) : Prop := TailOk t ∧ ∀ c ∈ t.head?, c ≠ '['

theorem tail_of_char {c : Char} (t : Str) (h1 : atomChar c = false) (h2 : c ≠ '(') (h3 : c ≠ '+') : TailOk (c :: t) := by
  refine ⟨?_, ?_⟩
  · intro d hd
    have : d = c := by simpa using hd.symm
    subst this; exact ⟨h1, h2⟩
  · rintro ⟨r, hr⟩
    simp only [List.cons_append, List.cons.injEq] at hr
    exact h3 hr.1.symm

theorem end_of_char {c : Char} (t : Str) (h1 : atomChar c = false) (h2 : c ≠ '(') (h3 : c ≠ '+') (h4 : c ≠ '[') :
    EndOk (c :: t) := by
  refine ⟨tail_of_char t h1 h2 h3, ?_⟩
  intro d hd
  have : d = c := by simpa using hd.symm
  subst this; exact h4

theorem end_plus (t : Str) : EndOk ('+' :: '+' :: t) := by
  refine ⟨⟨?_, ?_⟩, ?_⟩
  · intro d hd
    have : d = '+' := by simpa using hd.symm
    subst this; decide
  · rintro ⟨r, hr⟩
    simp at hr
  · intro d hd
    have : d = '+' := by simpa using hd.symm
    subst this; decide

theorem end_nil : EndOk [] := ⟨⟨by simp, by rintro ⟨r, hr⟩; simp at hr⟩, by simp⟩

/-- The text of an atom. -/
def AtomText (a : Str) : Prop :=
  (a ≠ [] ∧ ∀ c ∈ a, atomChar c = true) ∨ ∃ r, a = ['0', '+', 'o', 'o'] ++ r ∧ ∀ c ∈ r, atomChar c = true

theorem lex_plain {a t : Str} (ha : ∀ c ∈ a, atomChar c = true) (ht : ∀ c ∈ t.head?, atomChar c = false)
    (h2 : ¬ ['+', 'o'] <+: t) : lexAtom (a ++ t) = a := by
  unfold lexAtom
  have hn : ¬ ['0', '+', 'o', 'o'].isPrefixOf (a ++ t) = true := by
    rw [List.isPrefixOf_iff_prefix]
    rintro ⟨r, hr⟩
    cases a with
    | nil =>
      cases t with
      | nil => simp at hr
      | cons c t =>
        simp only [List.nil_append, List.cons_append, List.cons.injEq] at hr
        have := ht c (by simp)
        rw [← hr.1] at this; revert this; decide
    | cons c a =>
      cases a with
      | nil =>
        simp only [List.nil_append, List.cons_append, List.cons.injEq] at hr
        refine h2 ⟨'o' :: r, ?_⟩
        rw [← hr.2]; rfl
      | cons d a =>
        simp only [List.cons_append, List.cons.injEq] at hr
        have := ha d (by simp)
        rw [← hr.2.1] at this; revert this; decide
  rw [if_neg hn]
  exact takeWhile_append_stop ha ht

theorem lex_atom {a t : Str} (ha : AtomText a) (ht : TailOk t) : lexAtom (a ++ t) = a := by
  rcases ha with ⟨_, ha⟩ | ⟨r, rfl, hr⟩
  · exact lex_plain ha (fun c hc => (ht.1 c hc).1) ht.2
  · unfold lexAtom
    rw [if_pos (by rw [List.isPrefixOf_iff_prefix, List.append_assoc]; exact List.prefix_append _ _)]
    rw [List.append_assoc]
    rw [show (['0', '+', 'o', 'o'] ++ (r ++ t)).drop 4 = r ++ t from rfl]
    rw [takeWhile_append_stop hr fun c hc => (ht.1 c hc).1]

theorem atom_ne_nil {a : Str} (ha : AtomText a) : a ≠ [] := by
  rcases ha with ⟨h, _⟩ | ⟨r, rfl, _⟩
  · exact h
  · simp

/-- The first character of an atom does not start another form of expression. -/
theorem atom_head {a : Str} (ha : AtomText a) : ∃ c r, a = c :: r ∧ atomChar c = true := by
  rcases ha with ⟨h, h'⟩ | ⟨r, rfl, _⟩
  · cases a with
    | nil => exact absurd rfl h
    | cons c r => exact ⟨c, r, rfl, h' c (by simp)⟩
  · exact ⟨'0', ['+', 'o', 'o'] ++ r, rfl, by decide⟩

theorem parseE_other {c : Char} {s : Str} (hc : atomChar c = true) :
    parseE (c :: s) = (if lexAtom (c :: s) = [] then none else
      match (c :: s).drop (lexAtom (c :: s)).length with
      | '(' :: r =>
        if lexAtom (c :: s) = ['-'] then do
          let (e, r) ← parseE r
          let r ← expect [')'] r
          return (.neg e, r)
        else do
          let (as, r) ← parseSeq r
          let r ← expect [')'] r
          parseSuffix (.fn (lexAtom (c :: s)) as) r
      | r => parseSuffix (classify (lexAtom (c :: s))) r) := by
  have h1 : c ≠ '(' := by intro e; subst e; revert hc; decide
  have h2 : c ≠ '!' := by intro e; subst e; revert hc; decide
  have h3 : c ≠ '"' := by intro e; subst e; revert hc; decide
  rw [parseE.eq_def]
  split
  · rename_i r heq; exact absurd (List.cons.inj heq).1 h1
  · rename_i r heq; exact absurd (List.cons.inj heq).1 h2
  · rename_i r heq; exact absurd (List.cons.inj heq).1 h3
  · rfl

theorem parseE_atom {a t : Str} (ha : AtomText a) (ht : TailOk t) : parseE (a ++ t) = parseSuffix (classify a) t := by
  obtain ⟨c, r, rfl, hc⟩ := atom_head ha
  rw [List.cons_append, parseE_other hc, ← List.cons_append, lex_atom ha ht, if_neg (by simp), List.drop_left]
  split
  · rename_i r' h
    exact absurd rfl (ht.1 '(' (by simp)).2
  · rfl

theorem parseE_fn {f t : Str} (hf : f ≠ []) (ha : ∀ c ∈ f, atomChar c = true) (hm : f ≠ ['-']) :
    parseE (f ++ '(' :: t) = (do
      let (as, r) ← parseSeq t
      let r ← expect [')'] r
      parseSuffix (.fn f as) r) := by
  have hlex : lexAtom (f ++ '(' :: t) = f := by
    refine lex_plain ha ?_ ?_
    · intro c hc
      have : c = '(' := by simpa using hc.symm
      subst this; decide
    · rintro ⟨r, hr⟩; simp at hr
  obtain ⟨c, r, rfl, hc⟩ := atom_head (.inl ⟨hf, ha⟩)
  rw [List.cons_append, parseE_other hc, ← List.cons_append, hlex, if_neg (by simp), List.drop_left]
  simp only [if_neg hm]

theorem parseE_neg {t : Str} : parseE ('-' :: '(' :: t) = (do
      let (e, r) ← parseE t
      let r ← expect [')'] r
      return (.neg e, r)) := by
  have hlex : lexAtom ('-' :: '(' :: t) = ['-'] := by
    refine lex_plain (a := ['-']) (t := '(' :: t) (by decide) ?_ ?_
    · intro c hc
      have : c = '(' := by simpa using hc.symm
      subst this; decide
    · rintro ⟨r, hr⟩; simp at hr
  rw [parseE_other (by decide), hlex, if_neg (by simp)]
  rfl

/-! ## Literals -/

theorem ident_classify {v : Str} (h : IdentOk v) : classify v = .var v := by
  obtain ⟨hne, hc, hd, hr⟩ := h
  simp only [reserved, List.mem_cons, List.not_mem_nil, or_false, not_or] at hr
  obtain ⟨r1, r2, r3, r4, r5, r6, r7, _⟩ := hr
  unfold classify
  rw [if_neg r1, if_neg r2, if_neg r3, if_neg r4, if_neg r5, if_neg r6, if_neg r7]
  cases v with
  | nil => exact absurd rfl hne
  | cons c r =>
    have hcd := hd c (by simp)
    have hcm := (hc c (by simp)).2
    unfold classifyNum
    split
    · rename_i heq; exact absurd (List.cons.inj heq).1 hcm
    · rename_i heq; rw [(List.cons.inj heq).1] at hcd; exact absurd hcd (by decide)
    · rename_i heq; rw [(List.cons.inj heq).1] at hcd; exact absurd hcd (by decide)
    · rename_i heq; rw [(List.cons.inj heq).1] at hcd; exact absurd hcd (by decide)
    · rename_i heq; rw [(List.cons.inj heq).1] at hcd; exact absurd hcd (by decide)
    · rename_i heq; exact absurd (List.cons.inj heq).1 hcm
    · rename_i heq
      obtain ⟨rfl, rfl⟩ := List.cons.inj heq
      rw [if_neg (by rw [hcd]; decide)]
    · rename_i heq; cases heq

theorem ident_atom {v : Str} (h : IdentOk v) : AtomText v := .inl ⟨h.1, fun c hc => (h.2.1 c hc).1⟩

theorem not_word {c d : Char} {r w : Str} (h : some d ≠ some c) : ¬ c :: r = d :: w := by
  intro e; exact h (by rw [(List.cons.inj e).1])

/-- Skip the comparisons with words, for texts that start with a digit or a sign. -/
theorem classify_num {c : Char} {r : Str} (hc : c.isDigit = true ∨ c = '-') : classify (c :: r) = classifyNum (c :: r) := by
  have key : ∀ d : Char, d.isDigit = false → d ≠ '-' → some d ≠ some c := by
    intro d hd hm e
    have e := Option.some.inj e
    subst e
    rcases hc with h | h
    · rw [h] at hd; cases hd
    · exact hm h
  unfold classify
  rw [if_neg (not_word (key 't' (by decide) (by decide))), if_neg (not_word (key 'f' (by decide) (by decide))),
    if_neg (not_word (key 'R' (by decide) (by decide))), if_neg (not_word (key 'R' (by decide) (by decide))),
    if_neg (not_word (key 'R' (by decide) (by decide))), if_neg (not_word (key 'R' (by decide) (by decide))),
    if_neg (not_word (key 'R' (by decide) (by decide)))]

theorem digits_classify {d : Str} (hne : d ≠ []) (hd : ∀ c ∈ d, c.isDigit = true) (t : Str)
    (ht : ∀ c ∈ t.head?, c.isDigit = false ∧ c ≠ 'x' ∧ c ≠ 'N' ∧ c ≠ '+' ∧ c ≠ '-') :
    classify (d ++ t) = bvOrInt d t := by
  cases d with
  | nil => exact absurd rfl hne
  | cons c r =>
    have hc := hd c (by simp)
    rw [List.cons_append, classify_num (.inl hc)]
    have second : ∀ x : Char, ∀ r', c :: (r ++ t) = '0' :: x :: r' → x.isDigit = true ∨ t.head? = some x := by
      intro x r' h
      have h := (List.cons.inj h).2
      cases r with
      | nil => right; simp at h; rw [h]; rfl
      | cons y r =>
        left
        have := (List.cons.inj h).1
        rw [← this]; exact hd y (by simp)
    unfold classifyNum
    split
    · rename_i heq; rw [(List.cons.inj heq).1] at hc; exact absurd hc (by decide)
    · rename_i heq
      rcases second _ _ heq with h | h
      · exact absurd h (by decide)
      · exact absurd rfl (ht _ h).2.1
    · rename_i heq
      rcases second _ _ heq with h | h
      · exact absurd h (by decide)
      · exact absurd rfl (ht _ h).2.2.1
    · rename_i heq
      rcases second _ _ heq with h | h
      · exact absurd h (by decide)
      · exact absurd rfl (ht _ h).2.2.2.1
    · rename_i heq
      rcases second _ _ heq with h | h
      · exact absurd h (by decide)
      · exact absurd rfl (ht _ h).2.2.2.2
    · rename_i heq; rw [(List.cons.inj heq).1] at hc; exact absurd hc (by decide)
    · rename_i heq
      obtain ⟨rfl, rfl⟩ := List.cons.inj heq
      rw [if_pos hc, ← List.cons_append]
      rw [takeWhile_append_stop hd (fun x hx => (ht x hx).1), dropWhile_append_stop hd (fun x hx => (ht x hx).1)]
    · rename_i heq; cases heq

theorem int_classify {v : Str} (h : Digits v ∨ ∃ d, v = '-' :: d ∧ Digits d) : classify v = .int v := by
  rcases h with ⟨hne, hd⟩ | ⟨d, rfl, hne, hd⟩
  · have := digits_classify hne hd [] (by simp)
    rw [List.append_nil] at this
    rw [this]
    simp [bvOrInt]
  · rw [classify_num (.inr rfl)]
    cases d with
    | nil => exact absurd rfl hne
    | cons c r =>
      unfold classifyNum
      split
      · rename_i heq
        have h1 := (List.cons.inj (List.cons.inj heq).2).2
        have h2 := hd 'x' (by rw [(List.cons.inj heq).2]; simp)
        exact absurd h2 (by decide)
      · rename_i heq; exact absurd (List.cons.inj heq).1 (by decide)
      · rename_i heq; exact absurd (List.cons.inj heq).1 (by decide)
      · rename_i heq; exact absurd (List.cons.inj heq).1 (by decide)
      · rename_i heq; exact absurd (List.cons.inj heq).1 (by decide)
      · rename_i heq; rw [← (List.cons.inj heq).2]
      · grind
      · rename_i heq; cases heq

theorem bv_classify {d : Str} (h : Digits d) (w : Nat) : classify (d ++ ['b', 'v'] ++ dec w) = .bv d w := by
  rw [List.append_assoc, digits_classify h.1 h.2]
  · show Expr.bv d (toNat (dec w)) = _
    rw [toNat_dec]
  · intro c hc
    have : c = 'b' := by simpa using hc.symm
    subst this; decide

theorem parseFpSizes_eq {b : Str} (hb : ∀ c ∈ b.getLast?, c.isDigit = false) (ss es : Nat) :
    parseFpSizes (b ++ dec ss ++ ['e'] ++ dec es) = (b, ss, es) := by
  unfold parseFpSizes
  have h1 : ∀ n, ∀ c ∈ (dec n).reverse, c.isDigit = true := fun n c hc => digits_dec n c (List.mem_reverse.mp hc)
  have h2 : ∀ c ∈ (('e' :: ((dec ss).reverse ++ b.reverse)) : Str).head?, c.isDigit = false := by
    intro c hc
    have : c = 'e' := by simpa using hc.symm
    subst this; decide
  have h3 : ∀ c ∈ b.reverse.head?, c.isDigit = false := by
    intro c hc
    rw [List.head?_reverse] at hc
    exact hb c hc
  simp only [List.reverse_append, List.reverse_cons, List.reverse_nil, List.nil_append, List.cons_append]
  rw [dropWhile_append_stop (h1 es) h2, takeWhile_append_stop (h1 es) h2, List.drop_succ_cons, List.drop_zero,
    dropWhile_append_stop (h1 ss) h3, takeWhile_append_stop (h1 ss) h3]
  simp only [List.reverse_reverse, toNat_dec]

theorem parseFpBody_eq {sig expo : Str} (he : ∀ c ∈ expo, c.isDigit = true ∨ c = '-') :
    parseFpBody (sig ++ ['e'] ++ expo ++ ['f']) = (sig, expo) := by
  unfold parseFpBody
  have h1 : ∀ c ∈ expo.reverse, (c.isDigit || c == '-') = true := by
    intro c hc
    rcases he c (List.mem_reverse.mp hc) with h | h
    · rw [h]; rfl
    · subst h; decide
  have h2 : ∀ c ∈ (('e' :: sig.reverse) : Str).head?, (c.isDigit || c == '-') = false := by
    intro c hc
    have : c = 'e' := by simpa using hc.symm
    subst this; decide
  simp only [List.reverse_append, List.reverse_cons, List.reverse_nil, List.nil_append, List.cons_append, List.drop_succ_cons,
    List.drop_zero]
  rw [dropWhile_append_stop h1 h2, takeWhile_append_stop h1 h2]
  simp

theorem fp_classify {n : Bool} {sig expo : Str} (he : ∀ c ∈ expo, c.isDigit = true ∨ c = '-') (ss es : Nat) :
    classify (print (.fp n sig expo ss es)) = .fp n sig expo ss es := by
  have hs : parseFpSizes (sig ++ ['e'] ++ expo ++ ['f'] ++ dec ss ++ ['e'] ++ dec es) =
      (sig ++ ['e'] ++ expo ++ ['f'], ss, es) := by
    refine parseFpSizes_eq ?_ ss es
    intro c hc
    simp only [List.getLast?_append, List.getLast?_singleton, Option.some_or, Option.mem_def, Option.some.injEq] at hc
    subst hc; decide
  cases n
  · have : print (.fp false sig expo ss es) = '0' :: 'x' :: (sig ++ ['e'] ++ expo ++ ['f'] ++ dec ss ++ ['e'] ++ dec es) := by
      simp [print]
    rw [this, classify_num (.inl (by decide))]
    simp only [classifyNum, hs, parseFpBody_eq he]
  · have : print (.fp true sig expo ss es) =
        '-' :: '0' :: 'x' :: (sig ++ ['e'] ++ expo ++ ['f'] ++ dec ss ++ ['e'] ++ dec es) := by
      simp [print]
    rw [this, classify_num (.inr rfl)]
    simp only [classifyNum, hs, parseFpBody_eq he]

theorem fpSpecial_classify {v : Str} (hv : v ∈ [['N', 'a', 'N'], ['+', 'o', 'o'], ['-', 'o', 'o']]) (ss es : Nat) :
    classify (print (.fpSpecial v ss es)) = .fpSpecial v ss es := by
  simp only [List.mem_cons, List.not_mem_nil, or_false] at hv
  have hs : ∀ b : Str, (∀ c ∈ b.getLast?, c.isDigit = false) → parseFpSizes (b ++ (dec ss ++ 'e' :: dec es)) = (b, ss, es) := by
    intro b hb
    have := parseFpSizes_eq hb ss es
    simpa using this
  have h1 := hs ['a', 'N'] (by decide)
  have h2 := hs ['o', 'o'] (by decide)
  simp only [List.cons_append, List.nil_append] at h1 h2
  rcases hv with rfl | rfl | rfl
  · have : print (.fpSpecial ['N', 'a', 'N'] ss es) = '0' :: 'N' :: 'a' :: 'N' :: (dec ss ++ 'e' :: dec es) := by simp [print]
    rw [this, classify_num (.inl (by decide))]
    simp only [classifyNum, h1]
  · have : print (.fpSpecial ['+', 'o', 'o'] ss es) = '0' :: '+' :: 'o' :: 'o' :: (dec ss ++ 'e' :: dec es) := by simp [print]
    rw [this, classify_num (.inl (by decide))]
    simp only [classifyNum, h2]
  · have : print (.fpSpecial ['-', 'o', 'o'] ss es) = '0' :: '-' :: 'o' :: 'o' :: (dec ss ++ 'e' :: dec es) := by simp [print]
    rw [this, classify_num (.inl (by decide))]
    simp only [classifyNum, h2]

/-- The literals and variables. -/
def IsAtom : Expr → Prop
  | .bool _ | .rmode _ | .int _ | .bv _ _ | .fp _ _ _ _ _ | .fpSpecial _ _ _ | .var _ => True
  | _ => False

theorem atom_dec {c : Char} {n : Nat} (h : c ∈ dec n) : atomChar c = true := digit_atom (digits_dec n c h)

theorem atom_print {e : Expr} (ha : IsAtom e) (hw : WF e) : AtomText (print e) ∧ classify (print e) = e := by
  cases e with
  | bool b => cases b <;> exact ⟨.inl ⟨by decide, by decide⟩, by rfl⟩
  | rmode m => cases m <;> exact ⟨.inl ⟨by decide, by decide⟩, by rfl⟩
  | int v =>
    rw [WF] at hw
    rw [print]
    refine ⟨.inl ?_, int_classify hw⟩
    rcases hw with ⟨hn, hd⟩ | ⟨d, rfl, hn, hd⟩
    · exact ⟨hn, fun c hc => digit_atom (hd c hc)⟩
    · refine ⟨by simp, fun c hc => ?_⟩
      rcases List.mem_cons.mp hc with rfl | hc
      · decide
      · exact digit_atom (hd c hc)
  | bv v w =>
    rw [WF] at hw
    rw [print]
    refine ⟨.inl ⟨?_, ?_⟩, bv_classify hw w⟩
    · simp
    · intro c hc
      simp only [List.mem_append, List.mem_cons, List.not_mem_nil, or_false] at hc
      rcases hc with (h | rfl | rfl) | h
      · exact digit_atom (hw.2 c h)
      · decide
      · decide
      · exact atom_dec h
  | fp n sig expo ss es =>
    rw [WF] at hw
    refine ⟨.inl ⟨?_, ?_⟩, fp_classify hw.2 ss es⟩
    · rw [print]; simp
    · rw [print]
      intro c hc
      simp only [List.mem_append, List.mem_cons, List.not_mem_nil, or_false] at hc
      have hs : c ∈ (if n = true then ['-'] else ([] : Str)) → c = '-' := by cases n <;> simp
      have he : c ∈ expo → atomChar c = true := fun h => by
        rcases hw.2 c h with h | rfl
        · exact digit_atom h
        · decide
      have hg := hw.1 c
      have h1 : c ∈ dec ss → atomChar c = true := atom_dec
      have h2 : c ∈ dec es → atomChar c = true := atom_dec
      have k : ∀ d : Char, atomChar d = true → c = d → atomChar c = true := fun d h e => e ▸ h
      have k1 := k '-' (by decide)
      have k2 := k '0' (by decide)
      have k3 := k 'x' (by decide)
      have k4 := k 'e' (by decide)
      have k5 := k 'f' (by decide)
      grind
  | fpSpecial v ss es =>
    rw [WF] at hw
    refine ⟨?_, fpSpecial_classify hw ss es⟩
    have hr : ∀ c ∈ dec ss ++ 'e' :: dec es, atomChar c = true := by
      intro c hc
      simp only [List.mem_append, List.mem_cons] at hc
      rcases hc with h | rfl | h
      · exact atom_dec h
      · decide
      · exact atom_dec h
    simp only [List.mem_cons, List.not_mem_nil, or_false] at hw
    rcases hw with rfl | rfl | rfl
    · refine .inl ⟨by simp [print], ?_⟩
      intro c hc
      simp only [print, List.cons_append, List.nil_append, List.append_assoc, List.mem_cons] at hc
      rcases hc with rfl | rfl | rfl | rfl | hc
      · decide
      · decide
      · decide
      · decide
      · exact hr c hc
    · exact .inr ⟨dec ss ++ 'e' :: dec es, by simp [print], hr⟩
    · refine .inl ⟨by simp [print], ?_⟩
      intro c hc
      simp only [print, List.cons_append, List.nil_append, List.append_assoc, List.mem_cons] at hc
      rcases hc with rfl | rfl | rfl | rfl | hc
      · decide
      · decide
      · decide
      · decide
      · exact hr c hc
  | var v =>
    rw [WF] at hw
    rw [print]
    exact ⟨ident_atom hw, ident_classify hw⟩
  | bin | fn | str | neg | not | quant | sel | upd | ite | extract | concat => exact ha.elim

/-! ## First characters -/

theorem print_head : ∀ e : Expr, WF e → ∃ c r, print e = c :: r ∧ (atomChar c = true ∨ c ∈ ['(', '!', '"'])
  | .bool b, h | .rmode b, h | .int b, h | .bv b _, h | .fp b _ _ _ _, h | .fpSpecial b _ _, h | .var b, h => by
    obtain ⟨c, r, e, hc⟩ := atom_head (atom_print (by trivial) h).1
    exact ⟨c, r, e, .inl hc⟩
  | .bin op l r, _ => ⟨'(', _, by rw [print]; rfl, .inr (by decide)⟩
  | .fn f args, h => by
    rw [WF] at h
    obtain ⟨c, r, e, hc⟩ := atom_head (ident_atom h.1)
    exact ⟨c, _, by rw [print, e]; rfl, .inl hc⟩
  | .str v, _ => ⟨'"', _, by rw [print]; rfl, .inr (by decide)⟩
  | .neg e, _ => ⟨'-', _, by rw [print]; rfl, .inl (by decide)⟩
  | .not e, _ => ⟨'!', _, by rw [print]; rfl, .inr (by decide)⟩
  | .quant q vs e, _ => ⟨'(', _, by rw [print]; rfl, .inr (by decide)⟩
  | .sel b is, h => by
    rw [WF] at h
    obtain ⟨c, r, e, hc⟩ := print_head b h.1
    exact ⟨c, _, by rw [print, e]; rfl, hc⟩
  | .upd b is v, h => by
    rw [WF] at h
    obtain ⟨c, r, e, hc⟩ := print_head b h.1
    exact ⟨c, _, by rw [print, e]; rfl, hc⟩
  | .ite c t e, _ => ⟨'(', _, by rw [print]; rfl, .inr (by decide)⟩
  | .extract v u l, h => by
    rw [WF] at h
    obtain ⟨c, r, e, hc⟩ := print_head v h.1
    exact ⟨c, _, by rw [print, e]; rfl, hc⟩
  | .concat l r, _ => ⟨'(', _, by rw [print]; rfl, .inr (by decide)⟩

/-- The words that select a form of parenthesised expression. -/
def Kw (w : Str) : Prop := w ∈ [['i', 'f'], ['f', 'o', 'r', 'a', 'l', 'l'], ['e', 'x', 'i', 's', 't', 's']]

theorem kw_atom {w : Str} (h : Kw w) : ∀ c ∈ w, atomChar c = true := by
  simp only [Kw, List.mem_cons, List.not_mem_nil, or_false] at h
  rcases h with rfl | rfl | rfl <;> decide

theorem kw_head {w : Str} (h : Kw w) : ∀ c ∈ w.head?, c ∈ ['i', 'f', 'e'] := by
  simp only [Kw, List.mem_cons, List.not_mem_nil, or_false] at h
  rcases h with rfl | rfl | rfl <;> decide

theorem kw_ne_nil {w : Str} (h : Kw w) : w ≠ [] := by
  simp only [Kw, List.mem_cons, List.not_mem_nil, or_false] at h
  rcases h with rfl | rfl | rfl <;> decide

theorem kw_takeWhile {w a t : Str} (hw : Kw w) (ha : ∀ c ∈ a, atomChar c = true) (ht : ∀ c ∈ t.head?, atomChar c = false)
    (h : w ++ [' '] <+: a ++ t) : a = w := by
  obtain ⟨r, hr⟩ := h
  rw [← takeWhile_append_stop ha ht, ← hr, List.append_assoc]
  refine takeWhile_append_stop (kw_atom hw) ?_
  intro c hc
  have : c = ' ' := by simpa using hc.symm
  subst this; decide

theorem kw_first {w s : Str} {c : Char} (hw : Kw w) (hc : c ∉ ['i', 'f', 'e']) : ¬ w ++ [' '] <+: c :: s := by
  rintro ⟨r, hr⟩
  cases w with
  | nil => exact kw_ne_nil hw rfl
  | cons d w =>
    have := kw_head hw d (by simp)
    rw [(List.cons.inj hr).1] at this
    exact hc this

theorem kw_ident {w v : Str} (hw : Kw w) (hv : IdentOk v) : v ≠ w := by
  simp only [Kw, List.mem_cons, List.not_mem_nil, or_false] at hw
  rintro rfl
  apply hv.2.2.2
  simp only [reserved, List.mem_cons, List.not_mem_nil, or_false]
  rcases hw with h | h | h
  · simp [h]
  · simp [h]
  · simp [h]

theorem head_bracket {t : Str} : ∀ c ∈ ('[' :: t).head?, atomChar c = false := by
  intro c hc
  have : c = '[' := by simpa using hc.symm
  subst this; decide

theorem digit_not_kw {c : Char} (h : c.isDigit = true ∨ c = '-') : c ∉ ['i', 'f', 'e'] := by
  intro hc
  simp only [List.mem_cons, List.not_mem_nil, or_false] at hc
  rcases h with h | rfl
  · rcases hc with rfl | rfl | rfl <;> exact absurd h (by decide)
  · revert hc; decide

/-- A printed expression does not start with one of the words and a space. -/
theorem print_not_kw {w : Str} (hw : Kw w) : ∀ e : Expr, WF e → ∀ t : Str, (∀ c ∈ t.head?, atomChar c = false) →
    ¬ w ++ [' '] <+: print e ++ t
  | .bool b, _, t, ht => by
    intro h
    have := kw_takeWhile hw (a := print (.bool b)) (by cases b <;> decide) ht h
    simp only [Kw, ← this] at hw
    revert hw; cases b <;> decide
  | .rmode m, _, t, ht => by
    intro h
    have := kw_takeWhile hw (a := print (.rmode m)) (by cases m <;> decide) ht h
    simp only [Kw, ← this] at hw
    revert hw; cases m <;> decide
  | .int v, h, t, ht => by
    rw [WF] at h
    rw [print]
    rcases h with ⟨hn, hd⟩ | ⟨d, rfl, hn, hd⟩
    · cases v with
      | nil => exact absurd rfl hn
      | cons c v => exact kw_first hw (digit_not_kw (.inl (hd c (by simp))))
    · exact kw_first hw (by decide)
  | .bv v w', h, t, ht => by
    rw [WF] at h
    rw [print]
    cases v with
    | nil => exact absurd rfl h.1
    | cons c v => exact kw_first hw (digit_not_kw (.inl (h.2 c (by simp))))
  | .fp n sig expo ss es, _, t, ht => by
    rw [print]
    cases n
    · exact kw_first hw (by decide)
    · exact kw_first hw (by decide)
  | .fpSpecial v ss es, _, t, ht => by
    rw [print]
    exact kw_first hw (by decide)
  | .var v, h, t, ht => by
    rw [WF] at h
    rw [print]
    intro hp
    exact kw_ident hw h (kw_takeWhile hw (fun c hc => (h.2.1 c hc).1) ht hp)
  | .bin op l r, _, t, ht => by rw [print]; exact kw_first hw (by decide)
  | .fn f args, h, t, ht => by
    rw [WF] at h
    rw [print]
    intro hp
    rw [List.append_assoc, List.append_assoc, List.append_assoc] at hp
    refine kw_ident hw h.1 (kw_takeWhile hw (fun c hc => (h.1.2.1 c hc).1) ?_ hp)
    intro c hc
    have : c = '(' := by simpa using hc.symm
    subst this; decide
  | .str v, _, t, ht => by rw [print]; exact kw_first hw (by decide)
  | .neg e, _, t, ht => by rw [print]; exact kw_first hw (by decide)
  | .not e, _, t, ht => by rw [print]; exact kw_first hw (by decide)
  | .quant q vs e, _, t, ht => by rw [print]; exact kw_first hw (by decide)
  | .sel b is, h, t, ht => by
    rw [WF] at h
    rw [print]
    intro hp
    simp only [List.append_assoc] at hp
    exact print_not_kw hw b h.1 _ head_bracket hp
  | .upd b is v, h, t, ht => by
    rw [WF] at h
    rw [print]
    intro hp
    simp only [List.append_assoc] at hp
    exact print_not_kw hw b h.1 _ head_bracket hp
  | .ite c x e, _, t, ht => by rw [print]; exact kw_first hw (by decide)
  | .extract v u l, h, t, ht => by
    rw [WF] at h
    rw [print]
    intro hp
    simp only [List.append_assoc] at hp
    exact print_not_kw hw v h.1 _ head_bracket hp
  | .concat l r, _, t, ht => by rw [print]; exact kw_first hw (by decide)

/-! ## The parser on printed forms -/

/-- What the parser returns after a printed expression. -/
def fin : Expr → Str → Option (Expr × Str)
  | .neg e, t => some (.neg e, t)
  | .not e, t => some (.not e, t)
  | .str v, t => some (.str v, t)
  | e, t => parseSuffix e t

theorem suffix_end (e : Expr) {t : Str} (h : EndOk t) : parseSuffix e t = some (e, t) := by
  rw [parseSuffix.eq_def]
  split
  · exact absurd rfl (h.2 '[' (by simp))
  · rfl

theorem fin_end (e : Expr) {t : Str} (h : EndOk t) : fin e t = some (e, t) := by
  cases e <;> first | rfl | exact suffix_end _ h

theorem fin_base {e : Expr} (h : Base e) (t : Str) : fin e t = parseSuffix e t := by
  cases e <;> first | rfl | (unfold Base at h; exact h.elim)

/-- What follows a sequence. -/
def SeqEnd (t : Str) : Prop := EndOk t ∧ ∀ c ∈ t.head?, c ≠ ','

theorem more_end {t : Str} (h : SeqEnd t) : parseMore t = some ([], t) := by
  rw [parseMore.eq_def]
  split
  · exact absurd rfl (h.2 ',' (by simp))
  · rfl

theorem seq_end_of_char {c : Char} (t : Str) (h1 : atomChar c = false) (h : c ∉ ['(', '+', '[', ',']) : SeqEnd (c :: t) := by
  simp only [List.mem_cons, List.not_mem_nil, or_false, not_or] at h
  refine ⟨end_of_char t h1 h.1 h.2.1 h.2.2.1, ?_⟩
  intro d hd
  have : d = c := by simpa using hd.symm
  subst this; exact h.2.2.2

theorem seq_cons {e : Expr} (h : WF e) (x : Str) : parseSeq (print e ++ x) = (do
    let (e', r) ← parseE (print e ++ x)
    let (es, r) ← parseMore r
    return (e' :: es, r)) := by
  obtain ⟨c, r, he, hc⟩ := print_head e h
  rw [he, List.cons_append, parseSeq.eq_def]
  have hne : c ≠ ')' ∧ c ≠ ']' ∧ c ≠ ' ' := by
    rcases hc with hc | hc
    · refine ⟨?_, ?_, ?_⟩ <;> (intro e; subst e; revert hc; decide)
    · refine ⟨?_, ?_, ?_⟩ <;> (intro e; subst e; revert hc; decide)
  split
  · rename_i heq; exact absurd (List.cons.inj heq).1 hne.1
  · rename_i heq; exact absurd (List.cons.inj heq).1 hne.2.1
  · rename_i heq; exact absurd (List.cons.inj heq).1 hne.2.2
  · rfl

theorem parseOp_opStr (o : BinOp) : parseOp (opStr o) = some o := by cases o <;> decide

theorem opStr_noSpace (o : BinOp) : ∀ c ∈ opStr o, (decide (c ≠ ' ')) = true := by cases o <;> decide

/-! ## Bindings -/

theorem bindings_print : ∀ vs : List (Str × Str), (∀ b ∈ vs, IdentOk b.1 ∧ IdentOk b.2) → ∀ t : Str,
    parseBindings (printBindings vs ++ ' ' :: t) = some (vs, ' ' :: t)
  | [], _, t => by
    rw [parseBindings.eq_def]
    rw [if_pos (by simp [printBindings, atomChar])]
    rfl
  | [b], h, t => by
    obtain ⟨⟨n1, c1, _⟩, ⟨n2, c2, _⟩⟩ := h b (by simp)
    have s1 : ∀ c ∈ (':' :: ' ' :: (b.2 ++ ' ' :: t)).head?, atomChar c = false := by
      intro c hc
      have : c = ':' := by simpa using hc.symm
      subst this; decide
    have s2 : ∀ c ∈ (' ' :: t).head?, atomChar c = false := by
      intro c hc
      have : c = ' ' := by simpa using hc.symm
      subst this; decide
    have e : printBindings [b] ++ ' ' :: t = b.1 ++ ':' :: ' ' :: (b.2 ++ ' ' :: t) := by
      simp [printBindings, printBinding]
    rw [e, parseBindings.eq_def, takeWhile_append_stop (fun c hc => (c1 c hc).1) s1,
      dropWhile_append_stop (fun c hc => (c1 c hc).1) s1, if_neg n1]
    have : expect [':', ' '] (':' :: ' ' :: (b.2 ++ ' ' :: t)) = some (b.2 ++ ' ' :: t) := expect_append [':', ' '] _
    rw [this]
    simp only [bind, Option.bind]
    rw [takeWhile_append_stop (fun c hc => (c2 c hc).1) s2, dropWhile_append_stop (fun c hc => (c2 c hc).1) s2]
    have : expect [',', ' '] (' ' :: t) = none := by simp [expect]
    rw [this]
    rfl
  | b :: b' :: bs, h, t => by
    obtain ⟨⟨n1, c1, _⟩, ⟨n2, c2, _⟩⟩ := h b (by simp)
    have s1 : ∀ c ∈ (':' :: ' ' :: (b.2 ++ ',' :: ' ' :: (printBindings (b' :: bs) ++ ' ' :: t))).head?,
        atomChar c = false := by
      intro c hc
      have : c = ':' := by simpa using hc.symm
      subst this; decide
    have s2 : ∀ c ∈ (',' :: ' ' :: (printBindings (b' :: bs) ++ ' ' :: t)).head?, atomChar c = false := by
      intro c hc
      have : c = ',' := by simpa using hc.symm
      subst this; decide
    have e : printBindings (b :: b' :: bs) ++ ' ' :: t =
        b.1 ++ ':' :: ' ' :: (b.2 ++ ',' :: ' ' :: (printBindings (b' :: bs) ++ ' ' :: t)) := by
      simp [printBindings, printBinding]
    rw [e, parseBindings.eq_def, takeWhile_append_stop (fun c hc => (c1 c hc).1) s1,
      dropWhile_append_stop (fun c hc => (c1 c hc).1) s1, if_neg n1]
    have : ∀ s, expect [':', ' '] (':' :: ' ' :: s) = some s := expect_append [':', ' ']
    rw [this]
    simp only [bind, Option.bind]
    rw [takeWhile_append_stop (fun c hc => (c2 c hc).1) s2, dropWhile_append_stop (fun c hc => (c2 c hc).1) s2]
    have : ∀ s, expect [',', ' '] (',' :: ' ' :: s) = some s := expect_append [',', ' ']
    rw [this]
    simp only
    rw [bindings_print (b' :: bs) (fun x hx => h x (by simp [hx])) t]
    rfl

end Smack.Printer
