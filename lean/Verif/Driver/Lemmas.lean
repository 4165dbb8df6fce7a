import Verif.Driver.Spec

/-
Helper lemmas for C48-C51.
-/

namespace Smack.Driver

/-! ### Text -/

theorem splitLast_none {c : Char} {s : List Char} (h : c ∉ s) : splitLast c s = none := by
  induction s with
  | nil => rfl
  | cons d s ih =>
    rw [splitLast, ih (fun hm => h (List.mem_cons_of_mem _ hm))]
    have : d ≠ c := fun e => h (by rw [e]; exact List.mem_cons_self)
    simp [this]

theorem splitLast_append {c : Char} (a : List Char) {b : List Char} (h : c ∉ b) :
    splitLast c (a ++ c :: b) = some (a, b) := by
  induction a with
  | nil => rw [List.nil_append, splitLast, splitLast_none h]; simp
  | cons d a ih => rw [List.cons_append, splitLast, ih]

theorem takeWhile_all {p : Char → Bool} {a : List Char} (h : ∀ c ∈ a, p c = true) : a.takeWhile p = a := by
  induction a with
  | nil => rfl
  | cons c a ih =>
    rw [List.takeWhile_cons, if_pos (h c List.mem_cons_self), ih fun d hd => h d (List.mem_cons_of_mem _ hd)]

theorem dropWhile_all {p : Char → Bool} {a : List Char} (h : ∀ c ∈ a, p c = true) : a.dropWhile p = [] := by
  induction a with
  | nil => rfl
  | cons c a ih =>
    rw [List.dropWhile_cons, if_pos (h c List.mem_cons_self), ih fun d hd => h d (List.mem_cons_of_mem _ hd)]

theorem takeWhile_append_stop {p : Char → Bool} {a : List Char} (h : ∀ c ∈ a, p c = true) {b : List Char}
    (hb : b = [] ∨ ∃ d r, b = d :: r ∧ p d = false) : (a ++ b).takeWhile p = a := by
  induction a with
  | nil =>
    rcases hb with rfl | ⟨d, r, rfl, hd⟩
    · rfl
    · simp [hd]
  | cons c a ih =>
    rw [List.cons_append, List.takeWhile_cons, if_pos (h c List.mem_cons_self),
      ih fun d hd => h d (List.mem_cons_of_mem _ hd)]

theorem dropWhile_append_stop {p : Char → Bool} {a : List Char} (h : ∀ c ∈ a, p c = true) {b : List Char}
    (hb : b = [] ∨ ∃ d r, b = d :: r ∧ p d = false) : (a ++ b).dropWhile p = b := by
  induction a with
  | nil =>
    rcases hb with rfl | ⟨d, r, rfl, hd⟩
    · rfl
    · simp [hd]
  | cons c a ih =>
    rw [List.cons_append, List.dropWhile_cons, if_pos (h c List.mem_cons_self),
      ih fun d hd => h d (List.mem_cons_of_mem _ hd)]

/-- The greedy group up to the last `c` of the line. -/
theorem greedyTo_eq {c : Char} {e t : List Char} (he : e ≠ []) (hen : '\n' ∉ e) (hc : c ≠ '\n') (htn : '\n' ∉ t)
    (htc : c ∉ t) {eol : List Char} (heol : eol = [] ∨ ∃ r, eol = '\n' :: r) :
    greedyTo c (e ++ c :: (t ++ eol)) = some (e, t ++ eol) := by
  have hall : ∀ d ∈ e ++ c :: t, (d != '\n') = true := by
    intro d hd
    rcases List.mem_append.1 hd with hd | hd
    · exact bne_iff_ne.2 fun h => hen (h ▸ hd)
    · rcases List.mem_cons.1 hd with rfl | hd
      · exact bne_iff_ne.2 hc
      · exact bne_iff_ne.2 fun h => htn (h ▸ hd)
  have hstop : eol = [] ∨ ∃ d r, eol = d :: r ∧ (d != '\n') = false := by
    rcases heol with h | ⟨r, h⟩
    · exact Or.inl h
    · exact Or.inr ⟨_, r, h, by simp⟩
  have hs : e ++ c :: (t ++ eol) = (e ++ c :: t) ++ eol := by simp
  rw [greedyTo, hs, takeWhile_append_stop hall hstop, dropWhile_append_stop hall hstop, splitLast_append e htc]
  cases e with
  | nil => exact absurd rfl he
  | cons x e => rfl

theorem greedyTo_none_of_not_mem {c : Char} {s : List Char} (h : c ∉ s) : greedyTo c s = none := by
  rw [greedyTo, splitLast_none]
  intro hm
  exact h ((List.takeWhile_sublist _).subset hm)

theorem dropPrefix?_append (p s : List Char) : dropPrefix? p (p ++ s) = some s := by
  induction p with
  | nil => rfl
  | cons c p ih => rw [List.cons_append, dropPrefix?]; simp [ih]

theorem dropPrefix?_iff (p s r : List Char) : dropPrefix? p s = some r ↔ s = p ++ r := by
  constructor
  · intro h
    induction p generalizing s with
    | nil => simp [dropPrefix?] at h; simp [h]
    | cons c p ih =>
      cases s with
      | nil => simp [dropPrefix?] at h
      | cons d s =>
        rw [dropPrefix?] at h
        split at h
        · rename_i hcd
          rw [ih s h, eq_of_beq hcd]; rfl
        · cases h
  · intro h; rw [h]; exact dropPrefix?_append p r

theorem dropPrefix?_none {p s : List Char} (h : ∀ r, s ≠ p ++ r) : dropPrefix? p s = none := by
  cases hd : dropPrefix? p s with
  | none => rfl
  | some r => exact absurd ((dropPrefix?_iff p s r).1 hd) (h r)

theorem attrSplit_none (acc : List Char) {s : List Char} (h : '}' ∉ s) : attrSplit acc s = none := by
  induction s generalizing acc with
  | nil => rfl
  | cons c s ih =>
    rw [attrSplit]
    split
    · rfl
    · rw [ih _ fun hm => h (List.mem_cons_of_mem _ hm)]
      have : c ≠ '}' := fun e => h (by rw [e]; exact List.mem_cons_self)
      simp [this]

theorem attrSplit_eq (acc a : List Char) {s e t : List Char} (hne : acc ++ a ≠ []) (ha : '\n' ∉ a) (hs : '}' ∉ s)
    (hg : greedyTo ';' s = some (e, t)) : attrSplit acc (a ++ '}' :: s) = some (acc.reverse ++ a, e, t) := by
  induction a generalizing acc with
  | nil =>
    rw [List.nil_append, attrSplit]
    rw [attrSplit_none _ hs]
    have : acc ≠ [] := by simpa using hne
    simp [hg, this]
  | cons c a ih =>
    rw [List.cons_append, attrSplit]
    have hc : c ≠ '\n' := fun e => ha (by rw [e]; exact List.mem_cons_self)
    rw [ih (c :: acc) (by simp) fun hm => ha (List.mem_cons_of_mem _ hm)]
    simp [hc]

/-! ### Character classes -/

theorem char_le_iff (c d : Char) : c ≤ d ↔ c.toNat ≤ d.toNat := by
  show c.val ≤ d.val ↔ _
  rw [UInt32.le_iff_toNat_le]; rfl

theorem isWs_iff (c : Char) : isWs c = true ↔ Blank c := by
  have e : ∀ d : Char, c = d ↔ c.toNat = d.toNat := fun d => Char.toNat_inj.symm
  simp only [isWs, Blank, Bool.or_eq_true, beq_iff_eq, Bool.and_eq_true, decide_eq_true_eq, List.mem_cons,
    List.not_mem_nil, or_false, e, char_le_iff]
  simp only [show ' '.toNat = 32 from rfl, show '\t'.toNat = 9 from rfl, show '\n'.toNat = 10 from rfl,
    show '\r'.toNat = 13 from rfl, show '\x0b'.toNat = 11 from rfl, show '\x0c'.toNat = 12 from rfl,
    show '\x1c'.toNat = 28 from rfl, show '\x1d'.toNat = 29 from rfl, show '\x1e'.toNat = 30 from rfl,
    show '\x1f'.toNat = 31 from rfl]
  omega

theorem isWs_false_iff (c : Char) : isWs c = false ↔ ¬Blank c := by
  rw [← isWs_iff]; simp

theorem isFileChar_iff (c : Char) : isFileChar c = true ↔ FileChar c := by
  have h : "_#$~%./-".toList = ['_', '#', '$', '~', '%', '.', '/', '-'] := by decide
  have h1 : c.isUpper = true ↔ 'A' ≤ c ∧ c ≤ 'Z' := by
    simp only [Char.isUpper, decide_eq_true_eq]; exact Iff.rfl
  have h2 : c.isLower = true ↔ 'a' ≤ c ∧ c ≤ 'z' := by
    simp only [Char.isLower, Bool.and_eq_true, decide_eq_true_eq]; exact Iff.rfl
  simp only [isFileChar, FileChar, Char.isAlpha, isDig, Bool.or_eq_true, h1, h2, beq_iff_eq, Bool.and_eq_true,
    decide_eq_true_eq, h, List.mem_cons, List.not_mem_nil, or_false]
  constructor
  · rintro ((((((((((h | h) | h) | h) | h) | h) | h) | h) | h) | h) | h) <;> simp [h]
  · rintro (h | h | h | h | h | h | h | h | h | h | h) <;> simp [h]

/-! ### Assertion lines -/

theorem matchAssert_attr {l : AssertLine} (h : l.Wf) {a : List Char} (ha : l.attr = some a) :
    matchAssert l.text = some ⟨l.indent ++ "assert ".toList, some a, ' ' :: l.expr, l.tail ++ l.eol⟩ := by
  obtain ⟨c, r, hc, hws', hbr⟩ := h.expr_ne
  have hws := (isWs_false_iff c).2 hws'
  have hindent : ∀ c ∈ l.indent, isWs c = true := fun c hc => (isWs_iff c).2 (h.indent c hc)
  obtain ⟨ha1, ha2, ha3⟩ := h.attr a ha
  have htext : l.text = l.indent ++ ('a' :: ("ssert ".toList ++ ("{:".toList ++ (a ++ '}' :: (' ' :: l.expr ++ ';' :: (l.tail ++ l.eol)))))) := by
    simp [AssertLine.text, ha]
  have h1 : l.text.takeWhile isWs = l.indent := by
    rw [htext]; exact takeWhile_append_stop hindent (Or.inr ⟨_, _, rfl, rfl⟩)
  have h2 : l.text.dropWhile isWs = "assert".toList ++ (' ' :: ("{:".toList ++ (a ++ '}' :: (' ' :: l.expr ++ ';' :: (l.tail ++ l.eol))))) := by
    rw [htext, dropWhile_append_stop hindent (Or.inr ⟨_, _, rfl, rfl⟩)]; rfl
  have hg : greedyTo ';' (' ' :: l.expr ++ ';' :: (l.tail ++ l.eol)) = some (' ' :: l.expr, l.tail ++ l.eol) := by
    refine greedyTo_eq (by simp) ?_ (by decide) h.tail.1 h.tail.2.2 ?_
    · simp [h.expr.1]
    · rcases h.eol with h | h
      · exact Or.inl h
      · exact Or.inr ⟨[], h⟩
  have hbrace : '}' ∉ ' ' :: l.expr ++ ';' :: (l.tail ++ l.eol) := by
    have : '}' ∉ l.eol := by rcases h.eol with h | h <;> rw [h] <;> decide
    simp [h.expr.2, h.tail.2.1, this]
  have hs := attrSplit_eq [] a (by simpa using ha1) ha2 hbrace hg
  rw [matchAssert, h1, h2, dropPrefix?_append]
  have h3 : (' ' :: ("{:".toList ++ (a ++ '}' :: (' ' :: l.expr ++ ';' :: (l.tail ++ l.eol))))).dropWhile isWs
      = "{:".toList ++ (a ++ '}' :: (' ' :: l.expr ++ ';' :: (l.tail ++ l.eol))) := by
    simp [isWs]
  have h4 : (' ' :: ("{:".toList ++ (a ++ '}' :: (' ' :: l.expr ++ ';' :: (l.tail ++ l.eol))))).takeWhile isWs = [' '] := by
    simp [isWs]
  simp only [h3, h4, dropPrefix?_append, hs]
  simp

theorem matchAssert_plain {l : AssertLine} (h : l.Wf) (ha : l.attr = none) :
    matchAssert l.text = some ⟨l.indent ++ "assert ".toList, none, l.expr, l.tail ++ l.eol⟩ := by
  obtain ⟨c, r, hc, hws', hbr⟩ := h.expr_ne
  have hws := (isWs_false_iff c).2 hws'
  have hindent : ∀ c ∈ l.indent, isWs c = true := fun c hc => (isWs_iff c).2 (h.indent c hc)
  have htext : l.text = l.indent ++ ('a' :: ("ssert ".toList ++ (l.expr ++ ';' :: (l.tail ++ l.eol)))) := by
    simp [AssertLine.text, ha]
  have h1 : l.text.takeWhile isWs = l.indent := by
    rw [htext]; exact takeWhile_append_stop hindent (Or.inr ⟨_, _, rfl, rfl⟩)
  have h2 : l.text.dropWhile isWs = "assert".toList ++ (' ' :: (l.expr ++ ';' :: (l.tail ++ l.eol))) := by
    rw [htext, dropWhile_append_stop hindent (Or.inr ⟨_, _, rfl, rfl⟩)]; rfl
  have hg : greedyTo ';' (l.expr ++ ';' :: (l.tail ++ l.eol)) = some (l.expr, l.tail ++ l.eol) := by
    refine greedyTo_eq (by simp [hc]) h.expr.1 (by decide) h.tail.1 h.tail.2.2 ?_
    rcases h.eol with h | h
    · exact Or.inl h
    · exact Or.inr ⟨[], h⟩
  rw [matchAssert, h1, h2, dropPrefix?_append]
  have h3 : (' ' :: (l.expr ++ ';' :: (l.tail ++ l.eol))).dropWhile isWs = l.expr ++ ';' :: (l.tail ++ l.eol) := by
    rw [hc]; simp [hws, show isWs ' ' = true from rfl]
  have h4 : (' ' :: (l.expr ++ ';' :: (l.tail ++ l.eol))).takeWhile isWs = [' '] := by
    rw [hc]; simp [hws, show isWs ' ' = true from rfl]
  have h5 : dropPrefix? "{:".toList (l.expr ++ ';' :: (l.tail ++ l.eol)) = none := by
    refine dropPrefix?_none fun r' he => ?_
    rw [hc] at he
    simp at he
    exact hbr he.1
  simp only [h3, h4, h5, hg]
  simp

/-- What the selection does with a well-formed assertion line. -/
theorem selectLine_eq {l : AssertLine} (h : l.Wf) (sel : List (List Char)) :
    selectLine sel l.text =
      if sel = [] ∨ ∃ a, l.attr = some a ∧ a ∈ sel then l.text else l.disabled.text := by
  cases ha : l.attr with
  | none =>
    rw [selectLine, matchAssert_plain h ha]
    simp only [List.isEmpty_iff]
    by_cases hs : sel = []
    · simp [hs]
    · simp [hs, AssertLine.text, AssertLine.disabled]
  | some a =>
    rw [selectLine, matchAssert_attr h ha]
    simp only [List.isEmpty_iff]
    by_cases hs : sel = []
    · simp [hs]
    · by_cases hm : a ∈ sel
      · simp [hs, hm, AssertLine.text, ha]
      · simp [hs, hm, AssertLine.text, AssertLine.disabled]

theorem attr_injective {p q : Prp} (h : p.attr = q.attr) : p = q := by
  cases p <;> cases q <;> first | rfl | (revert h; decide)

theorem mem_selectedProps {check : Check} {p : Prp} {a : List Char} (ha : p.attr = some a) :
    a ∈ selectedProps check ↔ p ∈ memSafeSubprops ∧ check p = true := by
  rw [selectedProps, List.mem_filterMap]
  constructor
  · rintro ⟨q, hq, hqa⟩
    have : q = p := attr_injective (by rw [ha, hqa])
    subst this
    exact List.mem_filter.1 hq
  · intro h
    exact ⟨p, List.mem_filter.2 h, ha⟩

/-! ### The three questions to the output -/

theorem num_iff (m : List Char) : Matches reNum m ↔ PosNum m := by
  rw [reNum, seq_iff]
  constructor
  · rintro ⟨u, v, h, hu, hv⟩
    obtain ⟨c, rfl, hc⟩ := (chr_iff _ _).1 hu
    exact ⟨c, v, h, hc, (star_chr_iff _ _).1 hv⟩
  · rintro ⟨d, ds, h, hd, hds⟩
    exact ⟨[d], ds, h, .chr hd, (star_chr_iff _ _).2 hds⟩

theorem errors_iff (m : List Char) : Matches reErrors m ↔ m = "error".toList ∨ m = "errors".toList := by
  rw [reErrors, seq_iff]
  constructor
  · rintro ⟨u, v, h, hu, hv⟩
    rw [reLit, lit_iff] at hu
    rw [alt_iff] at hv
    rcases hv with hv | hv
    · obtain ⟨c, hc1, hc2⟩ := (chr_iff _ _).1 hv
      have hc2 : c = 's' := by simpa using hc2
      exact Or.inr (by rw [h, hu, hc1, hc2]; rfl)
    · cases hv
      exact Or.inl (by rw [h, hu]; rfl)
  · rintro (h | h)
    · exact ⟨"error".toList, [], by rw [h]; rfl, (lit_iff _ _).2 rfl, .altr .eps⟩
    · exact ⟨"error".toList, ['s'], by rw [h]; rfl, (lit_iff _ _).2 rfl, .altl (.chr rfl)⟩

theorem search_alt (a b : RE) (s : List Char) : (RE.alt a b).search s = true ↔ a.search s = true ∨ b.search s = true := by
  simp only [search_iff, alt_iff]
  constructor
  · rintro ⟨x, m, y, h, hm | hm⟩
    · exact Or.inl ⟨x, m, y, h, hm⟩
    · exact Or.inr ⟨x, m, y, h, hm⟩
  · rintro (⟨x, m, y, h, hm⟩ | ⟨x, m, y, h, hm⟩)
    · exact ⟨x, m, y, h, Or.inl hm⟩
    · exact ⟨x, m, y, h, Or.inr hm⟩

theorem search_lit (l : String) (s : List Char) : (reLit l).search s = true ↔ Occurs l.toList s := by
  rw [search_iff]
  constructor
  · rintro ⟨x, m, y, h, hm⟩
    rw [reLit, lit_iff] at hm
    exact ⟨x, y, by rw [h, hm]⟩
  · rintro ⟨x, y, h⟩
    exact ⟨x, _, y, h, (lit_iff _ _).2 rfl⟩

theorem timeout_iff (out : List Char) : reTimeout.search out = true ↔ SaysTimeout out := by
  rw [reTimeout, search_alt, search_alt, search_alt, search_lit, search_lit, search_lit, SaysTimeout]
  have : (RE.seq reNum (reLit " time out")).search out = true ↔ ∃ n, PosNum n ∧ Occurs (n ++ " time out".toList) out := by
    rw [search_iff]
    constructor
    · rintro ⟨x, m, y, h, hm⟩
      obtain ⟨u, v, hm, hu, hv⟩ := (seq_iff _ _ _).1 hm
      rw [reLit, lit_iff] at hv
      exact ⟨u, (num_iff u).1 hu, x, y, by rw [h, hm, hv]⟩
    · rintro ⟨n, hn, x, y, h⟩
      exact ⟨x, _, y, h, .seq ((num_iff n).2 hn) ((lit_iff _ _).2 rfl)⟩
  rw [this]

theorem verified_iff (out : List Char) : reVerified.search out = true ↔ SaysSuccess out := by
  rw [reVerified, search_alt, search_alt, search_lit, search_lit, SaysSuccess]
  have : (RE.seq reNum (.seq (reLit " verified, 0 ") reErrors)).search out = true ↔
      ∃ n, PosNum n ∧ Occurs (n ++ " verified, 0 error".toList) out := by
    rw [search_iff]
    constructor
    · rintro ⟨x, m, y, h, hm⟩
      obtain ⟨u, v, hm, hu, hv⟩ := (seq_iff _ _ _).1 hm
      obtain ⟨v1, v2, hv, hv1, hv2⟩ := (seq_iff _ _ _).1 hv
      rw [reLit, lit_iff] at hv1
      refine ⟨u, (num_iff u).1 hu, x, ?_⟩
      rcases (errors_iff v2).1 hv2 with he | he
      · exact ⟨y, by rw [h, hm, hv, hv1, he]; simp⟩
      · exact ⟨'s' :: y, by rw [h, hm, hv, hv1, he]; simp⟩
    · rintro ⟨n, hn, x, y, h⟩
      refine ⟨x, n ++ (" verified, 0 ".toList ++ "error".toList), y, by rw [h]; simp, ?_⟩
      exact .seq ((num_iff n).2 hn) (.seq ((lit_iff _ _).2 rfl) ((errors_iff _).2 (Or.inl rfl)))
  rw [this]

theorem failed_iff (out : List Char) : reFailed.search out = true ↔ SaysFailure out := by
  rw [reFailed, search_alt, search_alt, search_lit, search_lit, SaysFailure]
  have : (RE.seq (.star (.chr isDig)) (.seq (reLit " verified, ") (.seq reNum (.seq (reLit " ") reErrors)))).search out = true ↔
      ∃ n, PosNum n ∧ Occurs (" verified, ".toList ++ n ++ " error".toList) out := by
    rw [search_iff]
    constructor
    · rintro ⟨x, m, y, h, hm⟩
      obtain ⟨u, v, hm, hu, hv⟩ := (seq_iff _ _ _).1 hm
      obtain ⟨v1, v2, hv, hv1, hv2⟩ := (seq_iff _ _ _).1 hv
      obtain ⟨v3, v4, hv', hv3, hv4⟩ := (seq_iff _ _ _).1 hv2
      obtain ⟨v5, v6, hv'', hv5, hv6⟩ := (seq_iff _ _ _).1 hv4
      rw [reLit, lit_iff] at hv1 hv5
      refine ⟨v3, (num_iff v3).1 hv3, x ++ u, ?_⟩
      rcases (errors_iff v6).1 hv6 with he | he
      · exact ⟨y, by rw [h, hm, hv, hv1, hv', hv'', hv5, he]; simp⟩
      · exact ⟨'s' :: y, by rw [h, hm, hv, hv1, hv', hv'', hv5, he]; simp⟩
    · rintro ⟨n, hn, x, y, h⟩
      refine ⟨x, [] ++ (" verified, ".toList ++ (n ++ (" ".toList ++ "error".toList))), y, by rw [h]; simp, ?_⟩
      exact .seq .star_nil (.seq ((lit_iff _ _).2 rfl) (.seq ((num_iff n).2 hn)
        (.seq ((lit_iff _ _).2 rfl) ((errors_iff _).2 (Or.inl rfl)))))
  rw [this]

theorem kindOf_table {a : List Char} {r : VRes} (h : (a, r) ∈ kindTable) : kindOf (some a) = r := by
  simp only [kindTable, List.mem_cons, Prod.mk.injEq, List.not_mem_nil, or_false] at h
  rcases h with ⟨h1, h2⟩ | ⟨h1, h2⟩ | ⟨h1, h2⟩ | ⟨h1, h2⟩ | ⟨h1, h2⟩ <;> rw [h1, h2] <;> decide

theorem kindOf_other {a : List Char} (h : a ∉ kindTable.map Prod.fst) : kindOf (some a) = .assertionFailure := by
  have hf : (memSafeSubprops ++ [Prp.integerOverflow, Prp.rustPanics]).find? (fun p => p.attr == some a) = none := by
    rw [List.find?_eq_none]
    intro p hp hpa
    refine h ?_
    have hpa := eq_of_beq hpa
    simp only [memSafeSubprops, List.cons_append, List.nil_append, List.mem_cons, List.not_mem_nil, or_false] at hp
    rcases hp with rfl | rfl | rfl | rfl | rfl <;> simp only [Prp.attr, Option.some.injEq] at hpa <;> rw [← hpa] <;> decide
  rw [kindOf]
  simp only [hf]

theorem kindOf_iff (a : List Char) (r : VRes) : kindOf (some a) = r ↔ HasKind a r := by
  constructor
  · intro h
    by_cases hm : a ∈ kindTable.map Prod.fst
    · obtain ⟨⟨b, r'⟩, hb, hba⟩ := List.mem_map.1 hm
      have hba : b = a := hba
      rw [hba] at hb
      rw [kindOf_table hb] at h
      rw [← h]; exact Or.inl hb
    · exact Or.inr ⟨hm, by rw [← h, kindOf_other hm]⟩
  · rintro (h | ⟨h, h2⟩)
    · exact kindOf_table h
    · rw [kindOf_other h, h2]

/-! ### Attributes in the output -/

theorem findAttr_here (pre : List Char) (hpre : pre ≠ []) {a t eol : List Char} (ha : a ≠ []) (han : '\n' ∉ a)
    (htn : '\n' ∉ t) (htb : '}' ∉ t) (heol : eol = [] ∨ ∃ r, eol = '\n' :: r) :
    findAttr pre (pre ++ (a ++ '}' :: (t ++ eol))) = some a := by
  cases pre with
  | nil => exact absurd rfl hpre
  | cons c p =>
    have hd := dropPrefix?_append (c :: p) (a ++ '}' :: (t ++ eol))
    rw [List.cons_append] at hd ⊢
    rw [findAttr, hd]
    simp only [greedyTo_eq (c := '}') ha han (by decide) htn htb heol]

theorem findAttr_skip (pre : List Char) {x y : List Char}
    (h : ∀ u v, x ++ y = u ++ (pre ++ v) → x.length ≤ u.length) : findAttr pre (x ++ y) = findAttr pre y := by
  induction x with
  | nil => rfl
  | cons c x ih =>
    rw [List.cons_append, findAttr]
    have : dropPrefix? pre (c :: (x ++ y)) = none := by
      refine dropPrefix?_none fun r hr => ?_
      have := h [] r (by rw [← hr]; rfl)
      simp at this
    rw [this]
    refine ih fun u v he => ?_
    have := h (c :: u) v (by simp [he])
    simpa using this

theorem findAttr_none {pre s : List Char} (h : ¬Occurs pre s) : findAttr pre s = none := by
  have := findAttr_skip pre (x := s) (y := []) (fun u v he => absurd ⟨u, v, by simpa using he⟩ h)
  rw [List.append_nil] at this
  rw [this]; rfl

theorem findAttr_no_brace (pre : List Char) {s : List Char} (h : '}' ∉ s) : findAttr pre s = none := by
  induction s with
  | nil => rfl
  | cons c s ih =>
    have hs : '}' ∉ s := fun hm => h (List.mem_cons_of_mem _ hm)
    rw [findAttr]
    cases hd : dropPrefix? pre (c :: s) with
    | none => exact ih hs
    | some r =>
      have he := (dropPrefix?_iff _ _ _).1 hd
      have hr : '}' ∉ r := fun hm => h (by rw [he]; exact List.mem_append_right _ hm)
      dsimp only
      rw [greedyTo_none_of_not_mem hr]
      exact ih hs

theorem boogieErrHere_eq {name l c r : List Char} (hn : name ≠ []) (hnf : ∀ x ∈ name, isFileChar x = true)
    (hl : l ≠ []) (hld : ∀ x ∈ l, isDig x = true) (hc : c ≠ []) (hcd : ∀ x ∈ c, isDig x = true) :
    boogieErrHere (name ++ ('(' :: (l ++ (',' :: (c ++ (boogieMsg ++ r)))))) = some (name, natOf l) := by
  have e1 : ∀ b : List Char, ('(' :: b) = [] ∨ ∃ d r, ('(' :: b) = d :: r ∧ isFileChar d = false :=
    fun b => Or.inr ⟨_, _, rfl, by decide⟩
  have e2 : ∀ b : List Char, (',' :: b) = [] ∨ ∃ d r, (',' :: b) = d :: r ∧ isDig d = false :=
    fun b => Or.inr ⟨_, _, rfl, by decide⟩
  have e3 : (boogieMsg ++ r) = [] ∨ ∃ d r', (boogieMsg ++ r) = d :: r' ∧ isDig d = false :=
    Or.inr ⟨')', ": Error: This assertion might not hold".toList ++ r, List.cons_append, by decide⟩
  have hd1 : ∀ b : List Char, dropPrefix? ['('] ('(' :: b) = some b := fun b => dropPrefix?_append ['('] b
  have hd2 : ∀ b : List Char, dropPrefix? [','] (',' :: b) = some b := fun b => dropPrefix?_append [','] b
  rw [boogieErrHere, takeWhile_append_stop hnf (e1 _), dropWhile_append_stop hnf (e1 _), hd1]
  dsimp only
  rw [takeWhile_append_stop hld (e2 _), dropWhile_append_stop hld (e2 _), hd2]
  dsimp only
  rw [takeWhile_append_stop hcd e3, dropWhile_append_stop hcd e3, dropPrefix?_append]
  rw [if_neg (by simpa using hn), if_neg (by simpa using hl), if_neg (by simpa using hc)]

theorem dropWhile_stops {p : Char → Bool} (u : List Char) (d : Char) (y : List Char) (hd : p d = false) :
    ∃ b e, (u ++ (d :: y)).dropWhile p = b :: e ∧ b ∈ u ++ [d] := by
  induction u with
  | nil => exact ⟨d, y, by simp [hd], by simp⟩
  | cons f u ihu =>
    rw [List.cons_append, List.dropWhile_cons]
    split
    · obtain ⟨b, e, h1, h2⟩ := ihu
      exact ⟨b, e, h1, List.mem_cons_of_mem _ h2⟩
    · exact ⟨f, _, rfl, List.mem_cons_self⟩

theorem boogieErrHere_none {s : List Char} {b : Char} {e : List Char} (h : s.dropWhile isFileChar = b :: e) (hb : b ≠ '(') :
    boogieErrHere s = none := by
  have : dropPrefix? ['('] (b :: e) = none := by
    refine dropPrefix?_none fun r hr => ?_
    rw [List.cons_append] at hr
    exact hb (List.cons.inj hr).1
  rw [boogieErrHere, h, this]
  dsimp only
  split <;> rfl

theorem boogieErr_cons {c : Char} {s : List Char} (h : boogieErrHere (c :: s) = none) :
    boogieErr (c :: s) = boogieErr s := by
  rw [boogieErr, h, Option.none_or]

/-- Text without an opening parenthesis that ends in a character which cannot belong to a file name is skipped. -/
theorem boogieErr_skip {x y : List Char} (hp : '(' ∉ x) (hend : x = [] ∨ ∃ u d, x = u ++ [d] ∧ isFileChar d = false) :
    boogieErr (x ++ y) = boogieErr y := by
  induction x with
  | nil => rfl
  | cons c x ih =>
    rcases hend with h | ⟨u, d, h, hd⟩
    · cases h
    · have hrec : boogieErr (x ++ y) = boogieErr y := by
        refine ih (fun hm => hp (List.mem_cons_of_mem _ hm)) ?_
        cases u with
        | nil =>
          rw [List.nil_append] at h
          exact Or.inl (List.cons.inj h).2
        | cons c' u =>
          rw [List.cons_append] at h
          exact Or.inr ⟨u, d, (List.cons.inj h).2, hd⟩
      have hxy : c :: (x ++ y) = u ++ (d :: y) := by rw [← List.cons_append, h]; simp
      obtain ⟨b, e, h1, h2⟩ := dropWhile_stops u d y hd
      rw [← hxy] at h1
      rw [← h] at h2
      have hb : b ≠ '(' := by
        intro he
        rw [he] at h2
        exact hp h2
      rw [List.cons_append, boogieErr_cons (boogieErrHere_none h1 hb), hrec]

/-! ### Substrings and numerals -/

theorem hasSub_iff (p s : List Char) : hasSub p s = true ↔ Occurs p s := by
  induction s with
  | nil =>
    rw [hasSub, Option.isSome_iff_exists]
    constructor
    · rintro ⟨r, hr⟩
      have := (dropPrefix?_iff _ _ _).1 hr
      exact ⟨[], r, by rw [List.nil_append]; exact this⟩
    · rintro ⟨a, b, h⟩
      have h1 := List.append_eq_nil_iff.1 h.symm
      have h2 := List.append_eq_nil_iff.1 h1.1
      exact ⟨[], by rw [h2.2]; rfl⟩
  | cons c s ih =>
    rw [hasSub, Bool.or_eq_true, Option.isSome_iff_exists, ih]
    constructor
    · rintro (⟨r, hr⟩ | ⟨a, b, h⟩)
      · exact ⟨[], r, (dropPrefix?_iff _ _ _).1 hr⟩
      · exact ⟨c :: a, b, by rw [h]; rfl⟩
    · rintro ⟨a, b, h⟩
      cases a with
      | nil => exact Or.inl ⟨b, (dropPrefix?_iff _ _ _).2 h⟩
      | cons d a => exact Or.inr ⟨a, b, (List.cons.inj h).2⟩

theorem dig19_dig {c : Char} (h : isDig19 c = true) : isDig c = true := by
  simp only [isDig19, isDig, Bool.and_eq_true, decide_eq_true_eq] at h ⊢
  exact ⟨Char.le_trans (by decide) h.1, h.2⟩

theorem posNum_dig {n : List Char} (h : PosNum n) : ∀ c ∈ n, isDig c = true := by
  obtain ⟨d, ds, rfl, hd, hds⟩ := h
  intro c hc
  rcases List.mem_cons.1 hc with rfl | hc
  · exact dig19_dig hd
  · exact hds c hc

/-- Text without `c` has no substring with `c`. -/
theorem not_occurs_of_char {p s : List Char} (c : Char) (hp : c ∈ p) (hs : c ∉ s) : ¬Occurs p s := by
  rintro ⟨a, b, h⟩
  exact hs (by rw [h]; exact List.mem_append_left _ (List.mem_append_right _ hp))

theorem dig_not {v : List Char} (hv : ∀ c ∈ v, isDig c = true) (x : Char) (hx : isDig x = false) : x ∉ v := by
  intro hm
  rw [hv x hm] at hx; cases hx

theorem summary_eq (v e : List Char) (b : Bool) : boogieSummary v e b =
    "Boogie program verifier finished with ".toList ++ v ++ " verified, ".toList ++ e ++ " error".toList ++
    (if b then ['s'] else []) := rfl

theorem summary_not_mem {v e : List Char} (hv : ∀ c ∈ v, isDig c = true) (he : ∀ c ∈ e, isDig c = true) (b : Bool) (x : Char)
    (hx : isDig x = false) (h1 : x ∉ "Boogie program verifier finished with ".toList) (h2 : x ∉ " verified, ".toList)
    (h3 : x ∉ " errors".toList) : x ∉ boogieSummary v e b := by
  have h4 : x ∉ " error".toList ++ (if b then ['s'] else []) := by
    have h5 : " errors".toList = " error".toList ++ ['s'] := rfl
    rw [h5, List.mem_append] at h3
    rw [List.mem_append]
    rintro (hm | hm)
    · exact h3 (Or.inl hm)
    · cases b with
      | false => rw [if_neg (by decide)] at hm; cases hm
      | true => rw [if_pos rfl] at hm; exact h3 (Or.inr hm)
  intro hm
  rw [summary_eq, List.append_assoc] at hm
  rcases List.mem_append.1 hm with hm | hm
  · rcases List.mem_append.1 hm with hm | hm
    · rcases List.mem_append.1 hm with hm | hm
      · rcases List.mem_append.1 hm with hm | hm
        · exact h1 hm
        · exact dig_not hv x hx hm
      · exact h2 hm
    · exact dig_not he x hx hm
  · exact h4 hm

theorem summary_no_timeout {v e : List Char} (hv : ∀ c ∈ v, isDig c = true) (he : ∀ c ∈ e, isDig c = true) (b : Bool) :
    ¬SaysTimeout (boogieSummary v e b) := by
  have hu : 'u' ∉ boogieSummary v e b := summary_not_mem hv he b 'u' (by decide) (by decide) (by decide) (by decide)
  have hE : 'E' ∉ boogieSummary v e b := summary_not_mem hv he b 'E' (by decide) (by decide) (by decide) (by decide)
  rintro (⟨n, _, h⟩ | h | h | h)
  · exact not_occurs_of_char 'u' (List.mem_append_right _ (by decide)) hu h
  · exact not_occurs_of_char 'u' (by decide) hu h
  · exact not_occurs_of_char 'u' (by decide) hu h
  · exact not_occurs_of_char 'E' (by decide) hE h

theorem split_unique {c : Char} {a b x y : List Char} (ha : c ∉ a) (hb : c ∉ b) (h : a ++ c :: b = x ++ c :: y) : b = y := by
  induction a generalizing x with
  | nil =>
    cases x with
    | nil => exact (List.cons.inj h).2
    | cons d x =>
      rw [List.nil_append, List.cons_append] at h
      have := (List.cons.inj h).2
      exact absurd (by rw [this]; simp) hb
  | cons d a ih =>
    cases x with
    | nil =>
      rw [List.cons_append, List.nil_append] at h
      exact absurd (by rw [(List.cons.inj h).1]; exact List.mem_cons_self) ha
    | cons d' x =>
      rw [List.cons_append, List.cons_append] at h
      exact ih (fun hm => ha (List.mem_cons_of_mem _ hm)) (List.cons.inj h).2

theorem inconclusive_no_timeout {v n : List Char} (hv : ∀ c ∈ v, isDig c = true) (hn : ∀ c ∈ n, isDig c = true) :
    ¬SaysTimeout (boogieSummary v ['0'] true ++ (", ".toList ++ (n ++ " inconclusive".toList))) := by
  have key : ∀ x, isDig x = false → x ∉ "Boogie program verifier finished with ".toList → x ∉ " verified, ".toList →
      x ∉ " errors".toList → x ∉ " inconclusive".toList →
      x ∉ boogieSummary v ['0'] true ++ (", ".toList ++ (n ++ " inconclusive".toList)) := by
    intro x hx h1 h2 h3 h4 hm
    rcases List.mem_append.1 hm with hm | hm
    · exact summary_not_mem hv (by decide) true x hx h1 h2 h3 hm
    · rcases List.mem_append.1 hm with hm | hm
      · refine h2 ?_
        have : " verified, ".toList = " verified".toList ++ ", ".toList := by decide
        rw [this]; exact List.mem_append_right _ hm
      · rcases List.mem_append.1 hm with hm | hm
        · exact dig_not hn x hx hm
        · exact h4 hm
  have hZ := key 'Z' (by decide) (by decide) (by decide) (by decide) (by decide)
  have hE := key 'E' (by decide) (by decide) (by decide) (by decide) (by decide)
  -- the only `t` is the one of "with"
  have ht : ∀ x q, boogieSummary v ['0'] true ++ (", ".toList ++ (n ++ " inconclusive".toList)) ≠ x ++ 't' :: 'i' :: q := by
    intro x q h
    have h1 : boogieSummary v ['0'] true ++ (", ".toList ++ (n ++ " inconclusive".toList)) =
        "Boogie program verifier finished wi".toList ++ 't' :: ('h' :: (' ' :: (v ++ (" verified, 0 errors, ".toList ++ (n ++ " inconclusive".toList))))) := by
      simp [summary_eq]
    rw [h1] at h
    have h2 : 't' ∉ 'h' :: (' ' :: (v ++ (" verified, 0 errors, ".toList ++ (n ++ " inconclusive".toList)))) := by
      intro hm
      rcases List.mem_cons.1 hm with hm | hm
      · revert hm; decide
      · rcases List.mem_cons.1 hm with hm | hm
        · revert hm; decide
        · rcases List.mem_append.1 hm with hm | hm
          · exact dig_not hv 't' (by decide) hm
          · rcases List.mem_append.1 hm with hm | hm
            · revert hm; decide
            · rcases List.mem_append.1 hm with hm | hm
              · exact dig_not hn 't' (by decide) hm
              · revert hm; decide
    have h3 := split_unique (by decide) h2 h
    have h4 := (List.cons.inj h3).1
    revert h4; decide
  rintro (⟨k, _, x, y, h⟩ | h | ⟨x, y, h⟩ | h)
  · exact ht (x ++ k ++ [' ']) ("me out".toList ++ y) (by rw [h]; simp)
  · exact not_occurs_of_char 'Z' (by decide) hZ h
  · exact ht x ("med out".toList ++ y) (by rw [h]; simp)
  · exact not_occurs_of_char 'E' (by decide) hE h

theorem summary_no_success {v e : List Char} (hv : ∀ c ∈ v, isDig c = true) (he : PosNum e) (b : Bool) :
    ¬SaysSuccess (boogieSummary v e b) := by
  have hb : 'b' ∉ boogieSummary v e b := summary_not_mem hv (posNum_dig he) b 'b' (by decide) (by decide) (by decide) (by decide)
  have hN : 'N' ∉ boogieSummary v e b := summary_not_mem hv (posNum_dig he) b 'N' (by decide) (by decide) (by decide) (by decide)
  rintro (⟨n, _, x, y, h⟩ | h | h)
  · -- the comma is unique, what follows it starts with the number of errors
    have h1 : boogieSummary v e b = ("Boogie program verifier finished with ".toList ++ v ++ " verified".toList) ++
        ',' :: (' ' :: (e ++ (" error".toList ++ (if b then ['s'] else [])))) := by
      simp [summary_eq]
    have h2 : x ++ (n ++ " verified, 0 error".toList) ++ y = (x ++ n ++ " verified".toList) ++ ',' :: (" 0 error".toList ++ y) := by
      simp
    rw [h1, h2] at h
    have h3 : ',' ∉ "Boogie program verifier finished with ".toList ++ v ++ " verified".toList := by
      intro hm
      rcases List.mem_append.1 hm with hm | hm
      · rcases List.mem_append.1 hm with hm | hm
        · revert hm; decide
        · exact dig_not hv ',' (by decide) hm
      · revert hm; decide
    have h4 : ',' ∉ ' ' :: (e ++ (" error".toList ++ (if b then ['s'] else []))) := by
      intro hm
      rcases List.mem_cons.1 hm with hm | hm
      · revert hm; decide
      · rcases List.mem_append.1 hm with hm | hm
        · exact dig_not (posNum_dig he) ',' (by decide) hm
        · rcases List.mem_append.1 hm with hm | hm
          · revert hm; decide
          · cases b with
            | false => rw [if_neg (by decide)] at hm; cases hm
            | true => rw [if_pos rfl] at hm; revert hm; decide
    have h5 := split_unique h3 h4 h
    obtain ⟨d, ds, hd, hd2, _⟩ := he
    rw [hd] at h5
    have h6 : d = '0' := by
      have : ' ' :: (d :: ds ++ (" error".toList ++ (if b then ['s'] else []))) = ' ' :: '0' :: (" error".toList ++ y) := by
        rw [h5]; simp
      rw [List.cons_append] at this
      exact (List.cons.inj (List.cons.inj this).2).1
    rw [h6] at hd2
    revert hd2; decide
  · exact not_occurs_of_char 'b' (by decide) hb h
  · exact not_occurs_of_char 'N' (by decide) hN h

/-! ### Unrolling bound -/

theorem natOf_foldl (s : List Char) (n : Nat) :
    s.foldl (fun n c => n * 10 + (c.toNat - 48)) n = n * 10 ^ s.length + decValue s := by
  induction s generalizing n with
  | nil => simp [decValue]
  | cons c s ih =>
    rw [List.foldl_cons, ih, decValue, List.length_cons, Nat.add_mul, Nat.mul_assoc, Nat.pow_succ, Nat.mul_comm 10, Nat.add_assoc]

theorem natOf_eq (s : List Char) : natOf s = decValue s := by
  rw [natOf, natOf_foldl]; simp

theorem posNum_pos {n : List Char} (h : PosNum n) : natOf n ≠ 0 := by
  obtain ⟨d, ds, rfl, hd, _⟩ := h
  rw [natOf_eq, decValue]
  have h1 : 49 ≤ d.toNat := by
    simp only [isDig19, Bool.and_eq_true, decide_eq_true_eq] at hd
    exact hd.1
  have h2 : 0 < (d.toNat - 48) * 10 ^ ds.length := Nat.mul_pos (by omega) (Nat.pow_pos (by decide))
  omega

theorem fromLast_none {p s : List Char} (h : fromLast p s = none) : ∀ u w, s ≠ u ++ (p ++ w) := by
  induction s with
  | nil =>
    intro u w he
    have h1 := List.append_eq_nil_iff.1 he.symm
    have h2 := List.append_eq_nil_iff.1 h1.2
    rw [h2.1] at h
    cases h
  | cons c s ih =>
    rw [fromLast] at h
    cases hs : fromLast p s with
    | some r => rw [hs] at h; cases h
    | none =>
      rw [hs] at h
      intro u w he
      cases u with
      | nil =>
        have := (dropPrefix?_iff p (c :: s) w).2 he
        rw [this] at h
        cases h
      | cons d u => exact ih hs u w (List.cons.inj he).2

theorem fromLast_some {p s r : List Char} (h : fromLast p s = some r) :
    ∃ pre w, s = pre ++ r ∧ r = p ++ w ∧ ∀ u w, s = u ++ (p ++ w) → u.length ≤ pre.length := by
  induction s generalizing r with
  | nil =>
    rw [fromLast] at h
    split at h
    · rename_i h1
      obtain ⟨w, hw⟩ := Option.isSome_iff_exists.1 h1
      cases h
      refine ⟨[], w, rfl, (dropPrefix?_iff _ _ _).1 hw, fun u w he => ?_⟩
      rw [(List.append_eq_nil_iff.1 he.symm).1]
      exact Nat.le_refl _
    · cases h
  | cons c s ih =>
    rw [fromLast] at h
    cases hs : fromLast p s with
    | some r' =>
      rw [hs] at h
      cases h
      obtain ⟨pre, w, h1, h2, h3⟩ := ih hs
      refine ⟨c :: pre, w, by rw [h1]; rfl, h2, fun u v he => ?_⟩
      cases u with
      | nil => exact Nat.zero_le _
      | cons d u => exact Nat.succ_le_succ (h3 u v (List.cons.inj he).2)
    | none =>
      rw [hs] at h
      dsimp only at h
      split at h
      · rename_i h1
        obtain ⟨w, hw⟩ := Option.isSome_iff_exists.1 h1
        cases h
        refine ⟨[], w, rfl, (dropPrefix?_iff _ _ _).1 hw, fun u v he => ?_⟩
        cases u with
        | nil => exact Nat.le_refl _
        | cons d u => exact absurd (List.cons.inj he).2 (fromLast_none hs u v)
      · cases h

theorem exhausted_mem (s : List Char) (m : Nat) : m ∈ exhausted s ↔
    ∃ x n y, s = x ++ ("Exhausted recursion bound of ".toList ++ (n ++ y)) ∧ PosNum n ∧
      (y = [] ∨ ∃ d r, y = d :: r ∧ isDig d = false) ∧ m = natOf n := by
  generalize hl : "Exhausted recursion bound of ".toList = lit
  have hlit : lit ≠ [] := by rw [← hl]; decide
  induction s with
  | nil =>
    constructor
    · intro h; cases h
    · rintro ⟨x, n, y, h, _⟩
      have h1 := List.append_eq_nil_iff.1 h.symm
      have h2 := List.append_eq_nil_iff.1 h1.2
      exact absurd h2.1 hlit
  | cons c s ih =>
    have hex : exhausted (c :: s) = (match dropPrefix? lit (c :: s) with
      | some (d :: r) => if isDig19 d then natOf (d :: r.takeWhile isDig) :: exhausted s else exhausted s
      | _ => exhausted s) := by
      rw [exhausted, hl]; rfl
    rw [hex]
    -- a match at this position is what the scanner finds here
    have hhere : ∀ n y, PosNum n → (y = [] ∨ ∃ d r, y = d :: r ∧ isDig d = false) →
        c :: s = lit ++ (n ++ y) → ∃ d r, dropPrefix? lit (c :: s) = some (d :: r) ∧ isDig19 d = true ∧
          n = d :: r.takeWhile isDig := by
      rintro n y ⟨d, ds, rfl, hd, hds⟩ hy he
      refine ⟨d, ds ++ y, ?_, hd, ?_⟩
      · rw [he]; exact dropPrefix?_append _ _
      · rw [takeWhile_append_stop hds hy]
    constructor
    · intro h
      have hrec : m ∈ exhausted s → ∃ x n y, c :: s = x ++ (lit ++ (n ++ y)) ∧ PosNum n ∧
          (y = [] ∨ ∃ d r, y = d :: r ∧ isDig d = false) ∧ m = natOf n := by
        intro h
        obtain ⟨x, n, y, h1, h2⟩ := ih.1 h
        exact ⟨c :: x, n, y, by rw [h1]; rfl, h2⟩
      split at h
      · rename_i d r hd
        split at h
        · rename_i hd19
          rcases List.mem_cons.1 h with h | h
          · refine ⟨[], d :: r.takeWhile isDig, r.dropWhile isDig, ?_, ⟨d, _, rfl, hd19, ?_⟩, ?_, h⟩
            · rw [(dropPrefix?_iff _ _ _).1 hd]; simp
            · intro x hx
              exact List.all_eq_true.1 (List.all_takeWhile (p := isDig) (l := r)) x hx
            · cases hdw : r.dropWhile isDig with
              | nil => exact Or.inl rfl
              | cons e t =>
                refine Or.inr ⟨e, t, rfl, ?_⟩
                have := List.head?_dropWhile_not (p := isDig) r
                rw [hdw] at this
                simpa using this
          · exact hrec h
        · exact hrec h
      · exact hrec h
    · rintro ⟨x, n, y, h1, h2, h3, h4⟩
      cases x with
      | nil =>
        obtain ⟨d, r, e1, e2, e3⟩ := hhere n y h2 h3 h1
        rw [e1]
        simp only [e2, if_true]
        rw [h4, e3]; exact List.mem_cons_self
      | cons c' x =>
        have hm : m ∈ exhausted s := ih.2 ⟨x, n, y, (List.cons.inj h1).2, h2, h3, h4⟩
        split
        · split
          · exact List.mem_cons_of_mem _ hm
          · exact hm
        · exact hm

theorem le_foldl_max (k : Nat) (l : List Nat) (n : Nat) : k ≤ l.foldl max n ↔ k ≤ n ∨ ∃ m ∈ l, k ≤ m := by
  induction l generalizing n with
  | nil => simp
  | cons a l ih =>
    rw [List.foldl_cons, ih]
    simp only [List.mem_cons, exists_eq_or_imp]
    have : k ≤ max n a ↔ k ≤ n ∨ k ≤ a := by omega
    rw [this, or_assoc]

theorem unrollMax_iff {k : Nat} (hk : 0 < k) {out : List Char} : k ≤ unrollMax out ↔ ReachedBound k out := by
  have hdef : ∀ lit, "Verifying program while tracking".toList = lit → unrollMax out = (match fromLast lit out with
    | none => 0
    | some s => (exhausted s).foldl max 0) := by
    intro lit hl; rw [unrollMax, hl]; rfl
  have hrb : ∀ lit, "Verifying program while tracking".toList = lit → (ReachedBound k out ↔ ∃ pre post x n y,
      out = pre ++ (lit ++ post) ∧ (∀ u w, out = u ++ (lit ++ w) → u.length ≤ pre.length) ∧
      lit ++ post = x ++ ("Exhausted recursion bound of ".toList ++ (n ++ y)) ∧
      PosNum n ∧ (y = [] ∨ ∃ d r, y = d :: r ∧ isDig d = false) ∧ k ≤ decValue n) := by
    intro lit hl; rw [← hl]; exact Iff.rfl
  generalize hl : "Verifying program while tracking".toList = lit at hdef hrb
  rw [hdef lit rfl, hrb lit rfl]
  clear hdef hrb hl
  cases hf : fromLast lit out with
  | none =>
    constructor
    · intro h; exact absurd h (Nat.not_le_of_lt hk)
    · rintro ⟨pre, post, x, n, y, h, _⟩
      exact absurd h (fromLast_none hf pre post)
  | some r =>
    obtain ⟨pre, w, h1, h2, h3⟩ := fromLast_some hf
    dsimp only
    rw [le_foldl_max]
    constructor
    · rintro (h | ⟨m, hm, hkm⟩)
      · exact absurd h (Nat.not_le_of_lt hk)
      · obtain ⟨x, n, y, e1, e2, e3, e4⟩ := (exhausted_mem r m).1 hm
        exact ⟨pre, w, x, n, y, by rw [← h2]; exact h1, h3, by rw [← h2]; exact e1, e2, e3, by rw [← natOf_eq, ← e4]; exact hkm⟩
    · rintro ⟨pre', post, x, n, y, e1, e2, e3, e4, e5, e6⟩
      have hlen : pre.length = pre'.length := by
        have a1 := e2 pre w (by rw [← h2]; exact h1)
        have a2 := h3 pre' post e1
        omega
      have hr : r = lit ++ post := by
        rw [h1] at e1
        exact (List.append_inj e1 hlen).2
      refine Or.inr ⟨natOf n, (exhausted_mem r _).2 ⟨x, n, y, by rw [hr]; exact e3, e4, e5, rfl⟩, by rw [natOf_eq]; exact e6⟩

/-! ### Messages -/

theorem message_indep {r : VRes} (h : r ≠ .verified) {u : Option (List Char)} : r.message u = r.message none := by
  cases r <;> first | rfl | exact absurd rfl h

theorem message_no_success {r : VRes} (h : r ≠ .verified) :
    hasSub "SMACK found no errors".toList (r.message none) = false := by
  cases r <;> first | exact absurd rfl h | decide +kernel

theorem message_verified_eq (u : Option (List Char)) : VRes.verified.message u = "SMACK found no errors".toList ++
      (match u with
       | none => []
       | some u => " with unroll bound ".toList ++ u) ++ ".".toList := rfl

theorem message_verified (u : Option (List Char)) : Occurs "SMACK found no errors".toList (VRes.verified.message u) := by
  rw [message_verified_eq]
  exact ⟨[], _, by rw [List.nil_append, List.append_assoc]⟩

end Smack.Driver
