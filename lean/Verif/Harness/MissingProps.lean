/-
C103: the functions that the linker misses.
-/
import Verif.Harness.MissingSpec
import Verif.Witness.Text

namespace Smack.Harness

open Smack.Driver Smack.Witness Smack.Harness.Spec

theorem newlines_char {c : Char} (h : c ≠ '\\') (s : List Char) : newlines (c :: s) = c :: newlines s := by
  cases s with
  | nil => rfl
  | cons d s => rw [newlines, if_neg fun hh => h hh.1]

theorem newlines_nl (s : List Char) : newlines ('\\' :: 'n' :: s) = '\n' :: newlines s := by
  rw [newlines, if_pos ⟨rfl, rfl⟩]

theorem newlines_plain : ∀ (a s : List Char), '\\' ∉ a → newlines (a ++ s) = a ++ newlines s
  | [], s, _ => rfl
  | c :: a, s, h => by
    rw [List.cons_append, newlines_char (fun he => h (he ▸ List.mem_cons_self)), newlines_plain a s fun hm => h (List.mem_cons_of_mem _ hm), List.cons_append]

/-- Escapes and replacement are inverse for texts without backslashes and quotes. -/
theorem newlines_escape {q : Char} (hq : q ≠ '\\') (hn : q ≠ '\n') : ∀ (a s : List Char), '\\' ∉ a → q ∉ a → newlines (a.flatMap (escape q) ++ s) = a ++ newlines s
  | [], s, _, _ => rfl
  | c :: a, s, h, h' => by
    have hc : c ≠ '\\' := fun he => h (he ▸ List.mem_cons_self)
    have hcq : c ≠ q := fun he => h' (he ▸ List.mem_cons_self)
    have ih := newlines_escape hq hn a s (fun hm => h (List.mem_cons_of_mem _ hm)) fun hm => h' (List.mem_cons_of_mem _ hm)
    rw [List.flatMap_cons, List.append_assoc, escape, if_neg hc, if_neg hcq]
    split
    · rename_i he
      rw [List.cons_append, List.cons_append, List.nil_append, newlines_nl, ih, he, List.cons_append]
    · rw [List.cons_append, List.nil_append, newlines_char hc, ih, List.cons_append]

theorem lastSub_none {suf : List Char} : ∀ {s : List Char}, ¬ Occurs suf s → lastSub suf s = none
  | [], _ => rfl
  | c :: s, h => by
    rw [lastSub, lastSub_none fun ho => h (occurs_trans ho ⟨[c], [], by simp⟩)]
    simp only
    rw [if_neg]
    intro hs
    obtain ⟨r, hr⟩ := Option.isSome_iff_exists.1 hs
    exact h ⟨[], r, by rw [(dropPrefix?_iff _ _ _).1 hr]; simp⟩

theorem search_none_suf {pre suf : List Char} : ∀ {s : List Char}, ¬ Occurs suf s → search pre suf s = none
  | [], _ => rfl
  | c :: s, h => by
    rw [search, search_none_suf fun ho => h (occurs_trans ho ⟨[c], [], by simp⟩)]
    cases hd : dropPrefix? pre (c :: s) with
    | none => rfl
    | some r =>
      rw [Option.bind_some, lastSub_none fun ho => h (occurs_trans ho ⟨pre, [], by rw [(dropPrefix?_iff _ _ _).1 hd]; simp⟩)]

theorem search_none_pre {pre suf : List Char} : ∀ {s : List Char}, ¬ Occurs pre s → search pre suf s = none
  | [], _ => rfl
  | c :: s, h => by
    rw [search, search_none_pre fun ho => h (occurs_trans ho ⟨[c], [], by simp⟩)]
    cases hd : dropPrefix? pre (c :: s) with
    | none => rfl
    | some r => exact absurd ⟨[], r, by rw [(dropPrefix?_iff _ _ _).1 hd]; simp⟩ h

theorem lastSub_char {q : Char} {post : List Char} (h : q ∉ post) : ∀ f : List Char, lastSub [q] (f ++ q :: post) = some f
  | [] => by
    rw [List.nil_append, lastSub, lastSub_none]
    · simp [dropPrefix?]
    · rintro ⟨a, b, he⟩
      exact h (by rw [he]; simp)
  | c :: f => by rw [List.cons_append, lastSub, lastSub_char h f]

/-- The first place of a pattern that ends with its only backquote. -/
theorem search_found {w f post : List Char} {q b : Char} (hw : b ∉ w) (hp : q ∉ post) : ∀ (x : List Char), b ∉ x →
    search (w ++ [b]) [q] (x ++ (w ++ [b]) ++ f ++ q :: post) = some f
  | [], _ => by
    have hd : dropPrefix? (w ++ [b]) ((w ++ [b]) ++ (f ++ q :: post)) = some (f ++ q :: post) := dropPrefix?_append _ _
    rw [List.nil_append, List.append_assoc]
    cases hs : (w ++ [b]) ++ (f ++ q :: post) with
    | nil => simp at hs
    | cons c s =>
      rw [hs] at hd
      rw [search, hd, Option.bind_some, lastSub_char hp]
  | c :: x, hx => by
    have ih := search_found (f := f) hw hp x fun hm => hx (List.mem_cons_of_mem _ hm)
    rw [List.cons_append, List.cons_append, List.cons_append, search, ih]
    cases hd : dropPrefix? (w ++ [b]) (c :: (x ++ (w ++ [b]) ++ f ++ q :: post)) with
    | none => rfl
    | some r =>
      exfalso
      have he := (dropPrefix?_iff _ _ _).1 hd
      have h1 : splitOn b (c :: (x ++ (w ++ [b]) ++ f ++ q :: post)) = (c :: x ++ w) :: splitOn b (f ++ q :: post) := by
        rw [show c :: (x ++ (w ++ [b]) ++ f ++ q :: post) = (c :: x ++ w) ++ b :: (f ++ q :: post) by simp]
        refine splitOn_cons (fun hm => ?_) _
        rcases List.mem_append.1 hm with hm | hm
        · exact hx hm
        · exact hw hm
      rw [he, show w ++ [b] ++ r = w ++ b :: r by simp, splitOn_cons hw] at h1
      injection h1 with h1 _
      have := congrArg List.length h1
      simp at this
      omega

/-- A line with the texts that `repr` puts around the output. -/
theorem missing_line {l : LLine} (h : l.Wf) {p t : List Char} (hp : p = [] ∨ p = "Exception(\"".toList) (ht : t = [] ∨ t = ['"', ')']) :
    missingLine (p ++ l.text ++ t) = l.name? := by
  have sep : ∀ {pat s : List Char}, '"' ∉ pat → ¬ Occurs pat "Exception(".toList → ¬ Occurs pat [')'] → ¬ Occurs pat s → ¬ Occurs pat (p ++ s ++ t) := by
    intro pat s hq h1 h2 h3 ho
    have ho1 : Occurs pat (p ++ s) := by
      rcases ht with rfl | rfl
      · simpa using ho
      · exact (occurs_sep hq ho).resolve_right h2
    rcases hp with rfl | rfl
    · exact h3 (by simpa using ho1)
    · rcases occurs_sep (a := "Exception(".toList) (b := s) hq ho1 with ho | ho
      · exact h1 ho
      · exact h3 ho
  have len : ∀ {pat s : List Char}, s.length < pat.length → ¬ Occurs pat s := by
    rintro pat s hl ⟨a, b, rfl⟩
    simp at hl
    omega
  obtain ⟨_, _, hr, hk⟩ := h
  have hr' : ¬ Occurs "\", referenced from:".toList (p ++ l.text ++ t) := fun ho =>
    sep (pat := "referenced from:".toList) (by decide) (len (by decide)) (len (by decide)) hr (occurs_trans ⟨['"', ',', ' '], [], by decide⟩ ho)
  unfold missingLine
  rw [search_none_suf hr']
  simp only
  cases l with
  | other s => exact search_none_pre (sep (by decide) (len (by decide)) (len (by decide)) hk)
  | undef pre f post =>
    have e : p ++ (LLine.undef pre f post).text ++ t = (p ++ pre) ++ ("undefined reference to ".toList ++ ['`']) ++ f ++ '\'' :: (post ++ t) := by
      show p ++ (pre ++ ("undefined reference to ".toList ++ ['`']) ++ f ++ '\'' :: post) ++ t = _
      simp only [List.append_assoc, List.cons_append]
    rw [e]
    refine search_found (w := "undefined reference to ".toList) (by decide) (fun hm => ?_) _ fun hm => ?_
    · rcases List.mem_append.1 hm with hm | hm
      · exact hk.2 hm
      · rcases ht with rfl | rfl
        · cases hm
        · exact absurd hm (by decide)
    · rcases List.mem_append.1 hm with hm | hm
      · rcases hp with rfl | rfl
        · cases hm
        · exact absurd hm (by decide)
      · exact hk.1 hm

theorem missing_lines {t : List Char} (ht : t = ['"', ')']) : ∀ (ls : List LLine) (p : List Char), (p = [] ∨ p = "Exception(\"".toList) → ls ≠ [] → (∀ l ∈ ls, l.Wf) →
    (splitOn '\n' (p ++ linkerOut ls ++ t)).filterMap missingLine = ls.filterMap LLine.name?
  | [], _, _, h, _ => absurd rfl h
  | [l], p, hp, _, hw => by
    have hl := hw l List.mem_cons_self
    have hn : '\n' ∉ p ++ l.text ++ t := fun hm => by
      rcases List.mem_append.1 hm with hm | hm
      · rcases List.mem_append.1 hm with hm | hm
        · rcases hp with rfl | rfl
          · cases hm
          · exact absurd hm (by decide)
        · exact hl.1 hm
      · rw [ht] at hm; exact absurd hm (by decide)
    show (splitOn '\n' (p ++ l.text ++ t)).filterMap missingLine = _
    rw [splitOn_none hn, List.filterMap_cons, missing_line hl hp (.inr ht), List.filterMap_cons]
    rfl
  | l :: m :: ls, p, hp, _, hw => by
    have hl := hw l List.mem_cons_self
    have hn : '\n' ∉ p ++ l.text := fun hm => by
      rcases List.mem_append.1 hm with hm | hm
      · rcases hp with rfl | rfl
        · cases hm
        · exact absurd hm (by decide)
      · exact hl.1 hm
    have ih := missing_lines ht (m :: ls) [] (.inl rfl) (by simp) fun l hl => hw l (List.mem_cons_of_mem _ hl)
    rw [show p ++ linkerOut (l :: m :: ls) ++ t = (p ++ l.text) ++ '\n' :: ([] ++ linkerOut (m :: ls) ++ t) by
      show p ++ (l.text ++ '\n' :: linkerOut (m :: ls)) ++ t = _
      simp, splitOn_cons hn, List.filterMap_cons, List.filterMap_cons, ih]
    have := missing_line hl hp (t := []) (.inl rfl)
    rw [List.append_nil] at this
    rw [this]

theorem joined_not {c : Char} (hc : c ≠ '\n') : ∀ (ls : List LLine), (∀ l ∈ ls, c ∉ l.text) → c ∉ linkerOut ls
  | [], _ => by simp [linkerOut]
  | [l], h => h l List.mem_cons_self
  | l :: m :: ls, h => by
    show c ∉ l.text ++ '\n' :: linkerOut (m :: ls)
    have ih := joined_not hc (m :: ls) fun l hl => h l (List.mem_cons_of_mem _ hl)
    intro hm
    rcases List.mem_append.1 hm with hm | hm
    · exact h l List.mem_cons_self hm
    · rcases List.mem_cons.1 hm with hm | hm
      · exact hc hm
      · exact ih hm

theorem joined_mem {c : Char} : ∀ (ls : List LLine) {l : LLine}, l ∈ ls → c ∈ l.text → c ∈ linkerOut ls
  | [m], l, h, hc => by rw [List.mem_singleton.1 h] at hc; exact hc
  | m :: n :: ls, l, h, hc => by
    show c ∈ m.text ++ '\n' :: linkerOut (n :: ls)
    rcases List.mem_cons.1 h with rfl | h
    · exact List.mem_append_left _ hc
    · exact List.mem_append_right _ (List.mem_cons_of_mem _ (joined_mem (n :: ls) h hc))

/-- From an output of the GNU linker without double quotes and backslashes, exactly the missing functions are read, in order and with
repetitions. -/
theorem c103_missing_partial {ls : List LLine} (hw : ∀ l ∈ ls, l.Wf) (hq : ∀ l ∈ ls, '"' ∉ l.text) {pre f post : List Char} (h : .undef pre f post ∈ ls) :
    missing (linkerOut ls) = ls.filterMap LLine.name? := by
  have hd := joined_not (c := '"') (by decide) ls hq
  have hb := joined_not (c := '\\') (by decide) ls fun l hl => (hw l hl).2.1
  have hs : '\'' ∈ linkerOut ls := joined_mem ls h (by simp [LLine.text])
  have hqu : quote (linkerOut ls) = '"' := by unfold quote; rw [if_pos ⟨hs, hd⟩]
  unfold missing reprErr
  rw [hqu, newlines_plain _ _ (by decide), newlines_char (by decide), newlines_escape (by decide) (by decide) _ _ hb hd]
  have := missing_lines (t := ['"', ')']) rfl ls "Exception(\"".toList (.inr rfl) (List.ne_nil_of_mem h) hw
  rw [show newlines ['"', ')'] = ['"', ')'] by decide]
  rw [← this]
  congr 2

/-- A double quote anywhere in the output makes `repr` escape the single quotes; the name that is read then has a backslash at its end, and
the harness has no stub for the missing function. -/
theorem c103_quote_fails {pre f post : List Char} (h : (LLine.undef pre f post).Wf) (hs : '\'' ∉ pre ∧ '\'' ∉ f) (hq : '"' ∈ pre ∨ '"' ∈ post) :
    missing ((LLine.undef pre f post).text ++ ['\n']) = [f ++ ['\\']] ∧ f ∉ missing ((LLine.undef pre f post).text ++ ['\n']) := by
  have key : missing ((LLine.undef pre f post).text ++ ['\n']) = [f ++ ['\\']] := by
    obtain ⟨hn, hb, hr, hk⟩ := h
    have hqu : quote ((LLine.undef pre f post).text ++ ['\n']) = '\'' := by
      unfold quote
      rw [if_neg]
      rintro ⟨_, hd⟩
      refine hd (List.mem_append_left _ ?_)
      rcases hq with hq | hq <;> simp [LLine.text, hq]
    have hmem : ∀ c, c ∈ pre ++ "undefined reference to `".toList ++ f → c ∈ (LLine.undef pre f post).text := fun c hc => List.mem_append_left _ hc
    have hmem' : ∀ c, c ∈ post → c ∈ (LLine.undef pre f post).text := fun c hc => List.mem_append_right _ (List.mem_cons_of_mem _ hc)
    have hsa : '\'' ∉ pre ++ "undefined reference to `".toList ++ f := fun hm => by
      rcases List.mem_append.1 hm with hm | hm
      · rcases List.mem_append.1 hm with hm | hm
        · exact hs.1 hm
        · exact absurd hm (by decide)
      · exact hs.2 hm
    have e : newlines (reprErr ((LLine.undef pre f post).text ++ ['\n'])) =
        ("Exception('".toList ++ pre ++ ("undefined reference to ".toList ++ ['`']) ++ (f ++ ['\\']) ++ '\'' :: post) ++ '\n' :: ['\'', ')'] := by
      unfold reprErr
      rw [hqu, newlines_plain _ _ (by decide), newlines_char (by decide)]
      rw [show (LLine.undef pre f post).text ++ ['\n'] = (pre ++ "undefined reference to `".toList ++ f) ++ ('\'' :: (post ++ ['\n'])) by
        show (pre ++ "undefined reference to `".toList ++ f ++ '\'' :: post) ++ ['\n'] = _
        simp only [List.append_assoc, List.cons_append]]
      rw [List.flatMap_append, List.append_assoc, newlines_escape (by decide) (by decide) _ _ (fun hm => hb (hmem _ hm)) hsa]
      have h1 : ('\'' :: (post ++ ['\n'])).flatMap (escape '\'') ++ ['\'', ')'] =
          '\\' :: '\'' :: (post.flatMap (escape '\'') ++ (['\n'].flatMap (escape '\'') ++ ['\'', ')'])) := by
        rw [List.flatMap_cons, show escape '\'' '\'' = ['\\', '\''] by decide, List.flatMap_append]
        simp only [List.append_assoc, List.cons_append, List.nil_append]
      rw [h1, newlines, if_neg (by decide), newlines_char (by decide),
        newlines_escape (by decide) (by decide) _ _ (fun hm => hb (hmem' _ hm)) hk.2]
      rw [show newlines (['\n'].flatMap (escape '\'') ++ ['\'', ')']) = ['\n', '\'', ')'] by decide]
      rw [show "Exception('".toList = "Exception(".toList ++ ['\''] by decide,
        show "undefined reference to `".toList = "undefined reference to ".toList ++ ['`'] by decide]
      simp only [List.append_assoc, List.cons_append, List.nil_append]
    have hpre : ∀ c, c ∉ "Exception('".toList → c ∉ pre → c ∉ "Exception('".toList ++ pre := fun c h1 h2 hm => by
      rcases List.mem_append.1 hm with hm | hm
      · exact h1 hm
      · exact h2 hm
    have hnl : '\n' ∉ "Exception('".toList ++ pre ++ ("undefined reference to ".toList ++ ['`']) ++ (f ++ ['\\']) ++ '\'' :: post := fun hm => by
      rcases List.mem_append.1 hm with hm | hm
      · rcases List.mem_append.1 hm with hm | hm
        · rcases List.mem_append.1 hm with hm | hm
          · exact hpre _ (by decide) (fun hm => hn (hmem _ (List.mem_append_left _ (List.mem_append_left _ hm)))) hm
          · exact absurd hm (by decide)
        · rcases List.mem_append.1 hm with hm | hm
          · exact hn (hmem _ (List.mem_append_right _ hm))
          · exact absurd hm (by decide)
      · rcases List.mem_cons.1 hm with hm | hm
        · exact absurd hm (by decide)
        · exact hn (hmem' _ hm)
    have hfrom : ¬ Occurs "referenced from:".toList ("Exception('".toList ++ pre ++ ("undefined reference to ".toList ++ ['`']) ++ (f ++ ['\\']) ++ '\'' :: post) := by
      intro ho
      rw [show "Exception('".toList ++ pre ++ ("undefined reference to ".toList ++ ['`']) ++ (f ++ ['\\']) ++ '\'' :: post =
          "Exception(".toList ++ '\'' :: ((pre ++ ("undefined reference to ".toList ++ ['`']) ++ f) ++ '\\' :: ('\'' :: post)) by
        rw [show "Exception('".toList = "Exception(".toList ++ ['\''] by decide]
        simp only [List.append_assoc, List.cons_append, List.nil_append]] at ho
      rcases occurs_sep (by decide) ho with ho | ho
      · obtain ⟨a, b, he⟩ := ho
        have := congrArg List.length he
        simp at this
        omega
      · rcases occurs_sep (by decide) ho with ho | ho
        · exact hr (occurs_trans ho ⟨[], '\'' :: post, rfl⟩)
        · exact hr (occurs_trans ho ⟨pre ++ "undefined reference to `".toList ++ f, [], by simp [LLine.text]⟩)
    unfold missing
    rw [e, splitOn_cons hnl, show splitOn '\n' ['\'', ')'] = [['\'', ')']] by decide, List.filterMap_cons]
    have hline : missingLine ("Exception('".toList ++ pre ++ ("undefined reference to ".toList ++ ['`']) ++ (f ++ ['\\']) ++ '\'' :: post) = some (f ++ ['\\']) := by
      unfold missingLine
      rw [search_none_suf fun ho => hfrom (occurs_trans ⟨['"', ',', ' '], [], by decide⟩ ho)]
      exact search_found (w := "undefined reference to ".toList) (by decide) hk.2 _ (hpre _ (by decide) hk.1)
    rw [hline, show [['\'', ')']].filterMap missingLine = [] by decide]
  refine ⟨key, ?_⟩
  rw [key]
  intro hm
  have := congrArg List.length (List.mem_singleton.1 hm)
  simp at this

/-! ### Examples -/

/-- An output of the linker. -/
example : missing (linkerOut [.undef ['a', ':', ' '] ['f'] [], .other ['e', 'n', 'd'], .undef [] ['g'] []]) = [['f'], ['g']] := by decide

example : (LLine.undef ['"'] ['f'] []).Wf := by
  refine ⟨by decide, by decide, fun h => ?_, by decide, by decide⟩
  exact absurd ((hasSub_iff _ _).2 h) (by decide)

/-- A quote. -/
example : missing ((LLine.undef ['"', 'a', '"', ':', ' '] ['f'] []).text ++ ['\n']) = [['f', '\\']] := by decide

end Smack.Harness
