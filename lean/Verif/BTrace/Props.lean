import Verif.BTrace.Spec
import Verif.Annot.Props
/-!
# C102: the error trace for Boogie
-/
namespace Smack.BTrace

open Spec

theorem dropLit_append (p s : Str) : dropLit p (p ++ s) = some s := by
  induction p with
  | nil => rfl
  | cons c p ih => simp [dropLit, ih]

theorem takeDrop {p : Char → Bool} {x : Str} {c : Char} {r : Str} (hx : ∀ a ∈ x, p a = true) (hc : p c = false) :
    (x ++ c :: r).takeWhile p = x ∧ (x ++ c :: r).dropWhile p = c :: r := by
  induction x with
  | nil => simp [hc]
  | cons a x ih =>
    have := ih fun b hb => hx b (List.mem_cons_of_mem _ hb)
    simp [hx a (by simp), this]

theorem some1_eq {p : Char → Bool} {x : Str} {c : Char} {r : Str} (hx : ∀ a ∈ x, p a = true) (hn : x ≠ []) (hc : p c = false) :
    some1 p (x ++ c :: r) = some (x, c :: r) := by
  unfold some1
  rw [(takeDrop hx hc).1, (takeDrop hx hc).2, if_neg hn]

theorem srcHere_brace (c : Char) (s : Str) (h : c ≠ '{') : srcHere (c :: s) = none := by
  unfold srcHere dropLit
  rw [if_neg (fun e => h e.symm)]
  rfl

theorem srcMatch_none (s : Str) (h : '{' ∉ s) : srcMatch s = none := by
  induction s with
  | nil => rfl
  | cons c s ih =>
    rw [srcMatch, ih fun m => h (List.mem_cons_of_mem _ m)]
    exact srcHere_brace c s fun e => h (by rw [e]; exact List.mem_cons_self ..)

theorem srcMatch_pre (pre s : Str) (p : Place) (h : srcMatch s = some p) : srcMatch (pre ++ s) = some p := by
  induction pre with
  | nil => exact h
  | cons c pre ih => rw [List.cons_append, srcMatch, ih]

theorem srcMatch_pre_none (pre s : Str) (hp : '{' ∉ pre) (h : srcMatch s = none) : srcMatch (pre ++ s) = none := by
  induction pre with
  | nil => exact h
  | cons c pre ih =>
    rw [List.cons_append, srcMatch, ih fun m => hp (List.mem_cons_of_mem _ m)]
    exact srcHere_brace c _ fun e => hp (by rw [e]; exact List.mem_cons_self ..)

theorem fileChar_iff (c : Char) : fileChar c = true ↔ FileChar c := by
  unfold fileChar FileChar
  simp only [Bool.or_eq_true, beq_iff_eq]
  simp only [List.mem_cons, List.not_mem_nil, or_false, or_assoc]

theorem dropLit_some {p s r : Str} (h : dropLit p s = some r) : s = p ++ r := by
  induction p generalizing s with
  | nil => simpa [dropLit] using h
  | cons c p ih =>
    cases s with
    | nil => simp [dropLit] at h
    | cons d s =>
      rw [dropLit] at h
      split at h
      · rename_i e; rw [e, ih h]; rfl
      · cases h

theorem some1_some {p : Char → Bool} {s x r : Str} (h : some1 p s = some (x, r)) : s = x ++ r ∧ x ≠ [] ∧ ∀ c ∈ x, p c = true := by
  unfold some1 at h
  split at h
  · cases h
  · rename_i hn
    simp only [Option.some.injEq, Prod.mk.injEq] at h
    obtain ⟨rfl, rfl⟩ := h
    exact ⟨List.takeWhile_append_dropWhile.symm, hn, fun c hc => by
      have := List.all_takeWhile (p := p) (l := s)
      exact List.all_eq_true.mp this c hc⟩

theorem srcHere_loc (p : Place) (hp : Ok p) (t : Str) : srcHere (locText p t) = some p := by
  obtain ⟨⟨hfn, hf⟩, ⟨hln, hl⟩, hcn, hc⟩ := hp
  have hf' : ∀ x ∈ p.file, fileChar x = true := fun x hx => (fileChar_iff x).mpr (hf x hx)
  have e : locText p t = ['{', ':', 's', 'o', 'u', 'r', 'c', 'e', 'l', 'o', 'c', ' ', '"'] ++ (p.file ++ '"' :: ([',', ' '] ++ (p.line ++ ',' :: ([' '] ++ (p.column ++ '}' :: t))))) := rfl
  rw [e]
  unfold srcHere
  rw [dropLit_append]
  simp only [Option.bind_some]
  rw [some1_eq hf' hfn (by decide)]
  simp only [Option.bind_some]
  rw [show ∀ r, '"' :: ([',', ' '] ++ r) = ['"', ',', ' '] ++ r from fun _ => rfl, dropLit_append]
  simp only [Option.bind_some]
  rw [some1_eq hl hln (by decide)]
  simp only [Option.bind_some]
  rw [show ∀ r, ',' :: ([' '] ++ r) = [',', ' '] ++ r from fun _ => rfl, dropLit_append]
  simp only [Option.bind_some]
  rw [some1_eq hc hcn (by decide)]
  simp only [Option.bind_some]
  rw [show '}' :: t = ['}'] ++ t from rfl, dropLit_append]
  rfl

theorem srcHere_some {s : Str} {p : Place} (h : srcHere s = some p) : Ok p ∧ ∃ t, s = locText p t := by
  unfold srcHere at h
  obtain ⟨s1, h1, h⟩ := Option.bind_eq_some_iff.mp h
  obtain ⟨⟨f, s2⟩, h2, h⟩ := Option.bind_eq_some_iff.mp h
  obtain ⟨s3, h3, h⟩ := Option.bind_eq_some_iff.mp h
  obtain ⟨⟨l, s4⟩, h4, h⟩ := Option.bind_eq_some_iff.mp h
  obtain ⟨s5, h5, h⟩ := Option.bind_eq_some_iff.mp h
  obtain ⟨⟨c, s6⟩, h6, h⟩ := Option.bind_eq_some_iff.mp h
  obtain ⟨s7, h7, h⟩ := Option.map_eq_some_iff.mp h
  obtain ⟨e2, n2, a2⟩ := some1_some h2
  obtain ⟨e4, n4, a4⟩ := some1_some h4
  obtain ⟨e6, n6, a6⟩ := some1_some h6
  have e1 := dropLit_some h1
  have e3 := dropLit_some h3
  have e5 := dropLit_some h5
  have e7 := dropLit_some h7
  subst h
  refine ⟨⟨⟨n2, fun c hc => (fileChar_iff c).mp (a2 c hc)⟩, ⟨n4, a4⟩, n6, a6⟩, s7, ?_⟩
  rw [e1, e2, e3, e4, e5, e6, e7]
  rfl

theorem srcMatch_cons (c : Char) (s : Str) (h : srcMatch s = none) : srcMatch (c :: s) = srcHere (c :: s) := by rw [srcMatch, h]

theorem srcMatch_isSome {s : Str} {q : Place} (hq : Ok q) {pre t : Str} (e : s = pre ++ locText q t) : srcMatch s ≠ none := by
  subst e
  induction pre with
  | nil =>
    have h := srcHere_loc q hq t
    show srcMatch ('{' :: _) ≠ none
    intro hn
    rw [srcMatch] at hn
    split at hn
    · cases hn
    · exact absurd (hn.symm.trans h) (by simp)
  | cons c pre ih =>
    rw [List.cons_append, srcMatch]
    cases h : srcMatch (pre ++ locText q t) with
    | none => exact absurd h ih
    | some p => simp

/-- The expression finds the last annotation of a line. -/
theorem srcMatch_iff (l : Str) (p : Place) : srcMatch l = some p ↔ Says l p := by
  induction l generalizing p with
  | nil =>
    refine ⟨fun h => by simp [srcMatch] at h, ?_⟩
    rintro ⟨hp, pre, t, e, _⟩
    have : locText p t = [] := by
      have := congrArg List.length e
      simp only [List.length_nil, List.length_append] at this
      exact List.eq_nil_of_length_eq_zero (by omega)
    exact absurd this (by simp [locText])
  | cons c s ih =>
    cases hs : srcMatch s with
    | some q =>
      rw [srcMatch, hs]
      dsimp only
      rw [← hs, ih p]
      constructor
      · rintro ⟨hp, pre, t, e, h⟩
        exact ⟨hp, c :: pre, t, by rw [e]; rfl, h⟩
      · rintro ⟨hp, pre, t, e, h⟩
        cases pre with
        | nil =>
          obtain ⟨hq, pre', t', e', _⟩ := (ih q).mp hs
          exact absurd (h (c :: pre') q t' (by rw [← List.nil_append (locText p t), ← e, e']; rfl) hq) (by simp)
        | cons d pre =>
          rw [List.cons_append, List.cons.injEq] at e
          exact ⟨hp, pre, t, e.2, h⟩
    | none =>
      rw [srcMatch_cons c s hs]
      constructor
      · intro h
        obtain ⟨hp, t, e⟩ := srcHere_some h
        refine ⟨hp, [], t, e, fun pre' q t' e' hq => ?_⟩
        cases pre' with
        | nil => rfl
        | cons d pre' =>
          rw [← e, List.cons_append, List.cons.injEq] at e'
          exact absurd hs (srcMatch_isSome hq e'.2)
      · rintro ⟨hp, pre, t, e, _⟩
        cases pre with
        | nil => rw [e]; exact srcHere_loc p hp t
        | cons d pre =>
          rw [List.cons_append, List.cons.injEq] at e
          exact absurd hs (srcMatch_isSome hp e.2)

theorem digit_brace {c : Char} (h : c.isDigit = true) : c ≠ '{' := by
  rintro rfl; exact absurd h (by decide)

theorem srcMatch_locText (p : Place) (t : Str) (hf : '{' ∉ p.file) (hl : ∀ x ∈ p.line, x.isDigit = true) (hc : ∀ x ∈ p.column, x.isDigit = true) (ht : '{' ∉ t) :
    srcMatch (locText p t) = srcHere (locText p t) := by
  refine srcMatch_cons '{' _ (srcMatch_none _ ?_)
  have h1 : '{' ∉ p.line := fun m => digit_brace (hl _ m) rfl
  have h2 : '{' ∉ p.column := fun m => digit_brace (hc _ m) rfl
  show '{' ∉ [':', 's', 'o', 'u', 'r', 'c', 'e', 'l', 'o', 'c', ' ', '"'] ++ (p.file ++ '"' :: ([',', ' '] ++ (p.line ++ ',' :: ([' '] ++ (p.column ++ '}' :: t)))))
  simp only [List.mem_append, List.mem_cons, List.not_mem_nil, or_false, not_or]
  refine ⟨by decide, hf, by decide, by decide, h1, by decide, by decide, h2, by decide, ht⟩

theorem decInt_small (n : Nat) (h : n < 2 ^ 31) : Annot.decInt (BitVec.ofNat 32 n).toInt = Printer.dec n := by
  have : (BitVec.ofNat 32 n).toInt = (n : Int) := by
    rw [BitVec.toInt_eq_toNat_of_lt] <;> simp only [BitVec.toNat_ofNat] <;> omega
  rw [this]
  rfl

/-- The place of a location. -/
def placeOf (l : Annot.Loc) : Place := ⟨l.file, Printer.dec l.line, Printer.dec l.col⟩

theorem print_loc (l : Annot.Loc) (h1 : l.line < 2 ^ 31) (h2 : l.col < 2 ^ 31) (t : Str) :
    Printer.printStmt (Annot.locStmt l) ++ t = ['a', 's', 's', 'u', 'm', 'e', ' '] ++ locText (placeOf l) ([' ', 't', 'r', 'u', 'e', ';'] ++ t) := by
  unfold Annot.locStmt
  rw [decInt_small _ h1, decInt_small _ h2]
  simp [Printer.printStmt, Printer.printAttrs, Printer.printAttr, Printer.seqOf, Printer.seqRest, Printer.print, locText, placeOf]

/-- The annotation that the translator writes for a source location says this place, anywhere in a line. -/
theorem c102_line (l : Annot.Loc) (h1 : l.line < 2 ^ 31) (h2 : l.col < 2 ^ 31) (hn : l.file ≠ []) (hf : ∀ c ∈ l.file, FileChar c) (pre t : Str) (ht : '{' ∉ t) :
    Says (pre ++ (Printer.printStmt (Annot.locStmt l) ++ t)) ⟨l.file, Nat.toDigits 10 l.line, Nat.toDigits 10 l.col⟩ := by
  have hok : Ok (placeOf l) := ⟨⟨hn, hf⟩, ⟨Annot.dec_ne_nil _, Annot.dec_digits _⟩, Annot.dec_ne_nil _, Annot.dec_digits _⟩
  have hb : '{' ∉ l.file := fun m => absurd (hf _ m) (by unfold FileChar; decide)
  rw [print_loc l h1 h2, ← srcMatch_iff]
  refine srcMatch_pre _ _ _ (srcMatch_pre _ _ _ ?_)
  rw [srcMatch_locText (placeOf l) _ hb hok.line.2 hok.column.2 (by simp [ht])]
  exact srcHere_loc _ hok _

example : Says "  assume {:sourceloc \"a.c\", 3, 7} true;\n".toList ⟨['a', '.', 'c'], ['3'], ['7']⟩ := by
  rw [← srcMatch_iff]; decide +kernel

/-- A file whose name has another character, such as a blank, is not understood: the line says nothing. -/
theorem c102_name_fails (l : Annot.Loc) (h1 : l.line < 2 ^ 31) (h2 : l.col < 2 ^ 31) (c : Char) (hc : c ∈ l.file) (hf : ¬ FileChar c)
    (hq : '"' ∉ l.file) (hb : '{' ∉ l.file) (pre t : Str) (hp : '{' ∉ pre) (ht : '{' ∉ t) : Silent (pre ++ (Printer.printStmt (Annot.locStmt l) ++ t)) := by
  intro p hs
  rw [← srcMatch_iff, print_loc l h1 h2] at hs
  rw [srcMatch_pre_none _ _ hp (srcMatch_pre_none _ _ (by decide) ?_)] at hs
  · cases hs
  rw [srcMatch_locText (placeOf l) _ hb (Annot.dec_digits _) (Annot.dec_digits _) (by simp [ht])]
  cases h : srcHere (locText (placeOf l) ([' ', 't', 'r', 'u', 'e', ';'] ++ t)) with
  | none => rfl
  | some q =>
    exfalso
    obtain ⟨hq', t', e⟩ := srcHere_some h
    have e := List.append_cancel_left e
    -- the name up to its quotation mark
    have hqn : '"' ∉ q.file := fun m => absurd (hq'.file.2 _ m) (by unfold FileChar; decide)
    have key : ∀ (x y a b : Str), '"' ∉ x → '"' ∉ y → x ++ '"' :: a = y ++ '"' :: b → x = y := by
      intro x y a b hx hy he
      have h1 : (x ++ '"' :: a).takeWhile (fun c => decide (c ≠ '"')) = x :=
        (takeDrop (fun d hd => by simp only [ne_eq, decide_eq_true_eq]; rintro rfl; exact hx hd) (by decide)).1
      have h2 : (y ++ '"' :: b).takeWhile (fun c => decide (c ≠ '"')) = y :=
        (takeDrop (fun d hd => by simp only [ne_eq, decide_eq_true_eq]; rintro rfl; exact hy hd) (by decide)).1
      rw [← h1, he, h2]
    have := key _ _ _ _ hq hqn e
    have hc' : c ∈ q.file := by rw [← this]; exact hc
    exact hf (hq'.file.2 c hc')

example : ¬ FileChar ' ' := by unfold FileChar; decide

theorem firstPlace_iff (ls : List Str) (p : Place) : firstPlace ls = some p ↔
    ∃ (k : Nat) (l : Str), ls[k]? = some l ∧ Says l p ∧ ∀ (j : Nat) m, j < k → ls[j]? = some m → Silent m := by
  induction ls with
  | nil => simp [firstPlace]
  | cons a ls ih =>
    rw [firstPlace]
    cases h : srcMatch a with
    | some q =>
      dsimp only
      constructor
      · intro e
        cases e
        exact ⟨0, a, rfl, (srcMatch_iff a p).mp h, fun j m hj => absurd hj (by omega)⟩
      · rintro ⟨k, l, h1, h2, h3⟩
        cases k with
        | zero =>
          cases h1
          rw [← h, (srcMatch_iff a p).mpr h2]
        | succ k => exact absurd ((srcMatch_iff a q).mp h) (h3 0 a (by omega) rfl q)
    | none =>
      dsimp only
      rw [ih]
      constructor
      · rintro ⟨k, l, h1, h2, h3⟩
        refine ⟨k + 1, l, h1, h2, fun j m hj hm => ?_⟩
        cases j with
        | zero =>
          cases hm
          intro q hq
          rw [← srcMatch_iff, h] at hq
          cases hq
        | succ j => exact h3 j m (by omega) hm
      · rintro ⟨k, l, h1, h2, h3⟩
        cases k with
        | zero =>
          cases h1
          rw [← srcMatch_iff, h] at h2
          cases h2
        | succ k => exact ⟨k, l, h1, h2, fun j m hj hm => h3 (j + 1) m (by omega) hm⟩

theorem window_iff (ls : List Str) (n : Nat) (p : Place) : firstPlace ((ls.drop n).take 10) = some p ↔ PlaceFor ls n p := by
  rw [firstPlace_iff]
  unfold PlaceFor
  have hg : ∀ k, k < 10 → ((ls.drop n).take 10)[k]? = ls[n + k]? := fun k hk => by
    rw [List.getElem?_take_of_lt hk, List.getElem?_drop]
  constructor
  · rintro ⟨k, l, h1, h2, h3⟩
    have hk : k < 10 := by
      obtain ⟨h, _⟩ := List.getElem?_eq_some_iff.mp h1
      simp only [List.length_take] at h
      omega
    refine ⟨n + k, l, by omega, by omega, by rw [← hg k hk]; exact h1, h2, fun j m hj hj' hm => ?_⟩
    refine h3 (j - n) m (by omega) ?_
    rw [hg _ (by omega), show n + (j - n) = j by omega]
    exact hm
  · rintro ⟨k, l, a1, a2, h1, h2, h3⟩
    refine ⟨k - n, l, ?_, h2, fun j m hj hm => ?_⟩
    · rw [hg _ (by omega), show n + (k - n) = k by omega]
      exact h1
    · refine h3 (n + j) m (by omega) (by omega) ?_
      rw [← hg j (by omega)]
      exact hm

/-- The trace has, in order, the place for each step in a Boogie file that has one. -/
theorem c102_trace (files : Str → List Str) (steps : List (Str × Nat)) (f : Str) (n : Nat) :
    (∀ p, ".bpl".toList <:+ f → PlaceFor (files f) n p → traces files ((f, n) :: steps) = p :: traces files steps) ∧
    ((".bpl".toList <:+ f → ∀ p, ¬ PlaceFor (files f) n p) → traces files ((f, n) :: steps) = traces files steps) ∧ traces files [] = [] := by
  refine ⟨fun p hf hp => ?_, fun h => ?_, rfl⟩
  · have hf : ['.', 'b', 'p', 'l'] <:+ f := hf
    rw [traces, if_pos (List.isSuffixOf_iff_suffix.mpr hf), (window_iff _ _ _).mpr hp]
  · rw [traces]
    split
    · rename_i hf
      have hf := List.isSuffixOf_iff_suffix.mp hf
      cases e : firstPlace (((files f).drop n).take 10) with
      | none => rfl
      | some p => exact absurd ((window_iff _ _ _).mp e) (h hf p)
    · rfl

theorem silent_of {l : Str} (h : '{' ∉ l) : Silent l := by
  intro p hp
  rw [← srcMatch_iff, srcMatch_none _ h] at hp
  cases hp

/-- A step whose block has no annotation gets a place of what follows in the file, also if that is another procedure. -/
theorem c102_other_fails (a b : List Str) (l : Str) (p : Place) (hl : Says l p) (hs : ∀ m ∈ b, Silent m) (hb : b.length < 8) (rest : List Str)
    (g : Str) (hg : '{' ∉ g) : PlaceFor (a ++ (b ++ ("}\n".toList :: ("procedure ".toList ++ g) :: l :: rest))) a.length p := by
  have hend : Silent ['}', '\n'] := silent_of (by decide)
  have hproc : Silent ("procedure ".toList ++ g) := silent_of (by
    rw [List.mem_append, not_or]
    exact ⟨by decide, hg⟩)
  refine ⟨a.length + (b.length + 2), l, by omega, by omega, ?_, hl, fun j m h1 h2 hm => ?_⟩
  · rw [List.getElem?_append_right (by omega), List.getElem?_append_right (by omega)]
    have : a.length + (b.length + 2) - a.length - b.length = 2 := by omega
    rw [this]
    rfl
  · rw [List.getElem?_append_right h1] at hm
    by_cases hj : j - a.length < b.length
    · rw [List.getElem?_append_left hj] at hm
      exact hs m (List.mem_of_getElem? hm)
    · rw [List.getElem?_append_right (by omega)] at hm
      have : j - a.length - b.length = 0 ∨ j - a.length - b.length = 1 := by omega
      rcases this with e | e <;> rw [e] at hm <;> cases hm
      · exact hend
      · exact hproc

example : ∀ m ∈ ["  $bb0:\n".toList, "  return;\n".toList], Silent m := by
  intro m hm
  simp only [List.mem_cons, List.not_mem_nil, or_false] at hm
  rcases hm with rfl | rfl <;> exact silent_of (by decide)

theorem place_eq (a b : Place) : (a.file = b.file ∧ a.line = b.line ∧ a.column = b.column) ↔ a = b := by
  cases a; cases b; simp

/-- Repetitions at the end. -/
theorem repeats_snoc {ps qs : List Place} (h : Repeats ps qs) (t : Place) : Repeats (merger ps t) (qs ++ [t]) := by
  induction h with
  | nil => exact .cons t 0 [] [] (by simp) .nil
  | cons p k ps qs hh hr ih =>
    unfold merger at ih ⊢
    rw [List.getLast?_cons]
    dsimp only
    cases hl : ps.getLast? with
    | none =>
      have hps : ps = [] := by simpa using hl
      subst hps
      cases hr
      rw [Option.getD_none]
      by_cases e : p = t
      · rw [if_pos ((place_eq p t).mpr e)]
        subst e
        have := Repeats.cons p (k + 1) [] [] (by simp) .nil
        rw [List.replicate_succ' (n := k + 1)] at this
        simpa using this
      · rw [if_neg fun h => e ((place_eq p t).mp h)]
        have := Repeats.cons p k [t] _ (by simpa using fun h => e h.symm) (.cons t 0 [] [] (by simp) .nil)
        simpa using this
    | some l =>
      rw [hl] at ih
      dsimp only at ih
      rw [Option.getD_some, List.append_assoc]
      split
      · rename_i he
        rw [if_pos he] at ih
        exact .cons p k ps _ hh ih
      · rename_i he
        rw [if_neg he] at ih
        refine .cons p k (ps ++ [t]) _ ?_ ih
        cases ps with
        | nil => simp at hl
        | cons x ps => simpa using hh

/-- The trace that is shown is the trace without immediate repetitions. -/
theorem c102_merged (ts : List Place) : Repeats (merged ts) ts := by
  have : ∀ (ts pre out : List Place), Repeats out pre → Repeats (ts.foldl merger out) (pre ++ ts) := by
    intro ts
    induction ts with
    | nil => intro pre out h; simpa using h
    | cons t ts ih =>
      intro pre out h
      have := ih (pre ++ [t]) (merger out t) (repeats_snoc h t)
      simpa using this
  exact this ts [] [] .nil

theorem joinLines_lines (ls : List Str) (hn : ls ≠ []) (h : ∀ l ∈ ls, '\n' ∉ l) : Lines (joinLines ls) ls := by
  induction ls with
  | nil => exact absurd rfl hn
  | cons l ls ih =>
    cases ls with
    | nil => exact .last l (h l (by simp))
    | cons m ls =>
      have := Lines.more l _ _ (h l (by simp)) (ih (by simp) fun x hx => h x (List.mem_cons_of_mem _ hx))
      simpa [joinLines] using this

theorem traces_ok (files : Str → List Str) (steps : List (Str × Nat)) : ∀ p ∈ traces files steps, Ok p := by
  induction steps with
  | nil => simp [traces]
  | cons s steps ih =>
    obtain ⟨f, n⟩ := s
    rw [traces]
    split
    · cases e : firstPlace (((files f).drop n).take 10) with
      | none => exact ih
      | some q =>
        intro p hp
        rcases List.mem_cons.mp hp with rfl | hp
        · obtain ⟨k, l, _, h, _⟩ := (firstPlace_iff _ _).mp e
          exact h.1
        · exact ih p hp
    · exact ih

theorem merger_mem {ps : List Place} {t p : Place} (h : p ∈ merger ps t) : p ∈ ps ∨ p = t := by
  unfold merger at h
  split at h
  · exact Or.inr (by simpa using h)
  · split at h
    · exact Or.inl h
    · rcases List.mem_append.mp h with h | h
      · exact Or.inl h
      · exact Or.inr (by simpa using h)

theorem merged_mem {ts : List Place} {p : Place} (h : p ∈ merged ts) : p ∈ ts := by
  have : ∀ (ts out : List Place), p ∈ ts.foldl merger out → p ∈ out ∨ p ∈ ts := by
    intro ts
    induction ts with
    | nil => intro out h; exact Or.inl h
    | cons t ts ih =>
      intro out h
      rcases ih _ h with h | h
      · rcases merger_mem h with h | h
        · exact Or.inl h
        · exact Or.inr (by rw [h]; exact List.mem_cons_self ..)
      · exact Or.inr (List.mem_cons_of_mem _ h)
  exact (this ts [] h).resolve_left (by simp)

/-- The text has one line for each place of the trace without immediate repetitions, with file, line and column. -/
theorem c102_text (files : Str → List Str) (steps : List (Str × Nat)) (hn : traces files steps ≠ []) :
    ∃ ps, Repeats ps (traces files steps) ∧
      Lines (errorTrace files steps) (ps.map fun p => p.file ++ "(".toList ++ p.line ++ ",".toList ++ p.column ++ "): ".toList) := by
  refine ⟨merged (traces files steps), c102_merged _, ?_⟩
  have hne : merged (traces files steps) ≠ [] := fun e => by
    have := c102_merged (traces files steps)
    rw [e] at this
    generalize traces files steps = ts at *
    cases this
    exact hn rfl
  refine joinLines_lines ((merged (traces files steps)).map lineOf) (by simpa using hne) fun l hl => ?_
  obtain ⟨p, hp, rfl⟩ := List.mem_map.mp hl
  have hok := traces_ok files steps p (merged_mem hp)
  have h1 : '\n' ∉ p.file := fun m => absurd (hok.file.2 _ m) (by unfold FileChar; decide)
  have h2 : '\n' ∉ p.line := fun m => absurd (hok.line.2 _ m) (by decide)
  have h3 : '\n' ∉ p.column := fun m => absurd (hok.column.2 _ m) (by decide)
  unfold lineOf
  simp only [List.mem_append, not_or]
  exact ⟨⟨⟨⟨⟨h1, by decide⟩, h2⟩, by decide⟩, h3⟩, by decide⟩

/-- Two steps, of which the first is seen twice. -/
example : errorTrace (fun _ => ["assume {:sourceloc \"a.c\", 3, 7} true;\n".toList, "x := 1;\n".toList, "assume {:sourceloc \"a.c\", 4, 1} true;\n".toList])
    [("p.bpl".toList, 0), ("p.bpl".toList, 0), ("p.c".toList, 1), ("p.bpl".toList, 1)] = "a.c(3,7): \na.c(4,1): ".toList := by decide +kernel

end Smack.BTrace
