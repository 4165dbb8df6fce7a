/-
The parser of the specification inverts the printer.
-/
import Verif.Printer.Lemmas

namespace Smack.Printer

open Spec

theorem tail_bracket (t : Str) : TailOk ('[' :: t) := tail_of_char t (by decide) (by decide) (by decide)

theorem end_space (t : Str) : EndOk (' ' :: t) := end_of_char t (by decide) (by decide) (by decide) (by decide)

theorem end_paren (t : Str) : EndOk (')' :: t) := end_of_char t (by decide) (by decide) (by decide) (by decide)

theorem end_colon (t : Str) : EndOk (':' :: t) := end_of_char t (by decide) (by decide) (by decide) (by decide)

theorem end_comma (t : Str) : EndOk (',' :: t) := end_of_char t (by decide) (by decide) (by decide) (by decide)

theorem end_square (t : Str) : EndOk (']' :: t) := end_of_char t (by decide) (by decide) (by decide) (by decide)

theorem not_prefix_of_kw {e : Expr} (h : WF e) {t : Str} (ht : ∀ c ∈ t.head?, atomChar c = false) :
    ['i', 'f', ' '].isPrefixOf (print e ++ t) = false ∧ ['f', 'o', 'r', 'a', 'l', 'l', ' '].isPrefixOf (print e ++ t) = false ∧
    ['e', 'x', 'i', 's', 't', 's', ' '].isPrefixOf (print e ++ t) = false := by
  have key : ∀ w, Kw w → (w ++ [' ']).isPrefixOf (print e ++ t) = false := by
    intro w hw
    rw [Bool.eq_false_iff, ne_eq, List.isPrefixOf_iff_prefix]
    exact print_not_kw hw e h t ht
  exact ⟨key ['i', 'f'] (by simp [Kw]), key ['f', 'o', 'r', 'a', 'l', 'l'] (by simp [Kw]), key ['e', 'x', 'i', 's', 't', 's'] (by simp [Kw])⟩

theorem head_end {t : Str} (h : EndOk t) : ∀ c ∈ t.head?, atomChar c = false := fun c hc => (h.1.1 c hc).1

theorem parse_paren {e : Expr} (h : WF e) {t : Str} (ht : EndOk t) (he : parseE (print e ++ t) = some (e, t)) :
    parseE ('(' :: (print e ++ t)) = match (generalizing := false) t with
      | '+' :: '+' :: r => (do
        let (e', r) ← parseE r
        let r ← expect [')'] r
        parseSuffix (.concat e e') r)
      | ' ' :: r => (do
        let op ← parseOp (r.takeWhile (· ≠ ' '))
        let r ← expect [' '] (r.dropWhile (· ≠ ' '))
        let (e', r) ← parseE r
        let r ← expect [')'] r
        parseSuffix (.bin op e e') r)
      | _ => none := by
  obtain ⟨h1, h2, h3⟩ := not_prefix_of_kw h (head_end ht)
  rw [parseE.eq_def]
  simp only [h1, h2, h3, he, Bool.false_eq_true, if_false, bind, Option.bind]
  rfl

mutual
theorem parse_print : ∀ e : Expr, WF e → ∀ t, TailOk t → parseE (print e ++ t) = fin e t
  | .bool b, h, t, ht => by
    obtain ⟨ha, hc⟩ := atom_print (by trivial) h
    rw [parseE_atom ha ht, hc, fin]
    all_goals simp
  | .rmode b, h, t, ht => by
    obtain ⟨ha, hc⟩ := atom_print (by trivial) h
    rw [parseE_atom ha ht, hc, fin]
    all_goals simp
  | .int b, h, t, ht => by
    obtain ⟨ha, hc⟩ := atom_print (by trivial) h
    rw [parseE_atom ha ht, hc, fin]
    all_goals simp
  | .bv b _, h, t, ht => by
    obtain ⟨ha, hc⟩ := atom_print (by trivial) h
    rw [parseE_atom ha ht, hc, fin]
    all_goals simp
  | .fp b _ _ _ _, h, t, ht => by
    obtain ⟨ha, hc⟩ := atom_print (by trivial) h
    rw [parseE_atom ha ht, hc, fin]
    all_goals simp
  | .fpSpecial b _ _, h, t, ht => by
    obtain ⟨ha, hc⟩ := atom_print (by trivial) h
    rw [parseE_atom ha ht, hc, fin]
    all_goals simp
  | .var b, h, t, ht => by
    obtain ⟨ha, hc⟩ := atom_print (by trivial) h
    rw [parseE_atom ha ht, hc, fin]
    all_goals simp
  | .bin op l r, h, t, ht => by
    rw [WF] at h
    have e : print (.bin op l r) ++ t = '(' :: (print l ++ ' ' :: (opStr op ++ ' ' :: (print r ++ ')' :: t))) := by
      simp [print]
    have hl := (parse_print l h.1 _ (end_space (opStr op ++ ' ' :: (print r ++ ')' :: t))).1).trans (fin_end l (end_space _))
    have hr := (parse_print r h.2 _ (end_paren t).1).trans (fin_end r (end_paren t))
    have hs : ∀ c ∈ (' ' :: (print r ++ ')' :: t)).head?, (decide (c ≠ ' ')) = false := by
      intro c hc
      have : c = ' ' := by simpa using hc.symm
      subst this; decide
    rw [e, parse_paren h.1 (end_space _) hl]
    simp only [takeWhile_append_stop (opStr_noSpace op) hs, dropWhile_append_stop (opStr_noSpace op) hs, parseOp_opStr,
      expect_cons, hr, bind, Option.bind]
    rfl
  | .fn f args, h, t, ht => by
    rw [WF] at h
    have e : print (.fn f args) ++ t = f ++ '(' :: (printSeq args ++ ')' :: t) := by simp [print]
    have hm : f ≠ ['-'] := by
      rintro rfl
      exact (h.1.2.1 '-' (by simp)).2 rfl
    have hs : parseSeq (printSeq args ++ ')' :: t) = some (args, ')' :: t) :=
      parse_seq args h.2 _ (seq_end_of_char _ (by decide) (by decide)) (.inr (by simp))
    rw [e, parseE_fn h.1.1 (fun c hc => (h.1.2.1 c hc).1) hm, hs]
    simp only [expect_cons, bind, Option.bind]
    rfl
  | .str v, h, t, ht => by
    rw [WF] at h
    have e : print (.str v) ++ t = '"' :: (v ++ '"' :: t) := by simp [print]
    have hv : ∀ c ∈ v, (decide (c ≠ '"')) = true := by
      intro c hc
      rw [decide_eq_true_eq]
      rintro rfl
      exact h hc
    have hs : ∀ c ∈ ('"' :: t).head?, (decide (c ≠ '"')) = false := by
      intro c hc
      have : c = '"' := by simpa using hc.symm
      subst this; decide
    rw [e, parseE.eq_def]
    simp only [takeWhile_append_stop hv hs, dropWhile_append_stop hv hs, expect_cons, bind, Option.bind]
    rfl
  | .neg e, h, t, ht => by
    rw [WF] at h
    have e' : print (.neg e) ++ t = '-' :: '(' :: (print e ++ ')' :: t) := by simp [print]
    have he := (parse_print e h _ (end_paren t).1).trans (fin_end e (end_paren t))
    rw [e', parseE_neg, he]
    simp only [expect_cons, bind, Option.bind]
    rfl
  | .not e, h, t, ht => by
    rw [WF] at h
    have e' : print (.not e) ++ t = '!' :: '(' :: (print e ++ ')' :: t) := by simp [print]
    have he := (parse_print e h _ (end_paren t).1).trans (fin_end e (end_paren t))
    rw [e', parseE.eq_def]
    simp only [he, expect_cons, bind, Option.bind]
    rfl
  | .quant q vs e, h, t, ht => by
    rw [WF] at h
    have he := (parse_print e h.2 _ (end_paren t).1).trans (fin_end e (end_paren t))
    have hb := bindings_print vs h.1 (':' :: ':' :: ' ' :: (print e ++ ')' :: t))
    have hx : ∀ s, expect [' ', ':', ':', ' '] (' ' :: ':' :: ':' :: ' ' :: s) = some s := expect_append [' ', ':', ':', ' ']
    cases q
    · have e' : print (.quant .exists_ vs e) ++ t =
          '(' :: 'e' :: 'x' :: 'i' :: 's' :: 't' :: 's' :: ' ' :: (printBindings vs ++ ' ' :: ':' :: ':' :: ' ' :: (print e ++ ')' :: t)) := by
        simp [print, quantStr]
      rw [e', parseE.eq_def]
      simp only [List.isPrefixOf, quantStr, List.drop_succ_cons, List.drop_zero]
      rw [if_neg (by decide), if_neg (by decide), if_pos (by decide)]
      simp only [hb, hx, he, expect_cons, bind, Option.bind]
      rfl
    · have e' : print (.quant .forall_ vs e) ++ t =
          '(' :: 'f' :: 'o' :: 'r' :: 'a' :: 'l' :: 'l' :: ' ' :: (printBindings vs ++ ' ' :: ':' :: ':' :: ' ' :: (print e ++ ')' :: t)) := by
        simp [print, quantStr]
      rw [e', parseE.eq_def]
      simp only [List.isPrefixOf, quantStr, List.drop_succ_cons, List.drop_zero]
      rw [if_neg (by decide), if_pos (by decide)]
      simp only [hb, hx, he, expect_cons, bind, Option.bind]
      rfl
  | .sel b is, h, t, ht => by
    rw [WF] at h
    have e : print (.sel b is) ++ t = print b ++ '[' :: (printSeq is ++ ']' :: t) := by simp [print]
    have hs : parseSeq (printSeq is ++ ']' :: t) = some (is, ']' :: t) :=
      parse_seq is h.2.2 _ (seq_end_of_char _ (by decide) (by decide)) (.inr (by simp))
    rw [e, parse_print b h.1 _ (tail_bracket _), fin_base h.2.1, parseSuffix.eq_def]
    simp only [hs, bind, Option.bind]
    rfl
  | .upd b is v, h, t, ht => by
    rw [WF] at h
    have e : print (.upd b is v) ++ t = print b ++ '[' :: (printSeq is ++ ' ' :: ':' :: '=' :: ' ' :: (print v ++ ']' :: t)) := by
      simp [print]
    have hs : parseSeq (printSeq is ++ ' ' :: ':' :: '=' :: ' ' :: (print v ++ ']' :: t)) =
        some (is, ' ' :: ':' :: '=' :: ' ' :: (print v ++ ']' :: t)) :=
      parse_seq is h.2.2.1 _ (seq_end_of_char _ (by decide) (by decide)) (.inr (by simp))
    have hv := (parse_print v h.2.2.2 _ (end_square t).1).trans (fin_end v (end_square t))
    rw [e, parse_print b h.1 _ (tail_bracket _), fin_base h.2.1, parseSuffix.eq_def]
    simp only [hs, hv, expect_cons, bind, Option.bind]
    rfl
  | .ite c x y, h, t, ht => by
    rw [WF] at h
    have e : print (.ite c x y) ++ t = '(' :: 'i' :: 'f' :: ' ' :: (print c ++ ' ' :: 't' :: 'h' :: 'e' :: 'n' :: ' ' ::
        (print x ++ ' ' :: 'e' :: 'l' :: 's' :: 'e' :: ' ' :: (print y ++ ')' :: t))) := by
      simp [print]
    have hc := fun s => (parse_print c h.1 _ (end_space s).1).trans (fin_end c (end_space s))
    have hx := fun s => (parse_print x h.2.1 _ (end_space s).1).trans (fin_end x (end_space s))
    have hy := (parse_print y h.2.2 _ (end_paren t).1).trans (fin_end y (end_paren t))
    have h1 : ∀ s, expect [' ', 't', 'h', 'e', 'n', ' '] (' ' :: 't' :: 'h' :: 'e' :: 'n' :: ' ' :: s) = some s :=
      expect_append [' ', 't', 'h', 'e', 'n', ' ']
    have h2 : ∀ s, expect [' ', 'e', 'l', 's', 'e', ' '] (' ' :: 'e' :: 'l' :: 's' :: 'e' :: ' ' :: s) = some s :=
      expect_append [' ', 'e', 'l', 's', 'e', ' ']
    rw [e, parseE.eq_def]
    simp only [List.isPrefixOf, List.drop_succ_cons, List.drop_zero]
    rw [if_pos (by decide)]
    simp only [hc, hx, hy, h1, h2, expect_cons, bind, Option.bind]
    rfl
  | .extract v u l, h, t, ht => by
    rw [WF] at h
    have e : print (.extract v u l) ++ t = print v ++ '[' :: (print u ++ ':' :: (print l ++ ']' :: t)) := by simp [print]
    have hs : parseSeq (print u ++ ':' :: (print l ++ ']' :: t)) = some ([u], ':' :: (print l ++ ']' :: t)) := by
      have hu := (parse_print u h.2.2.1 _ (end_colon (print l ++ ']' :: t)).1).trans (fin_end u (end_colon _))
      rw [seq_cons h.2.2.1, hu]
      simp only [bind, Option.bind]
      rw [more_end (seq_end_of_char _ (by decide) (by decide))]
      rfl
    have hl := (parse_print l h.2.2.2 _ (end_square t).1).trans (fin_end l (end_square t))
    rw [e, parse_print v h.1 _ (tail_bracket _), fin_base h.2.1, parseSuffix.eq_def]
    simp only [hs, hl, expect_cons, bind, Option.bind]
    rfl
  | .concat l r, h, t, ht => by
    rw [WF] at h
    have e : print (.concat l r) ++ t = '(' :: (print l ++ '+' :: '+' :: (print r ++ ')' :: t)) := by simp [print]
    have hl := (parse_print l h.1 _ (end_plus (print r ++ ')' :: t)).1).trans (fin_end l (end_plus _))
    have hr := (parse_print r h.2 _ (end_paren t).1).trans (fin_end r (end_paren t))
    rw [e, parse_paren h.1 (end_plus _) hl]
    simp only [hr, expect_cons, bind, Option.bind]
    rfl

theorem parse_seq : ∀ as : List Expr, WFs as → ∀ t, SeqEnd t → (as ≠ [] ∨ ∃ c ∈ t.head?, c ∈ [')', ']', ' ']) →
    parseSeq (printSeq as ++ t) = some (as, t)
  | [], _, t, _, hn => by
    rw [printSeq, List.nil_append, parseSeq.eq_def]
    rcases hn with hn | ⟨c, hc, hm⟩
    · exact absurd rfl hn
    · cases t with
      | nil => simp at hc
      | cons d t =>
        have : d = c := by simpa using hc
        subst this
        simp only [List.mem_cons, List.not_mem_nil, or_false] at hm
        rcases hm with rfl | rfl | rfl <;> rfl
  | a :: as, h, t, ht, _ => by
    rw [WFs] at h
    have he : EndOk (printRest as ++ t) := by
      cases as with
      | nil => rw [printRest]; exact ht.1
      | cons b bs => rw [printRest]; exact end_comma _
    rw [printSeq, List.append_assoc, seq_cons h.1, parse_print a h.1 _ he.1, fin_end a he]
    simp only [bind, Option.bind]
    rw [parse_more as h.2 t ht]
    rfl

theorem parse_more : ∀ as : List Expr, WFs as → ∀ t, SeqEnd t → parseMore (printRest as ++ t) = some (as, t)
  | [], _, t, ht => by rw [printRest]; exact more_end ht
  | a :: as, h, t, ht => by
    rw [WFs] at h
    have he : EndOk (printRest as ++ t) := by
      cases as with
      | nil => rw [printRest]; exact ht.1
      | cons b bs => rw [printRest]; exact end_comma _
    have e : printRest (a :: as) ++ t = ',' :: ' ' :: (print a ++ (printRest as ++ t)) := by simp [printRest]
    rw [e, parseMore.eq_def]
    simp only
    rw [parse_print a h.1 _ he.1, fin_end a he]
    simp only [bind, Option.bind]
    rw [parse_more as h.2 t ht]
    rfl
end

end Smack.Printer
