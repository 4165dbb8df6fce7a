/-
C24 (arguments in inline code) and C25 (printed expressions are unambiguous).
-/
import Verif.Printer.Parse
import Verif.Printer.Subst

namespace Smack.Printer

open Spec

/-! ## C25 -/

/-- Parsing the text of an expression gives the expression back, and nothing of the text is left. -/
theorem c25_parse_print (e : Expr) (h : WF e) : parseE (print e) = some (e, []) := by
  have := (parse_print e h [] end_nil.1).trans (fin_end e end_nil)
  rwa [List.append_nil] at this

/-- Different expressions have different texts. -/
theorem c25_injective (e e' : Expr) (h : WF e) (h' : WF e') (hp : print e = print e') : e = e' := by
  have h1 := c25_parse_print e h
  have h2 := c25_parse_print e' h'
  rw [hp, h2] at h1
  exact (Prod.mk.inj (Option.some.inj h1)).1.symm

/-- Also in context: an expression followed by a delimiter can be told from any other expression followed by a delimiter. -/
theorem c25_prefix_free (e e' : Expr) (h : WF e) (h' : WF e') (d d' : Char) (t t' : Str)
    (hd : d ∈ [')', ']', ',', ';', ' ', ':']) (hd' : d' ∈ [')', ']', ',', ';', ' ', ':'])
    (hp : print e ++ d :: t = print e' ++ d' :: t') : e = e' ∧ d :: t = d' :: t' := by
  have k : ∀ (d : Char) (t : Str), d ∈ [')', ']', ',', ';', ' ', ':'] → EndOk (d :: t) := by
    intro d t hd
    simp only [List.mem_cons, List.not_mem_nil, or_false] at hd
    rcases hd with rfl | rfl | rfl | rfl | rfl | rfl <;>
      exact end_of_char t (by decide) (by decide) (by decide) (by decide)
  have h1 := (parse_print e h _ (k d t hd).1).trans (fin_end e (k d t hd))
  have h2 := (parse_print e' h' _ (k d' t' hd').1).trans (fin_end e' (k d' t' hd'))
  rw [hp, h2] at h1
  exact ⟨(Prod.mk.inj (Option.some.inj h1)).1.symm, (Prod.mk.inj (Option.some.inj h1)).2.symm⟩

/-- `($add.i32($i0, 1) == m[p])` is well formed. -/
example : WF (.bin .eq (.fn "$add.i32".toList [.var "$i0".toList, .int "1".toList]) (.sel (.var "m".toList) [.var "p".toList])) := by
  have hi : ∀ v : Str, v ≠ [] → (∀ c ∈ v, atomChar c = true ∧ c ≠ '-') → (∀ c ∈ v.head?, c.isDigit = false) → v ∉ reserved →
      IdentOk v := fun v a b c d => ⟨a, b, c, d⟩
  simp only [WF, WFs, Base, and_true, true_and]
  refine ⟨⟨hi _ (by decide) (by decide) (by decide) (by decide), hi _ (by decide) (by decide) (by decide) (by decide),
    .inl ⟨by decide, by decide⟩⟩, hi _ (by decide) (by decide) (by decide) (by decide),
    hi _ (by decide) (by decide) (by decide) (by decide)⟩

/-- String literals are printed without escapes: `f` applied to one string and to two strings can have the same text. -/
theorem c25_string_fails : ∃ e e' : Expr, e ≠ e' ∧ print e = print e' :=
  ⟨.fn ['f'] [.str ['a', '"', ',', ' ', '"', 'b']], .fn ['f'] [.str ['a'], .str ['b']], by intro h; simp at h, by decide⟩

/-- A variable with the name of a rounding mode prints like the rounding mode. Such names are produced for globals: `RNE` is a
legal C identifier and is not changed by the naming function. -/
theorem c25_rmode_fails (m : RMode) : print (.var (rmodeStr m)) = print (.rmode m) ∧ Expr.var (rmodeStr m) ≠ .rmode m := by
  refine ⟨by rw [print, print], by intro h; cases h⟩

/-- A selection from a negation (which the translator does not build) is printed without parentheses around the negation: its
text is read as a negation with something left over. -/
theorem c25_neg_subscript_fails (e : Expr) (i : Expr) (h : WF e) :
    parseE (print (.sel (.neg e) [i])) = some (.neg e, '[' :: (print i ++ [']'])) := by
  have e' : print (.sel (.neg e) [i]) = print (.neg e) ++ '[' :: (print i ++ [']']) := by
    simp [print, printSeq, printRest]
  rw [e', parse_print (.neg e) (by rw [WF]; exact h) _ (tail_bracket _)]
  rfl

/-! ## C24 -/

/-- If no argument text contains `@`: the result is the template in which the k-th hole is replaced by the text of the k-th
argument and everything else is unchanged; the substitution fails exactly when there are more arguments than holes or an argument
has not the type its hole asks for. -/
theorem c24_substitution (fmt : Str) (as : List Arg) (ha : ∀ a ∈ as, NoAt a) (out : Str) :
    code fmt as = some out ↔ ∃ ts, FitsAll (holes (tokenize fmt)) as ts ∧ out = render (tokenize fmt) ts :=
  code_iff as ha [] fmt out (by simp)

/-- `"x := @i; y := @;"` with an `i32` and a cast of an `i8`. -/
example : code "x := @i; y := @;".toList [⟨.i32, "$i0".toList, none⟩, ⟨.i32, "$i1".toList, none⟩] =
    some "x := $i0; y := $i1;".toList ∧ (∀ a ∈ [(⟨.i32, "$i0".toList, none⟩ : Arg), ⟨.i32, "$i1".toList, none⟩], NoAt a) := by
  refine ⟨by decide, ?_⟩
  intro a ha
  simp only [List.mem_cons, List.not_mem_nil, or_false] at ha
  rcases ha with rfl | rfl
  · exact ⟨by decide, by simp⟩
  · exact ⟨by decide, by simp⟩

/-- More arguments than holes: rejected. -/
theorem c24_too_many (fmt : Str) (as : List Arg) (ha : ∀ a ∈ as, NoAt a) (h : (holes (tokenize fmt)).length < as.length) :
    code fmt as = none := by
  cases hc : code fmt as with
  | none => rfl
  | some out =>
    obtain ⟨ts, hf, _⟩ := (c24_substitution fmt as ha out).mp hc
    have : ∀ (fs : List (Option Char)) (as : List Arg) (ts : List Str), FitsAll fs as ts → as.length ≤ fs.length := by
      intro fs as
      induction as generalizing fs with
      | nil => intro _ _; simp
      | cons a as ih =>
        intro ts h
        cases fs with
        | nil => exact h.elim
        | cons f fs => cases ts with
          | nil => exact h.elim
          | cons t ts =>
            have := ih fs ts h.2
            simp only [List.length_cons]; omega
    have := this _ _ _ hf
    omega

/-- Arguments that are printed well-formed expressions without string literals (what `arg` builds) meet the hypothesis. -/
theorem c24_printed_args (fmt : Str) (es : List (Ty × Expr)) (h : ∀ p ∈ es, WF p.2 ∧ NoStr p.2) (out : Str) :
    code fmt (es.map fun p => ⟨p.1, print p.2, none⟩) = some out ↔
      ∃ ts, FitsAll (holes (tokenize fmt)) (es.map fun p => ⟨p.1, print p.2, none⟩) ts ∧ out = render (tokenize fmt) ts := by
  refine c24_substitution _ _ ?_ _
  intro a ha
  rw [List.mem_map] at ha
  obtain ⟨p, hp, rfl⟩ := ha
  exact ⟨print_noAt _ (h p hp).1 (h p hp).2, by simp⟩

/-- If the text of the first argument contains `@`, the second argument is substituted into it and not into the second hole. -/
theorem c24_fails (x y : Str) (hx : '@' ∉ x) :
    code ['@', ' ', '@'] [⟨.i32, x ++ ['@'], none⟩, ⟨.i32, y, none⟩] = some (x ++ y ++ [' ', '@']) := by
  have h1 : substOne ['@', ' ', '@'] ⟨.i32, x ++ ['@'], none⟩ = some (x ++ '@' :: [' ', '@']) := by
    have := subst_at (q := []) (r := [' ', '@']) (by simp) (⟨.i32, x ++ ['@'], none⟩ : Arg)
    rw [List.nil_append] at this
    rw [this]
    have hh : hole1 [' ', '@'] = (none, [' ', '@']) := by decide
    rw [hh]
    simp [argText]
  rw [code, h1, Option.bind_some, code, subst_at hx]
  have hh : hole1 [' ', '@'] = (none, [' ', '@']) := by decide
  rw [hh]
  simp [argText, code]

end Smack.Printer
