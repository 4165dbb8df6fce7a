import Verif.Printer.Parse
import Verif.Printer.StmtSpec
/-!
# Lemmas: reading what the printer writes
-/
namespace Smack.Printer

open Spec

theorem seqRest_eq (sep : Str) (f : α → Str) : ∀ xs : List α, seqRest sep f xs = xs.flatMap fun x => sep ++ f x
  | [] => rfl
  | x :: xs => by rw [seqRest, List.flatMap_cons, seqRest_eq]

theorem seqOf_cons (i sep t : Str) (f : α → Str) (x : α) (xs : List α) :
    seqOf i sep t f (x :: xs) = i ++ (f x ++ ((xs.flatMap fun x => sep ++ f x) ++ t)) := by
  simp only [seqOf, seqRest_eq, List.append_assoc]

/-- Elements that end with `t` and begin with `i`, when the separator is the end of one and the beginning of the next. -/
theorem lines (i t : Str) (f : α → Str) : ∀ (x : α) (xs : List α),
    i ++ (f x ++ ((xs.flatMap fun x => (t ++ i) ++ f x) ++ t)) = (x :: xs).flatMap fun x => i ++ (f x ++ t)
  | x, [] => by simp
  | x, y :: ys => by
    have := lines i t f y ys
    rw [List.flatMap_cons (xs := y :: ys), ← this]
    simp only [List.flatMap_cons, List.append_assoc]

theorem printRest_eq : ∀ es : List Expr, printRest es = es.flatMap fun e => [',', ' '] ++ print e
  | [] => by rw [printRest]; rfl
  | e :: es => by rw [printRest, printRest_eq, List.flatMap_cons]

theorem seq_exprs (es : List Expr) : seqOf [] [',', ' '] [] print es = printSeq es := by
  cases es with
  | nil => rw [printSeq]; rfl
  | cons e es => rw [seqOf_cons, printSeq, printRest_eq, List.append_nil, List.nil_append]

theorem many_nil {start : Str → Option Str} {p : Str → Option (α × Str)} {t : Str} (h : start t = none) : many start p t = some ([], t) := by
  rw [many.eq_def, h]

/-- Reading a list of elements. `T` is what may follow an element. -/
theorem many_flat {start : Str → Option Str} {p : Str → Option (α × Str)} {f g : α → Str} {T : Str → Prop} {t : Str} (ht : start t = none) (hT : T t) :
    ∀ xs : List α, (∀ x ∈ xs, ∀ u, start (g x ++ u) = some (f x ++ u) ∧ T (g x ++ u) ∧ (T u → p (f x ++ u) = some (x, u))) →
      many start p (xs.flatMap g ++ t) = some (xs, t)
  | [], _ => many_nil ht
  | x :: xs, h => by
    have hx := h x (List.mem_cons_self ..)
    have hT' : T (xs.flatMap g ++ t) := by
      cases xs with
      | nil => exact hT
      | cons y ys =>
        rw [List.flatMap_cons, List.append_assoc]
        exact (h y (List.mem_cons_of_mem _ (List.mem_cons_self ..)) _).2.1
    rw [List.flatMap_cons, List.append_assoc, many.eq_def, (hx _).1]
    simp only [(hx _).2.2 hT', bind, Option.bind]
    rw [many_flat ht hT xs fun y hy => h y (List.mem_cons_of_mem _ hy)]
    rfl

/-! ### Words -/

def Stop (t : Str) : Prop := ∀ c ∈ t.head?, atomChar c = false

theorem word_take {n t : Str} (h : NameOk n) (ht : Stop t) : (n ++ t).takeWhile atomChar = n ∧ (n ++ t).dropWhile atomChar = t :=
  ⟨takeWhile_append_stop h.2 ht, dropWhile_append_stop h.2 ht⟩

theorem word_parse {n t : Str} (h : NameOk n) (ht : Stop t) : parseWord (n ++ t) = some (n, t) := by
  unfold parseWord
  rw [(word_take h ht).1, (word_take h ht).2, if_neg h.1]

theorem stop_char {c : Char} {t : Str} (h : atomChar c = false) : Stop (c :: t) := by
  intro d hd
  simp at hd
  subst hd
  exact h

theorem expect_head {c d : Char} {p t : Str} (h : c ≠ d) : expect (c :: p) (d :: t) = none := by
  unfold expect
  rw [if_neg]
  simp [List.isPrefixOf, h]

theorem expect_nil {c : Char} {p : Str} : expect (c :: p) [] = none := rfl

theorem expect_head' {c : Char} {p t : Str} (h : ∀ d ∈ t.head?, c ≠ d) : expect (c :: p) t = none := by
  cases t with
  | nil => rfl
  | cons d t => exact expect_head (h d rfl)

theorem words_parse {vs : List Str} (hn : vs ≠ []) (h : ∀ v ∈ vs, NameOk v) {t : Str} (ht : Stop t) (hc : expect [',', ' '] t = none) :
    parseWords (seqOf [] [',', ' '] [] id vs ++ t) = some (vs, t) := by
  cases vs with
  | nil => exact absurd rfl hn
  | cons v vs =>
    have hm : many (expect [',', ' ']) parseWord ((vs.flatMap fun x => [',', ' '] ++ id x) ++ t) = some (vs, t) :=
      many_flat (f := id) (T := Stop) hc ht vs fun x hx u => ⟨by rw [List.append_assoc, expect_append],
        stop_char (by decide), fun hu => word_parse (h x (List.mem_cons_of_mem _ hx)) hu⟩
    have hs : Stop ((vs.flatMap fun x => [',', ' '] ++ id x) ++ t) := by
      cases vs with
      | nil => exact ht
      | cons y ys => exact stop_char (by decide)
    rw [seqOf_cons]
    simp only [id] at hm hs
    simp only [List.nil_append, List.append_nil, List.append_assoc, id]
    unfold parseWords
    rw [word_parse (h v (List.mem_cons_self ..)) hs]
    simp only [bind, Option.bind]
    rw [hm]
    rfl

/-! ### Expressions -/

theorem expr_parse {e : Expr} (h : WF e) {t : Str} (ht : EndOk t) : parseE (print e ++ t) = some (e, t) :=
  (parse_print e h t ht.1).trans (fin_end e ht)

theorem end_semi (t : Str) : EndOk (';' :: t) := end_of_char t (by decide) (by decide) (by decide) (by decide)

theorem exprSemi_parse {e : Expr} (h : WF e) (t : Str) : parseExprSemi (print e ++ ([';'] ++ t)) = some (e, t) := by
  unfold parseExprSemi
  have : parseE (print e ++ ([';'] ++ t)) = some (e, [';'] ++ t) := expr_parse h (end_semi t)
  rw [this]
  simp only [bind, Option.bind, expect_append]
  rfl

theorem seq_parse {es : List Expr} (h : WFs es) {c : Char} {t : Str} (hc : atomChar c = false) (hd : c ∉ ['(', '+', '[', ','])
    (hn : es ≠ [] ∨ c ∈ [')', ']', ' ']) : parseSeq (printSeq es ++ c :: t) = some (es, c :: t) :=
  parse_seq es h _ (seq_end_of_char t hc hd) (hn.imp id fun h => ⟨c, rfl, h⟩)

/-! ### Attributes -/

theorem attr_parse {a : Attr} (h : AttrOk a) (u : Str) :
    parseAttr (a.name ++ ((if 0 < a.vals.length then seqOf [' '] [',', ' '] [] print a.vals else []) ++ (['}'] ++ ([' '] ++ u)))) = some (a, u) := by
  obtain ⟨n, vs⟩ := a
  have e2 : ∀ u, ['}'] ++ ([' '] ++ u) = ['}', ' '] ++ u := fun _ => rfl
  cases vs with
  | nil =>
    show parseAttr (n ++ ('}' :: (' ' :: u))) = _
    unfold parseAttr
    rw [word_parse h.1 (stop_char (by decide))]
    simp only [bind, Option.bind]
    have : expect [' '] ('}' :: ' ' :: u) = none := expect_head (by decide)
    rw [this]
    have : expect ['}', ' '] ('}' :: ' ' :: u) = some u := expect_append ['}', ' '] u
    simp only [this]
    rfl
  | cons v vs =>
    have e : (if 0 < (v :: vs).length then seqOf [' '] [',', ' '] [] print (v :: vs) else []) = [' '] ++ printSeq (v :: vs) := by
      rw [if_pos (by simp), ← seq_exprs, seqOf_cons, seqOf_cons]
      simp only [List.nil_append]
    show parseAttr (n ++ ((if 0 < (v :: vs).length then seqOf [' '] [',', ' '] [] print (v :: vs) else []) ++ _)) = _
    rw [e, List.append_assoc]
    unfold parseAttr
    have hw : parseWord (n ++ ([' '] ++ (printSeq (v :: vs) ++ (['}'] ++ ([' '] ++ u))))) =
        some (n, [' '] ++ (printSeq (v :: vs) ++ (['}'] ++ ([' '] ++ u)))) := word_parse h.1 (stop_char (by decide))
    rw [hw]
    simp only [bind, Option.bind, expect_append]
    have : parseSeq (printSeq (v :: vs) ++ (['}'] ++ ([' '] ++ u))) = some (v :: vs, ['}'] ++ ([' '] ++ u)) :=
      seq_parse h.2 (by decide) (by decide) (Or.inl (by simp))
    rw [this]
    simp only [e2, expect_append]
    rfl

theorem attrs_eq (as : List Attr) : printAttrs as = as.flatMap fun a => ['{', ':'] ++
    (a.name ++ ((if 0 < a.vals.length then seqOf [' '] [',', ' '] [] print a.vals else []) ++ (['}'] ++ [' ']))) := by
  cases as with
  | nil => rfl
  | cons a as =>
    unfold printAttrs
    rw [if_pos (by simp), seqOf_cons]
    have := lines [] [' '] printAttr a as
    simp only [List.append_nil, List.nil_append] at this
    rw [List.nil_append, this]
    congr 1
    funext a
    simp only [printAttr, List.append_assoc]

theorem attrs_parse {as : List Attr} (h : ∀ a ∈ as, AttrOk a) {t : Str} (ht : ∀ c ∈ t.head?, c ≠ '{') : parseAttrs (printAttrs as ++ t) = some (as, t) := by
  rw [attrs_eq]
  have h0 : expect ['{', ':'] t = none := expect_head' fun d hd => Ne.symm (ht d hd)
  refine many_flat (start := expect ['{', ':']) (T := fun _ => True) (f := fun a => a.name ++ ((if 0 < a.vals.length then seqOf [' '] [',', ' '] [] print a.vals else []) ++ (['}'] ++ [' '])))
    h0 trivial as fun a ha u => ⟨?_, trivial, fun _ => ?_⟩
  · rw [List.append_assoc, expect_append]
  · have := attr_parse (h a ha) u
    simpa only [List.append_assoc] using this

theorem expr_head {e : Expr} (h : WF e) (t : Str) : ∀ c ∈ (print e ++ t).head?, c ≠ '{' := by
  obtain ⟨c, r, e', hc⟩ := print_head e h
  rw [e']
  intro d hd
  simp at hd
  subst hd
  intro e
  subst e
  rcases hc with hc | hc
  · cases hc
  · simp at hc

theorem name_head {n : Str} (h : NameOk n) (t : Str) : ∃ c r, n ++ t = c :: r ∧ atomChar c = true := by
  cases n with
  | nil => exact absurd rfl h.1
  | cons c n => exact ⟨c, n ++ t, rfl, h.2 c (List.mem_cons_self ..)⟩

theorem name_ne {n : Str} (h : NameOk n) (t : Str) (d : Char) (hd : atomChar d = false) : ∀ c ∈ (n ++ t).head?, c ≠ d := by
  obtain ⟨c, r, e, hc⟩ := name_head h t
  rw [e]
  intro x hx
  simp at hx
  subst hx
  intro e
  subst e
  rw [hc] at hd
  cases hd

/-! ### Comments -/

theorem comment_parse : ∀ (s : Str), CommentOk s → ∀ t : Str, parseComment 0 (s ++ (' ' :: '*' :: '/' :: t)) = some (s ++ [' '], t)
  | [], _, t => rfl
  | c :: s, h, t => by
    have hs : CommentOk s := ⟨fun hi => h.1 (hi.trans (List.suffix_cons ..).isInfix), fun hi => h.2 (hi.trans (List.suffix_cons ..).isInfix)⟩
    have ih := comment_parse s hs t
    have key : parseComment 0 (c :: (s ++ (' ' :: '*' :: '/' :: t))) = (parseComment 0 (s ++ (' ' :: '*' :: '/' :: t))).map fun p => (c :: p.1, p.2) := by
      cases s with
      | nil => 
        rw [List.nil_append, parseComment.eq_def]
        split
        · rename_i h'; cases h'
        · rename_i h'; simp at h'
        · rename_i h'; simp at h'
        · rename_i h1 h2 h3; cases h3; rfl
      | cons d s =>
        rw [List.cons_append, parseComment.eq_def]
        split
        · rename_i h'; cases h'
        · rename_i h'
          simp only [List.cons.injEq] at h'
          obtain ⟨rfl, rfl, -⟩ := h'
          exact absurd ⟨[], s, rfl⟩ h.1
        · rename_i h'
          simp only [List.cons.injEq] at h'
          obtain ⟨rfl, rfl, -⟩ := h'
          exact absurd ⟨[], s, rfl⟩ h.2
        · rename_i h1 h2 h3; cases h3; rfl
    rw [List.cons_append, key, ih]
    rfl

/-! ### Statements -/

theorem root_print : ∀ (e : Expr) (v : Str), WF e → root e = some v → NameOk v ∧ ∃ x, print e = v ++ x ∧ Stop x
  | .var v, w, h, hr => by
    cases hr
    rw [WF] at h
    exact ⟨⟨h.1, fun c hc => (h.2.1 c hc).1⟩, [], by rw [print, List.append_nil], fun c hc => by cases hc⟩
  | .sel b is, w, h, hr => by
    rw [WF] at h
    obtain ⟨hn, x, hx, hs⟩ := root_print b w h.1 hr
    refine ⟨hn, x ++ '[' :: (printSeq is ++ [']']), by rw [print, hx]; simp, ?_⟩
    cases x with
    | nil => exact stop_char (by decide)
    | cons c x => exact hs
  | .bin .., _, _, hr | .fn .., _, _, hr | .bool _, _, _, hr | .rmode _, _, _, hr | .int _, _, _, hr | .bv .., _, _, hr
  | .fp .., _, _, hr | .fpSpecial .., _, _, hr | .str _, _, _, hr | .neg _, _, _, hr | .not _, _, _, hr | .quant .., _, _, hr
  | .upd .., _, _, hr | .ite .., _, _, hr | .extract .., _, _, hr | .concat .., _, _, hr => by cases hr

theorem kw_take {w : Str} (hw : ∀ c ∈ w, atomChar c = true) {c : Char} (hc : atomChar c = false) (t : Str) :
    (w ++ c :: t).takeWhile atomChar = w ∧ (w ++ c :: t).dropWhile atomChar = c :: t :=
  ⟨takeWhile_append_stop hw (stop_char hc), dropWhile_append_stop hw (stop_char hc)⟩

theorem not_comment {s : Str} (h : ∀ c ∈ s.head?, c ≠ '/') : expect ['/', '*', ' '] s = none :=
  expect_head' fun d hd => Ne.symm (h d hd)

theorem head_ne {c d : Char} {t : Str} (h : c ≠ d) : ∀ x ∈ (c :: t).head?, x ≠ d := by
  intro x hx
  simp at hx
  subst hx
  exact h

theorem call_tail {es : List Expr} (h : WFs es) (t : Str) :
    parseSeq (printSeq es ++ ([')'] ++ ([';'] ++ t))) = some (es, [')', ';'] ++ t) :=
  seq_parse h (by decide) (by decide) (Or.inr (by decide))

theorem params_text (es : List Expr) (t : Str) : seqOf ['('] [',', ' '] [')'] print es ++ t = ['('] ++ (printSeq es ++ ([')'] ++ t)) := by
  rw [← seq_exprs]
  simp only [seqOf, List.append_assoc, List.nil_append]

theorem stmt_parse (s : Stmt) (h : StmtOk s) (t : Str) : parseStmt (printStmt s ++ t) = some (s, t) := by
  cases s with
  | comment s =>
    have e : printStmt (.comment s) ++ t = ['/', '*', ' '] ++ (s ++ (' ' :: '*' :: '/' :: t)) := by
      simp [printStmt]
    unfold parseStmt
    rw [e, expect_append]
    simp only [comment_parse s h t, bind, Option.bind]
    simp
  | assert_ as e =>
    have e' : printStmt (.assert_ as e) ++ t = ['a', 's', 's', 'e', 'r', 't'] ++ ' ' :: (printAttrs as ++ (print e ++ ([';'] ++ t))) := by
      simp [printStmt]
    unfold parseStmt
    rw [e', not_comment (by exact head_ne (by decide))]
    obtain ⟨h1, h2⟩ := kw_take (w := ['a', 's', 's', 'e', 'r', 't']) (by decide) (c := ' ') (by decide) (printAttrs as ++ (print e ++ ([';'] ++ t)))
    dsimp only
    rw [h1, h2, if_pos rfl]
    have : expect [' '] (' ' :: (printAttrs as ++ (print e ++ ([';'] ++ t)))) = some (printAttrs as ++ (print e ++ ([';'] ++ t))) := expect_append [' '] _
    simp only [this, bind, Option.bind, attrs_parse h.1 (expr_head h.2 _), exprSemi_parse h.2 t]
    rfl
  | assume_ as e =>
    have e' : printStmt (.assume_ as e) ++ t = ['a', 's', 's', 'u', 'm', 'e'] ++ ' ' :: (printAttrs as ++ (print e ++ ([';'] ++ t))) := by
      simp [printStmt]
    unfold parseStmt
    rw [e', not_comment (by exact head_ne (by decide))]
    obtain ⟨h1, h2⟩ := kw_take (w := ['a', 's', 's', 'u', 'm', 'e']) (by decide) (c := ' ') (by decide) (printAttrs as ++ (print e ++ ([';'] ++ t)))
    dsimp only
    rw [h1, h2, if_neg (by decide), if_pos rfl]
    have : expect [' '] (' ' :: (printAttrs as ++ (print e ++ ([';'] ++ t)))) = some (printAttrs as ++ (print e ++ ([';'] ++ t))) := expect_append [' '] _
    simp only [this, bind, Option.bind, attrs_parse h.1 (expr_head h.2 _), exprSemi_parse h.2 t]
    rfl
  | havoc vs =>
    have e' : printStmt (.havoc vs) ++ t = ['h', 'a', 'v', 'o', 'c'] ++ ' ' :: (seqOf [] [',', ' '] [] id vs ++ ([';'] ++ t)) := by
      simp [printStmt]
    unfold parseStmt
    rw [e', not_comment (by exact head_ne (by decide))]
    obtain ⟨h1, h2⟩ := kw_take (w := ['h', 'a', 'v', 'o', 'c']) (by decide) (c := ' ') (by decide) (seqOf [] [',', ' '] [] id vs ++ ([';'] ++ t))
    dsimp only
    rw [h1, h2, if_neg (by decide), if_neg (by decide), if_pos rfl]
    have h3 : expect [' '] (' ' :: (seqOf [] [',', ' '] [] id vs ++ ([';'] ++ t))) = some (seqOf [] [',', ' '] [] id vs ++ ([';'] ++ t)) := expect_append [' '] _
    have h4 : parseWords (seqOf [] [',', ' '] [] id vs ++ ([';'] ++ t)) = some (vs, [';'] ++ t) :=
      words_parse h.1 h.2 (stop_char (by decide)) (expect_head (by decide))
    simp only [h3, bind, Option.bind, h4, expect_append]
    rfl
  | goto_ vs =>
    have e' : printStmt (.goto_ vs) ++ t = ['g', 'o', 't', 'o'] ++ ' ' :: (seqOf [] [',', ' '] [] id vs ++ ([';'] ++ t)) := by
      simp [printStmt]
    unfold parseStmt
    rw [e', not_comment (by exact head_ne (by decide))]
    obtain ⟨h1, h2⟩ := kw_take (w := ['g', 'o', 't', 'o']) (by decide) (c := ' ') (by decide) (seqOf [] [',', ' '] [] id vs ++ ([';'] ++ t))
    dsimp only
    rw [h1, h2, if_neg (by decide), if_neg (by decide), if_neg (by decide), if_pos rfl]
    have h3 : expect [' '] (' ' :: (seqOf [] [',', ' '] [] id vs ++ ([';'] ++ t))) = some (seqOf [] [',', ' '] [] id vs ++ ([';'] ++ t)) := expect_append [' '] _
    have h4 : parseWords (seqOf [] [',', ' '] [] id vs ++ ([';'] ++ t)) = some (vs, [';'] ++ t) :=
      words_parse h.1 h.2 (stop_char (by decide)) (expect_head (by decide))
    simp only [h3, bind, Option.bind, h4, expect_append]
    rfl
  | return_ e =>
    unfold parseStmt
    cases e with
    | none =>
      have e' : printStmt (.return_ none) ++ t = ['r', 'e', 't', 'u', 'r', 'n'] ++ ';' :: t := by simp [printStmt]
      rw [e', not_comment (by exact head_ne (by decide))]
      obtain ⟨h1, h2⟩ := kw_take (w := ['r', 'e', 't', 'u', 'r', 'n']) (by decide) (c := ';') (by decide) t
      dsimp only
      rw [h1, h2, if_neg (by decide), if_neg (by decide), if_neg (by decide), if_neg (by decide), if_pos rfl]
      have : expect [';'] (';' :: t) = some t := expect_append [';'] _
      simp only [this]
    | some e =>
      have e' : printStmt (.return_ (some e)) ++ t = ['r', 'e', 't', 'u', 'r', 'n'] ++ ' ' :: (print e ++ ([';'] ++ t)) := by simp [printStmt]
      rw [e', not_comment (by exact head_ne (by decide))]
      obtain ⟨h1, h2⟩ := kw_take (w := ['r', 'e', 't', 'u', 'r', 'n']) (by decide) (c := ' ') (by decide) (print e ++ ([';'] ++ t))
      dsimp only
      rw [h1, h2, if_neg (by decide), if_neg (by decide), if_neg (by decide), if_neg (by decide), if_pos rfl]
      have h3 : expect [';'] (' ' :: (print e ++ ([';'] ++ t))) = none := expect_head (by decide)
      have h4 : expect [' '] (' ' :: (print e ++ ([';'] ++ t))) = some (print e ++ ([';'] ++ t)) := expect_append [' '] _
      simp only [h3, h4, bind, Option.bind, exprSemi_parse (h e rfl) t]
      rfl
  | call as rs p es =>
    obtain ⟨ha, hr, hp, he⟩ := h
    unfold parseStmt
    cases rs with
    | nil =>
      have e' : printStmt (.call as [] p es) ++ t = ['c', 'a', 'l', 'l'] ++ ' ' :: (printAttrs as ++ (p ++ (['('] ++ (printSeq es ++ ([')'] ++ ([';'] ++ t)))))) := by
        rw [← params_text]
        simp [printStmt]
      rw [e', not_comment (by exact head_ne (by decide))]
      obtain ⟨h1, h2⟩ := kw_take (w := ['c', 'a', 'l', 'l']) (by decide) (c := ' ') (by decide) (printAttrs as ++ (p ++ (['('] ++ (printSeq es ++ ([')'] ++ ([';'] ++ t))))))
      dsimp only
      rw [h1, h2, if_neg (by decide), if_neg (by decide), if_neg (by decide), if_neg (by decide), if_neg (by decide), if_pos rfl]
      have h3 : ∀ x, expect [' '] (' ' :: x) = some x := fun x => expect_append [' '] x
      have h4 : parseWords (p ++ (['('] ++ (printSeq es ++ ([')'] ++ ([';'] ++ t))))) = some ([p], ['('] ++ (printSeq es ++ ([')'] ++ ([';'] ++ t)))) := by
        have := words_parse (vs := [p]) (by simp) (by simpa using hp) (t := ['('] ++ (printSeq es ++ ([')'] ++ ([';'] ++ t)))) (stop_char (by decide)) (expect_head (by decide))
        simpa [seqOf, seqRest] using this
      have h5 : expect [' ', ':', '=', ' '] (['('] ++ (printSeq es ++ ([')'] ++ ([';'] ++ t)))) = none := expect_head (by decide)
      simp only [h3, bind, Option.bind, attrs_parse ha (name_ne hp _ '{' (by decide)), h4, h5, expect_append, call_tail he t]
      rfl
    | cons r rs =>
      have e' : printStmt (.call as (r :: rs) p es) ++ t = ['c', 'a', 'l', 'l'] ++ ' ' :: (printAttrs as ++ (seqOf [] [',', ' '] [] id (r :: rs) ++ ([' ', ':', '=', ' '] ++ (p ++ (['('] ++ (printSeq es ++ ([')'] ++ ([';'] ++ t)))))))) := by
        rw [← params_text]
        simp [printStmt, seqOf]
      rw [e', not_comment (by exact head_ne (by decide))]
      obtain ⟨h1, h2⟩ := kw_take (w := ['c', 'a', 'l', 'l']) (by decide) (c := ' ') (by decide) (printAttrs as ++ (seqOf [] [',', ' '] [] id (r :: rs) ++ ([' ', ':', '=', ' '] ++ (p ++ (['('] ++ (printSeq es ++ ([')'] ++ ([';'] ++ t))))))))
      dsimp only
      rw [h1, h2, if_neg (by decide), if_neg (by decide), if_neg (by decide), if_neg (by decide), if_neg (by decide), if_pos rfl]
      have h3 : ∀ x, expect [' '] (' ' :: x) = some x := fun x => expect_append [' '] x
      have h4 : parseWords (seqOf [] [',', ' '] [] id (r :: rs) ++ ([' ', ':', '=', ' '] ++ (p ++ (['('] ++ (printSeq es ++ ([')'] ++ ([';'] ++ t))))))) =
          some (r :: rs, [' ', ':', '=', ' '] ++ (p ++ (['('] ++ (printSeq es ++ ([')'] ++ ([';'] ++ t)))))) :=
        words_parse (by simp) hr (stop_char (by decide)) (expect_head (by decide))
      have h6 : ∀ c ∈ (seqOf [] [',', ' '] [] id (r :: rs) ++ ([' ', ':', '=', ' '] ++ (p ++ (['('] ++ (printSeq es ++ ([')'] ++ ([';'] ++ t))))))).head?, c ≠ '{' := by
        rw [seqOf_cons, List.nil_append, List.append_assoc]
        exact name_ne (hr r (List.mem_cons_self ..)) _ '{' (by decide)
      have h5 : parseWord (p ++ (['('] ++ (printSeq es ++ ([')'] ++ ([';'] ++ t))))) = some (p, ['('] ++ (printSeq es ++ ([')'] ++ ([';'] ++ t)))) :=
        word_parse hp (stop_char (by decide))
      simp only [h3, bind, Option.bind, attrs_parse ha h6, h4, h5, expect_append, call_tail he t]
      rfl
  | assign l r =>
    obtain ⟨hl, hr, wl, wr, hroot⟩ := h
    have e' : printStmt (.assign l r) ++ t = printSeq l ++ ([' ', ':', '=', ' '] ++ (printSeq r ++ ([';'] ++ t))) := by
      simp only [printStmt, seq_exprs, List.append_assoc]
    cases l with
    | nil => exact absurd rfl hl
    | cons a l =>
      obtain ⟨v, hv, hw⟩ := hroot a rfl
      rw [WFs] at wl
      obtain ⟨hn, x, hx, hs⟩ := root_print a v wl.1 hv
      have hsplit : ∃ y, printSeq (a :: l) ++ ([' ', ':', '=', ' '] ++ (printSeq r ++ ([';'] ++ t))) = v ++ y ∧ Stop y := by
        refine ⟨x ++ (printRest l ++ ([' ', ':', '=', ' '] ++ (printSeq r ++ ([';'] ++ t)))), by rw [printSeq, hx]; simp only [List.append_assoc], ?_⟩
        cases x with
        | cons c x => exact hs
        | nil =>
          cases l with
          | nil => rw [printRest]; exact stop_char (by decide)
          | cons b l => rw [printRest]; exact stop_char (by decide)
      obtain ⟨y, hy, hsy⟩ := hsplit
      have htk : (printSeq (a :: l) ++ ([' ', ':', '=', ' '] ++ (printSeq r ++ ([';'] ++ t)))).takeWhile atomChar = v := by rw [hy]; exact (word_take hn hsy).1
      have hw' : ∀ w ∈ stmtWords, v ≠ w := fun w hm e => hw (e ▸ hm)
      unfold parseStmt
      rw [e', not_comment (by rw [hy]; exact name_ne hn _ '/' (by decide))]
      dsimp only
      rw [htk, if_neg (hw' _ (List.mem_of_getElem? (i := 0) rfl)), if_neg (hw' _ (List.mem_of_getElem? (i := 1) rfl)), if_neg (hw' _ (List.mem_of_getElem? (i := 2) rfl)),
        if_neg (hw' _ (List.mem_of_getElem? (i := 3) rfl)), if_neg (hw' _ (List.mem_of_getElem? (i := 4) rfl)), if_neg (hw' _ (List.mem_of_getElem? (i := 5) rfl))]
      have h1 : parseSeq (printSeq (a :: l) ++ ([' ', ':', '=', ' '] ++ (printSeq r ++ ([';'] ++ t)))) = some (a :: l, [' ', ':', '=', ' '] ++ (printSeq r ++ ([';'] ++ t))) :=
        seq_parse (by rw [WFs]; exact wl) (by decide) (by decide) (Or.inl hl)
      have h2 : parseSeq (printSeq r ++ ([';'] ++ t)) = some (r, [';'] ++ t) := seq_parse wr (by decide) (by decide) (Or.inl hr)
      simp only [h1, h2, bind, Option.bind, expect_append]
      rfl

end Smack.Printer
