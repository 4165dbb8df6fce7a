import Verif.Printer.DeclLemmas
/-!
# C97: printed statements and declarations can be read back
-/
namespace Smack.Printer

open Spec

/-- A statement followed by any text is read back, and the text is left. -/
theorem c97_statement (s : Stmt) (h : StmtOk s) (t : Str) : parseStmt (printStmt s ++ t) = some (s, t) := stmt_parse s h t

/-- Different statements have different texts. -/
theorem c97_injective (s s' : Stmt) (h : StmtOk s) (h' : StmtOk s') (hp : printStmt s = printStmt s') : s = s' := by
  have h1 := stmt_parse s h []
  have h2 := stmt_parse s' h' []
  rw [hp, h2] at h1
  exact (Prod.mk.inj (Option.some.inj h1)).1.symm

theorem const_not_unique {n t : Str} (h : NameOk n) (hu : n ≠ ['u', 'n', 'i', 'q', 'u', 'e']) (ht : Stop t) :
    expect ['u', 'n', 'i', 'q', 'u', 'e', ' '] (n ++ t) = none := by
  unfold expect
  rw [if_neg]
  intro hp
  rw [List.isPrefixOf_iff_prefix] at hp
  obtain ⟨y, hy⟩ := hp
  have h1 := (word_take h ht).1
  rw [← hy, show ['u', 'n', 'i', 'q', 'u', 'e', ' '] ++ y = ['u', 'n', 'i', 'q', 'u', 'e'] ++ ' ' :: y from rfl,
    (kw_take (w := ['u', 'n', 'i', 'q', 'u', 'e']) (by decide) (c := ' ') (by decide) y).1] at h1
  exact hu h1.symm

theorem space (x : Str) : expect [' '] (' ' :: x) = some x := expect_append [' '] x

/-- A declaration followed by the next line is read back. -/
theorem c97_declaration (d : Decl) (h : DeclOk d) (t : Str) (ht : Follow t) : parseDecl (printDecl d ++ t) = some (d, t) := by
  unfold parseDecl
  cases d with
  | type_ as n a =>
    obtain ⟨ha, hn, hs⟩ := h
    by_cases he : a = []
    · subst he
      have e : printDecl (.type_ as n []) ++ t = ['t', 'y', 'p', 'e'] ++ ' ' :: (printAttrs as ++ (n ++ ([';'] ++ t))) := by simp [printDecl]
      obtain ⟨h1, h2⟩ := kw_take (w := ['t', 'y', 'p', 'e']) (by decide) (c := ' ') (by decide) (printAttrs as ++ (n ++ ([';'] ++ t)))
      rw [e]
      dsimp only
      rw [h1, h2, space]
      dsimp only
      rw [if_pos rfl, attrs_parse ha (name_ne hn _ '{' (by decide))]
      have hw : parseWord (n ++ ([';'] ++ t)) = some (n, [';'] ++ t) := word_parse hn (stop_char (by decide))
      have hx : expect [' ', '=', ' '] ([';'] ++ t) = none := expect_head (by decide)
      simp only [bind, Option.bind, hw, hx, expect_append]
      rfl
    · have e : printDecl (.type_ as n a) ++ t = ['t', 'y', 'p', 'e'] ++ ' ' :: (printAttrs as ++ (n ++ ([' ', '=', ' '] ++ (a ++ ([';'] ++ t))))) := by simp [printDecl, he]
      obtain ⟨h1, h2⟩ := kw_take (w := ['t', 'y', 'p', 'e']) (by decide) (c := ' ') (by decide) (printAttrs as ++ (n ++ ([' ', '=', ' '] ++ (a ++ ([';'] ++ t)))))
      rw [e]
      dsimp only
      rw [h1, h2, space]
      dsimp only
      rw [if_pos rfl, attrs_parse ha (name_ne hn _ '{' (by decide))]
      have hw : parseWord (n ++ ([' ', '=', ' '] ++ (a ++ ([';'] ++ t)))) = some (n, [' ', '=', ' '] ++ (a ++ ([';'] ++ t))) := word_parse hn (stop_char (by decide))
      have hm : ∀ c ∈ a, decide (c ≠ ';') = true := fun c hc => by
        rw [decide_eq_true_iff]; intro e; subst e; exact hs hc
      have ht1 : (a ++ ([';'] ++ t)).takeWhile (· ≠ ';') = a := takeWhile_append_stop hm (by simp)
      have ht2 : (a ++ ([';'] ++ t)).dropWhile (· ≠ ';') = [';'] ++ t := dropWhile_append_stop hm (by simp)
      simp only [bind, Option.bind, hw, expect_append, ht1, ht2]
      rfl
  | axiom_ x =>
    have e : printDecl (.axiom_ x) ++ t = ['a', 'x', 'i', 'o', 'm'] ++ ' ' :: (print x ++ ([';'] ++ t)) := by simp [printDecl]
    obtain ⟨h1, h2⟩ := kw_take (w := ['a', 'x', 'i', 'o', 'm']) (by decide) (c := ' ') (by decide) (print x ++ ([';'] ++ t))
    rw [e]
    dsimp only
    rw [h1, h2, space]
    dsimp only
    rw [if_neg (by decide), if_pos rfl, exprSemi_parse h t]
    rfl
  | const_ as u n ty =>
    obtain ⟨ha, hn, hu, hty⟩ := h
    have hp : parseTyped ((n ++ [':', ' '] ++ ty) ++ ([';'] ++ t)) = some ((n, ty), [';'] ++ t) := typed_parse (p := (n, ty)) ⟨hn, hty⟩ (closed_char (by decide))
    simp only [List.append_assoc] at hp
    cases u with
    | true =>
      have e : printDecl (.const_ as true n ty) ++ t = ['c', 'o', 'n', 's', 't'] ++ ' ' :: (printAttrs as ++ (['u', 'n', 'i', 'q', 'u', 'e', ' '] ++ (n ++ ([':', ' '] ++ (ty ++ ([';'] ++ t)))))) := by
        simp [printDecl]
      obtain ⟨h1, h2⟩ := kw_take (w := ['c', 'o', 'n', 's', 't']) (by decide) (c := ' ') (by decide) (printAttrs as ++ (['u', 'n', 'i', 'q', 'u', 'e', ' '] ++ (n ++ ([':', ' '] ++ (ty ++ ([';'] ++ t))))))
      rw [e]
      dsimp only
      rw [h1, h2, space]
      dsimp only
      rw [if_neg (by decide), if_neg (by decide), if_pos rfl, attrs_parse ha (by exact head_ne (by decide))]
      simp only [bind, Option.bind, expect_append, hp]
      rfl
    | false =>
      have e : printDecl (.const_ as false n ty) ++ t = ['c', 'o', 'n', 's', 't'] ++ ' ' :: (printAttrs as ++ (n ++ ([':', ' '] ++ (ty ++ ([';'] ++ t))))) := by
        simp [printDecl]
      obtain ⟨h1, h2⟩ := kw_take (w := ['c', 'o', 'n', 's', 't']) (by decide) (c := ' ') (by decide) (printAttrs as ++ (n ++ ([':', ' '] ++ (ty ++ ([';'] ++ t)))))
      have hx : expect ['u', 'n', 'i', 'q', 'u', 'e', ' '] (n ++ ([':', ' '] ++ (ty ++ ([';'] ++ t)))) = none := const_not_unique hn hu (stop_char (by decide))
      rw [e]
      dsimp only
      rw [h1, h2, space]
      dsimp only
      rw [if_neg (by decide), if_neg (by decide), if_pos rfl, attrs_parse ha (name_ne hn _ '{' (by decide))]
      simp only [bind, Option.bind, hx, hp, expect_append]
      rfl
  | func as n ps ty b =>
    obtain ⟨ha, hn, hps, hty, hb⟩ := h
    have hprm : ∀ x, parseParams (printParams ps ++ ([')', ' ', 'r', 'e', 't', 'u', 'r', 'n', 's', ' ', '('] ++ x)) = some (ps, [' ', 'r', 'e', 't', 'u', 'r', 'n', 's', ' ', '('] ++ x) :=
      fun x => params_parse ps hps _
    have hw : ∀ x, parseWord (n ++ (['('] ++ x)) = some (n, ['('] ++ x) := fun x => word_parse hn (stop_char (by decide))
    have ht1 : ∀ x, (ty ++ ([')'] ++ x)).takeWhile typeChar = ty := fun x => takeWhile_append_stop hty (closed_char (by decide))
    have ht2 : ∀ x, (ty ++ ([')'] ++ x)).dropWhile typeChar = [')'] ++ x := fun x => dropWhile_append_stop hty (closed_char (by decide))
    cases b with
    | none =>
      have e : printDecl (.func as n ps ty none) ++ t = ['f', 'u', 'n', 'c', 't', 'i', 'o', 'n'] ++ ' ' :: (printAttrs as ++ (n ++ (['('] ++ (printParams ps ++ ([')', ' ', 'r', 'e', 't', 'u', 'r', 'n', 's', ' ', '('] ++
          (ty ++ ([')'] ++ ([';'] ++ t)))))))) := by simp [printDecl]
      obtain ⟨h1, h2⟩ := kw_take (w := ['f', 'u', 'n', 'c', 't', 'i', 'o', 'n']) (by decide) (c := ' ') (by decide) (printAttrs as ++ (n ++ (['('] ++ (printParams ps ++ ([')', ' ', 'r', 'e', 't', 'u', 'r', 'n', 's', ' ', '('] ++
          (ty ++ ([')'] ++ ([';'] ++ t))))))))
      rw [e]
      dsimp only
      rw [h1, h2, space]
      dsimp only
      rw [if_neg (by decide), if_neg (by decide), if_neg (by decide), if_pos rfl, attrs_parse ha (name_ne hn _ '{' (by decide))]
      simp only [bind, Option.bind, hw, hprm, expect_append, ht1, ht2]
      rfl
    | some x =>
      have e : printDecl (.func as n ps ty (some x)) ++ t = ['f', 'u', 'n', 'c', 't', 'i', 'o', 'n'] ++ ' ' :: (printAttrs as ++ (n ++ (['('] ++ (printParams ps ++ ([')', ' ', 'r', 'e', 't', 'u', 'r', 'n', 's', ' ', '('] ++
          (ty ++ ([')'] ++ ([' ', '{', ' '] ++ (print x ++ ([' ', '}'] ++ t)))))))))) := by simp [printDecl]
      obtain ⟨h1, h2⟩ := kw_take (w := ['f', 'u', 'n', 'c', 't', 'i', 'o', 'n']) (by decide) (c := ' ') (by decide) (printAttrs as ++ (n ++ (['('] ++ (printParams ps ++ ([')', ' ', 'r', 'e', 't', 'u', 'r', 'n', 's', ' ', '('] ++
          (ty ++ ([')'] ++ ([' ', '{', ' '] ++ (print x ++ ([' ', '}'] ++ t))))))))))
      have hx : expect [';'] ([' ', '{', ' '] ++ (print x ++ ([' ', '}'] ++ t))) = none := expect_head (by decide)
      have hbody : parseE (print x ++ ([' ', '}'] ++ t)) = some (x, [' ', '}'] ++ t) := expr_parse (hb x rfl) (end_space _)
      rw [e]
      dsimp only
      rw [h1, h2, space]
      dsimp only
      rw [if_neg (by decide), if_neg (by decide), if_neg (by decide), if_pos rfl, attrs_parse ha (name_ne hn _ '{' (by decide))]
      simp only [bind, Option.bind, hw, hprm, expect_append, ht1, ht2, hx, hbody]
      rfl
  | var n ty =>
    have hp : parseTyped ((n ++ [':', ' '] ++ ty) ++ ([';'] ++ t)) = some ((n, ty), [';'] ++ t) := typed_parse (p := (n, ty)) h (closed_char (by decide))
    have e : printDecl (.var n ty) ++ t = ['v', 'a', 'r'] ++ ' ' :: ((n ++ [':', ' '] ++ ty) ++ ([';'] ++ t)) := by simp [printDecl, printVar]
    obtain ⟨h1, h2⟩ := kw_take (w := ['v', 'a', 'r']) (by decide) (c := ' ') (by decide) ((n ++ [':', ' '] ++ ty) ++ ([';'] ++ t))
    rw [e]
    dsimp only
    rw [h1, h2, space]
    dsimp only
    rw [if_neg (by decide), if_neg (by decide), if_neg (by decide), if_neg (by decide), if_pos rfl, hp]
    simp only [bind, Option.bind, expect_append]
    rfl
  | proc p =>
    rw [show printDecl (.proc p) = printProc p from rfl, proc_text]
    dsimp only
    rw [(kw_take (w := ['p', 'r', 'o', 'c', 'e', 'd', 'u', 'r', 'e']) (by decide) (c := ' ') (by decide) _).1, (kw_take (w := ['p', 'r', 'o', 'c', 'e', 'd', 'u', 'r', 'e']) (by decide) (c := ' ') (by decide) _).2, space]
    dsimp only
    rw [if_neg (by decide), if_neg (by decide), if_neg (by decide), if_neg (by decide), if_neg (by decide), if_pos rfl, proc_parse p h ht]
    rfl

theorem decl_head (d : Decl) : ∃ c r, printDecl d = c :: r ∧ c ≠ ' ' ∧ c ≠ '{' ∧ c ≠ '\n' := by
  cases d with
  | type_ as n a => exact ⟨'t', _, rfl, by decide, by decide, by decide⟩
  | axiom_ x => exact ⟨'a', _, rfl, by decide, by decide, by decide⟩
  | const_ as u n ty => exact ⟨'c', _, rfl, by decide, by decide, by decide⟩
  | func as n ps ty b => exact ⟨'f', _, rfl, by decide, by decide, by decide⟩
  | var n ty => exact ⟨'v', _, rfl, by decide, by decide, by decide⟩
  | proc p => exact ⟨'p', _, rfl, by decide, by decide, by decide⟩

/-- The declarations of a whole program are read back: as many as were printed, in their order, with all their parts. -/
theorem c97_program (ds : List Decl) (h : ∀ d ∈ ds, DeclOk d) : parseDecls (printDecls ds) = some (ds, []) := by
  unfold parseDecls printDecls
  cases ds with
  | nil => rfl
  | cons d ds =>
    have key : ∀ (x : Decl) (u : Str), nextDecl ((['\n'] ++ printDecl x) ++ u) = some (printDecl x ++ u) ∧ Follow ((['\n'] ++ printDecl x) ++ u) := by
      intro x u
      obtain ⟨c, r, e, h1, h2, -⟩ := decl_head x
      rw [e]
      refine ⟨rfl, c :: (r ++ u), rfl, fun y hy => ?_⟩
      simp at hy
      subst hy
      exact ⟨h1, h2⟩
    have hend : Follow ['\n'] := ⟨[], rfl, fun c hc => by cases hc⟩
    have hm : many nextDecl parseDecl ((ds.flatMap fun x => ['\n'] ++ printDecl x) ++ ['\n']) = some (ds, ['\n']) :=
      many_flat (f := printDecl) (T := Follow) rfl hend ds fun x hx u => ⟨(key x u).1, (key x u).2, fun hu => c97_declaration x (h x (List.mem_cons_of_mem _ hx)) u hu⟩
    have hf : Follow ((ds.flatMap fun x => ['\n'] ++ printDecl x) ++ ['\n']) := by
      cases ds with
      | nil => exact hend
      | cons x xs =>
        rw [List.flatMap_cons, List.append_assoc]
        exact (key x _).2
    have e : seqOf [] ['\n'] [] printDecl (d :: ds) ++ ['\n'] = printDecl d ++ ((ds.flatMap fun x => ['\n'] ++ printDecl x) ++ ['\n']) := by
      rw [seqOf_cons, List.nil_append, List.append_nil, List.append_assoc]
    have hx : expect ['\n'] (printDecl d ++ ((ds.flatMap fun x => ['\n'] ++ printDecl x) ++ ['\n'])) = none := by
      obtain ⟨c, r, e, -, -, h3⟩ := decl_head d
      rw [e]
      exact expect_head (Ne.symm h3)
    rw [e, hx]
    simp only [bind, Option.bind]
    rw [c97_declaration d (h d (List.mem_cons_self ..)) _ hf]
    simp only
    rw [hm]
    rfl

/-- Different programs have different texts. -/
theorem c97_program_injective (ds ds' : List Decl) (h : ∀ d ∈ ds, DeclOk d) (h' : ∀ d ∈ ds', DeclOk d) (hp : printDecls ds = printDecls ds') : ds = ds' := by
  have h1 := c97_program ds h
  have h2 := c97_program ds' h'
  rw [hp, h2] at h1
  exact (Prod.mk.inj (Option.some.inj h1)).1.symm

/-- A procedure with a specification, a local variable, and two blocks with a loop. -/
def demo : Proc where
  attrs := [⟨"entrypoint".toList, []⟩]
  name := "main".toList
  params := [("p".toList, "ref".toList)]
  rets := [("$r".toList, "i32".toList)]
  mods := ["$M.0".toList]
  requires_ := [.bool true]
  ensures_ := []
  locals := [("$i0".toList, "i32".toList)]
  blocks := [⟨"$bb0".toList, [.assume_ [⟨"sourceloc".toList, [.str "a.c".toList, .int "3".toList]⟩] (.bool true),
      .call [] ["$i0".toList] "f".toList [.var "p".toList], .goto_ ["$bb0".toList, "$bb1".toList]]⟩,
    ⟨"$bb1".toList, [.assign [.var "$r".toList] [.var "$i0".toList], .return_ none]⟩]

theorem ident_ok (v : Str) (h : v ≠ [] ∧ (v.all fun c => atomChar c && c != '-') = true ∧ (∀ c ∈ v.head?, c.isDigit = false) ∧ v ∉ reserved) : IdentOk v :=
  ⟨h.1, fun c hc => by simpa using List.all_eq_true.1 h.2.1 c hc, h.2.2⟩

theorem name_ok (v : Str) (h : v ≠ [] ∧ (v.all atomChar) = true) : NameOk v := ⟨h.1, List.all_eq_true.1 h.2⟩

theorem type_ok (v : Str) (h : v.all typeChar = true) : TypeOk v := List.all_eq_true.1 h

theorem demo_ok : ProcOk demo where
  attrs := by
    intro a ha
    obtain rfl := List.mem_singleton.1 ha
    exact ⟨name_ok _ (by decide), trivial⟩
  name := name_ok _ (by decide)
  params := by
    intro a ha
    obtain rfl := List.mem_singleton.1 ha
    exact ⟨name_ok _ (by decide), type_ok _ (by decide)⟩
  rets := by
    intro a ha
    obtain rfl := List.mem_singleton.1 ha
    exact ⟨name_ok _ (by decide), type_ok _ (by decide)⟩
  mods := by
    intro a ha
    obtain rfl := List.mem_singleton.1 ha
    exact name_ok _ (by decide)
  requires_ := by
    intro a ha
    obtain rfl := List.mem_singleton.1 ha
    rw [WF]
    trivial
  ensures_ := fun _ h => by cases h
  locals := by
    intro a ha
    obtain rfl := List.mem_singleton.1 ha
    exact ⟨name_ok _ (by decide), type_ok _ (by decide)⟩
  blocks := by
    have hv : ∀ v : Str, IdentOk v → WF (.var v) := fun v h => by rw [WF]; exact h
    refine ⟨Or.inr (name_ok _ (by decide)), ?_, ?_⟩
    · intro s hs
      simp only [List.mem_cons, List.not_mem_nil, or_false] at hs
      rcases hs with rfl | rfl | rfl
      · refine ⟨?_, by rw [WF]; trivial⟩
        intro a ha
        obtain rfl := List.mem_singleton.1 ha
        refine ⟨name_ok _ (by decide), ?_⟩
        simp only [WFs, WF]
        exact ⟨by decide, Or.inl ⟨by decide, by decide⟩, trivial⟩
      · refine ⟨fun _ h => (by cases h), ?_, name_ok _ (by decide), ?_⟩
        · intro a ha
          obtain rfl := List.mem_singleton.1 ha
          exact name_ok _ (by decide)
        · rw [WFs, WFs]
          exact ⟨hv _ (ident_ok _ (by decide)), trivial⟩
      · refine ⟨by simp, ?_⟩
        intro a ha
        simp only [List.mem_cons, List.not_mem_nil, or_false] at ha
        rcases ha with rfl | rfl
        · exact name_ok _ (by decide)
        · exact name_ok _ (by decide)
    · intro b hb
      obtain rfl := List.mem_singleton.1 hb
      refine ⟨name_ok _ (by decide), ?_⟩
      intro s hs
      simp only [List.mem_cons, List.not_mem_nil, or_false] at hs
      rcases hs with rfl | rfl
      · refine ⟨by simp, by simp, ?_, ?_, ?_⟩
        · rw [WFs, WFs]
          exact ⟨hv _ (ident_ok _ (by decide)), trivial⟩
        · rw [WFs, WFs]
          exact ⟨hv _ (ident_ok _ (by decide)), trivial⟩
        · intro e he
          obtain rfl : _ = e := Option.some.inj he
          exact ⟨_, rfl, by decide⟩
      · intro x hx
        cases hx
  body := fun h => by cases h

example : parseDecls (printDecls [.var "$M.0".toList "[ref] i8".toList, .proc demo]) = some ([.var "$M.0".toList "[ref] i8".toList, .proc demo], []) :=
  c97_program _ (by
    intro d hd
    simp only [List.mem_cons, List.not_mem_nil, or_false] at hd
    rcases hd with rfl | rfl
    · exact ⟨name_ok _ (by decide), type_ok _ (by decide)⟩
    · exact demo_ok)

/-- Comments are printed as they are: one that contains the end of a comment prints like several statements. -/
theorem c97_comment_fails (n x y : Str) (s : Stmt) :
    printBlock ⟨n, [.comment (x ++ " */\n  ".toList ++ printStmt s ++ "\n  /* ".toList ++ y)]⟩ = printBlock ⟨n, [.comment x, s, .comment y]⟩ := by
  simp [printBlock, seqOf, seqRest, printStmt]

theorem comment_rest {s : Str} (h : CommentOk (c :: s)) : CommentOk s :=
  ⟨fun hi => h.1 (hi.trans (List.suffix_cons ..).isInfix), fun hi => h.2 (hi.trans (List.suffix_cons ..).isInfix)⟩

theorem comment_step (d : Nat) (c : Char) (s r : Str) (h : CommentOk (c :: s)) (hr : ∀ x ∈ r.head?, x = ' ') :
    parseComment d (c :: (s ++ r)) = (parseComment d (s ++ r)).map fun p => (c :: p.1, p.2) := by
  rw [parseComment.eq_def]
  split
  · rename_i h'; cases h'
  · rename_i r' h'
    injection h' with h1 h2
    subst h1
    cases s with
    | nil =>
      rw [List.nil_append] at h2
      subst h2
      exact absurd (hr '/' rfl) (by decide)
    | cons e s =>
      injection h2 with h2 h3
      subst h2
      exact absurd ⟨[], s, rfl⟩ h.1
  · rename_i r' h'
    injection h' with h1 h2
    subst h1
    cases s with
    | nil =>
      rw [List.nil_append] at h2
      subst h2
      exact absurd (hr '*' rfl) (by decide)
    | cons e s =>
      injection h2 with h2 h3
      subst h2
      exact absurd ⟨[], s, rfl⟩ h.2
  · rename_i h1 h2 h3; cases h3; rfl

theorem comment_open (d : Nat) : ∀ s : Str, CommentOk s → parseComment d s = none
  | [], _ => rfl
  | c :: s, h => by
    have := comment_step d c s [] h (by simp)
    rw [List.append_nil] at this
    rw [this, comment_open d s (comment_rest h)]
    rfl

theorem comment_inner (d : Nat) (t : Str) (ht : parseComment d t = none) : ∀ s : Str, CommentOk s → parseComment (d + 1) (s ++ (' ' :: '*' :: '/' :: t)) = none
  | [], _ => by
    show Option.map _ (Option.map _ (parseComment d t)) = none
    rw [ht]
    rfl
  | c :: s, h => by
    have := comment_step (d + 1) c s (' ' :: '*' :: '/' :: t) h (by simp)
    rw [List.cons_append, this, comment_inner d t ht s (comment_rest h)]
    rfl

/-- One that contains the beginning of a comment swallows the text after it, since Boogie's comments are nested. -/
theorem c97_nested_comment_fails (x t : Str) (hx : CommentOk x) (ht : CommentOk t) : parseStmt (printStmt (.comment ('/' :: '*' :: x)) ++ t) = none := by
  have e : printStmt (.comment ('/' :: '*' :: x)) ++ t = ['/', '*', ' '] ++ ('/' :: '*' :: (x ++ (' ' :: '*' :: '/' :: t))) := by simp [printStmt]
  unfold parseStmt
  rw [e, expect_append]
  have h : parseComment 0 ('/' :: '*' :: (x ++ (' ' :: '*' :: '/' :: t))) = none := by
    show Option.map _ (parseComment 1 (x ++ (' ' :: '*' :: '/' :: t))) = none
    rw [comment_inner 0 t (comment_open 0 t ht) x hx]
    rfl
  simp only [h, bind, Option.bind]

/-- Texts without stars are well-formed comments. -/
theorem comment_ok {s : Str} (h : '*' ∉ s) : CommentOk s :=
  ⟨fun ⟨a, b, e⟩ => h (by rw [← e]; simp), fun ⟨a, b, e⟩ => h (by rw [← e]; simp)⟩

example : parseStmt (printStmt (.comment ['/', '*', 'x']) ++ ['\n', ' ', ' ', 'a', 's', 's', 'e', 'r', 't', ' ', 'e', ';']) = none :=
  c97_nested_comment_fails ['x'] _ (comment_ok (by decide)) (comment_ok (by decide))

end Smack.Printer
