import Verif.Printer.StmtLemmas
/-!
# Lemmas: reading blocks and declarations
-/
namespace Smack.Printer

open Spec

theorem stmt_head (s : Stmt) (h : StmtOk s) (t : Str) : ∀ c ∈ (printStmt s ++ t).head?, c ≠ '\n' := by
  cases s with
  | comment s => exact head_ne (by decide)
  | assert_ as e => exact head_ne (by decide)
  | assume_ as e => exact head_ne (by decide)
  | havoc vs => exact head_ne (by decide)
  | goto_ vs => exact head_ne (by decide)
  | return_ e => exact head_ne (by decide)
  | call as rs p es => exact head_ne (by decide)
  | assign l r =>
    obtain ⟨hl, hr, wl, wr, hroot⟩ := h
    cases l with
    | nil => exact absurd rfl hl
    | cons a l =>
      obtain ⟨v, hv, hw⟩ := hroot a rfl
      rw [WFs] at wl
      obtain ⟨hn, x, hx, hs⟩ := root_print a v wl.1 hv
      rw [printStmt, seq_exprs, printSeq, hx]
      simp only [List.append_assoc]
      exact name_ne hn _ '\n' (by decide)

/-- What may follow a block: no further indented line. -/
def Dedent (t : Str) : Prop := t.head? = some '\n' ∧ expect ['\n', ' ', ' '] t = none

theorem stmts_parse (ss : List Stmt) (h : ∀ s ∈ ss, StmtOk s) {t : Str} (ht : Dedent t) :
    parseStmts (seqOf [' ', ' '] ['\n', ' ', ' '] [] printStmt ss ++ t) = some (ss, t) := by
  unfold parseStmts
  cases ss with
  | nil =>
    have e : seqOf [' ', ' '] ['\n', ' ', ' '] [] printStmt [] ++ t = [' ', ' '] ++ t := rfl
    rw [e, expect_append]
    simp only [bind, Option.bind]
    rw [if_pos ht.1]
    rfl
  | cons s ss =>
    rw [seqOf_cons]
    simp only [List.append_assoc, List.nil_append]
    rw [expect_append]
    simp only [bind, Option.bind]
    have hh := stmt_head s (h s (List.mem_cons_self ..)) ((ss.flatMap fun x => ['\n', ' ', ' '] ++ printStmt x) ++ t)
    have hne : (printStmt s ++ ((ss.flatMap fun x => ['\n', ' ', ' '] ++ printStmt x) ++ t)).head? ≠ some '\n' := fun e => hh '\n' e rfl
    rw [if_neg hne, stmt_parse s (h s (List.mem_cons_self ..))]
    simp only
    have hm : many (expect ['\n', ' ', ' ']) parseStmt ((ss.flatMap fun x => ['\n', ' ', ' '] ++ printStmt x) ++ t) = some (ss, t) :=
      many_flat (f := printStmt) (T := fun _ => True) ht.2 trivial ss fun x hx u => ⟨by rw [List.append_assoc, expect_append], trivial,
        fun _ => stmt_parse x (h x (List.mem_cons_of_mem _ hx)) u⟩
    rw [hm]
    rfl

theorem block_text (b : Block) (h : b.name ≠ []) (t : Str) :
    printBlock b ++ t = b.name ++ ([':', '\n'] ++ (seqOf [' ', ' '] ['\n', ' ', ' '] [] printStmt b.stmts ++ t)) := by
  unfold printBlock
  rw [if_pos h]
  simp

theorem block_parse (b : Block) (hn : b.name = [] ∨ NameOk b.name) (h : ∀ s ∈ b.stmts, StmtOk s) {t : Str} (ht : Dedent t) :
    parseBlock (printBlock b ++ t) = some (b, t) := by
  obtain ⟨n, ss⟩ := b
  unfold parseBlock
  rcases hn with hn | hn
  · have hn : n = [] := hn
    subst hn
    have e : printBlock ⟨[], ss⟩ ++ t = seqOf [' ', ' '] ['\n', ' ', ' '] [] printStmt ss ++ t := rfl
    have e2 : (seqOf [' ', ' '] ['\n', ' ', ' '] [] printStmt ss ++ t).takeWhile atomChar = [] := by
      simp only [seqOf, List.cons_append]
      rw [List.takeWhile_cons, if_neg (by decide)]
    rw [e, if_pos e2, stmts_parse ss h ht]
    rfl
  · have hn : NameOk n := hn
    rw [block_text ⟨n, ss⟩ hn.1]
    dsimp only
    obtain ⟨h1, h2⟩ := word_take hn (t := [':', '\n'] ++ (seqOf [' ', ' '] ['\n', ' ', ' '] [] printStmt ss ++ t)) (stop_char (by decide))
    rw [h1, h2, if_neg hn.1, expect_append]
    simp only [bind, Option.bind]
    rw [stmts_parse ss h ht]
    rfl

theorem blocks_parse (bs : List Block) (hn : bs ≠ []) (h : BlocksOk bs) {t : Str} (ht : Dedent t) (hb : nextBlock t = none) :
    parseBlocks (seqOf [] ['\n'] [] printBlock bs ++ t) = some (bs, t) := by
  cases bs with
  | nil => exact absurd rfl hn
  | cons b bs =>
    obtain ⟨h1, h2, h3⟩ := h
    have key : ∀ x ∈ bs, ∀ u, nextBlock ((['\n'] ++ printBlock x) ++ u) = some (printBlock x ++ u) ∧ Dedent ((['\n'] ++ printBlock x) ++ u) := by
      intro x hx u
      obtain ⟨c, r, e, hc⟩ := name_head (h3 x hx).1 ([':', '\n'] ++ (seqOf [' ', ' '] ['\n', ' ', ' '] [] printStmt x.stmts ++ u))
      have e1 : printBlock x ++ u = c :: r := by rw [block_text x (h3 x hx).1.1, e]
      rw [List.append_assoc, e1]
      refine ⟨?_, rfl, ?_⟩
      · show nextBlock ('\n' :: c :: r) = _
        simp only [nextBlock, hc, if_true]
      · show expect ['\n', ' ', ' '] ('\n' :: c :: r) = none
        have hne : ' ' ≠ c := by intro e; subst e; cases hc
        unfold expect
        rw [if_neg]
        simp [List.isPrefixOf, hne]
    have hd : Dedent ((bs.flatMap fun x => ['\n'] ++ printBlock x) ++ t) := by
      cases bs with
      | nil => exact ht
      | cons x xs => 
        rw [List.flatMap_cons, List.append_assoc]
        exact (key x (List.mem_cons_self ..) _).2
    have hm : many nextBlock parseBlock ((bs.flatMap fun x => ['\n'] ++ printBlock x) ++ t) = some (bs, t) :=
      many_flat (f := printBlock) (T := Dedent) hb ht bs fun x hx u => ⟨(key x hx u).1, (key x hx u).2,
        fun hu => block_parse x (Or.inr (h3 x hx).1) (h3 x hx).2 hu⟩
    unfold parseBlocks
    rw [seqOf_cons]
    simp only [List.append_assoc, List.nil_append]
    rw [block_parse b h1 h2 hd]
    simp only [bind, Option.bind]
    rw [hm]
    rfl

/-! ### Parameters -/

theorem typed_parse {p : Str × Str} (h : TypedOk p) {t : Str} (ht : ∀ c ∈ t.head?, typeChar c = false) :
    parseTyped ((p.1 ++ [':', ' '] ++ p.2) ++ t) = some (p, t) := by
  have e : (p.1 ++ [':', ' '] ++ p.2) ++ t = p.1 ++ ([':', ' '] ++ (p.2 ++ t)) := by simp only [List.append_assoc]
  unfold parseTyped
  rw [e, word_parse h.1 (by exact stop_char (by decide))]
  simp only [bind, Option.bind, expect_append]
  rw [takeWhile_append_stop h.2 ht, dropWhile_append_stop h.2 ht]
  rfl

def Closed (t : Str) : Prop := ∀ c ∈ t.head?, typeChar c = false

theorem closed_char {c : Char} {t : Str} (h : typeChar c = false) : Closed (c :: t) := by
  intro d hd
  simp at hd
  subst hd
  exact h

theorem params_parse (ps : List (Str × Str)) (h : ∀ p ∈ ps, TypedOk p) (t : Str) : parseParams (printParams ps ++ ([')'] ++ t)) = some (ps, t) := by
  unfold parseParams printParams
  cases ps with
  | nil =>
    have e : seqOf [] [',', ' '] [] (fun p : Str × Str => p.1 ++ [':', ' '] ++ p.2) [] ++ ([')'] ++ t) = [')'] ++ t := rfl
    rw [e, expect_append]
  | cons p ps =>
    have hp := h p (List.mem_cons_self ..)
    have hm : many (expect [',', ' ']) parseTyped ((ps.flatMap fun x => [',', ' '] ++ (x.1 ++ [':', ' '] ++ x.2)) ++ ([')'] ++ t)) = some (ps, [')'] ++ t) :=
      many_flat (f := fun x => x.1 ++ [':', ' '] ++ x.2) (T := Closed) (expect_head (by decide)) (closed_char (by decide)) ps fun x hx u =>
        ⟨by rw [List.append_assoc, expect_append], closed_char (by decide), fun hu => typed_parse (h x (List.mem_cons_of_mem _ hx)) hu⟩
    have hc : Closed ((ps.flatMap fun x => [',', ' '] ++ (x.1 ++ [':', ' '] ++ x.2)) ++ ([')'] ++ t)) := by
      cases ps with
      | nil => exact closed_char (by decide)
      | cons x xs => exact closed_char (by decide)
    have e : seqOf [] [',', ' '] [] (fun p : Str × Str => p.1 ++ [':', ' '] ++ p.2) (p :: ps) ++ ([')'] ++ t) =
        (p.1 ++ [':', ' '] ++ p.2) ++ ((ps.flatMap fun x => [',', ' '] ++ (x.1 ++ [':', ' '] ++ x.2)) ++ ([')'] ++ t)) := by
      rw [seqOf_cons]
      simp only [List.append_nil, List.nil_append, List.append_assoc]
    have hx : expect [')'] ((p.1 ++ [':', ' '] ++ p.2) ++ ((ps.flatMap fun x => [',', ' '] ++ (x.1 ++ [':', ' '] ++ x.2)) ++ ([')'] ++ t))) = none := by
      rw [List.append_assoc, List.append_assoc]
      exact expect_head' fun d hd => Ne.symm (name_ne hp.1 _ ')' (by decide) d hd)
    rw [e, hx]
    simp only [bind, Option.bind]
    rw [typed_parse hp hc]
    simp only
    rw [hm]
    simp only [expect_append]
    rfl

/-! ### Procedures -/

/-- What may follow a declaration: the end of the line, and a line that does not begin with a blank or a brace. -/
def Follow (t : Str) : Prop := ∃ r, t = '\n' :: r ∧ ∀ c ∈ r.head?, c ≠ ' ' ∧ c ≠ '{'

/-- The parts of a procedure after the parameters. -/
def semiText (p : Proc) : Str := if p.blocks.length = 0 then [';'] else []
def modsText (p : Proc) : Str := if 0 < p.mods.length then ['\n'] ++ seqOf [' ', ' ', 'm', 'o', 'd', 'i', 'f', 'i', 'e', 's', ' '] [',', ' '] [';'] id p.mods else []
def reqText (p : Proc) : Str := p.requires_.flatMap fun e => ['\n', ' ', ' ', 'r', 'e', 'q', 'u', 'i', 'r', 'e', 's', ' '] ++ (print e ++ [';'])
def ensText (p : Proc) : Str := p.ensures_.flatMap fun e => ['\n', ' ', ' ', 'e', 'n', 's', 'u', 'r', 'e', 's', ' '] ++ (print e ++ [';'])
def localsText (p : Proc) : Str := p.locals.flatMap fun v => [' ', ' ', 'v', 'a', 'r', ' '] ++ ((v.1 ++ [':', ' '] ++ v.2) ++ [';', '\n'])
def bodyText (p : Proc) : Str := if 0 < p.blocks.length then ['\n', '{', '\n'] ++ (localsText p ++ (seqOf [] ['\n'] [] printBlock p.blocks ++ ['\n', '}'])) else []

theorem clause_text (k : Str) (es : List Expr) :
    (if 0 < es.length then ['\n'] ++ seqOf ([' ', ' '] ++ k) ([';', '\n', ' ', ' '] ++ k) [';'] print es else []) =
      es.flatMap fun e => (['\n', ' ', ' '] ++ k) ++ (print e ++ [';']) := by
  cases es with
  | nil => rfl
  | cons e es =>
    rw [if_pos (by simp), seqOf_cons, ← lines]
    simp

theorem locals_text (ls : List (Str × Str)) :
    (if 0 < ls.length then seqOf [' ', ' '] ['\n', ' ', ' '] ['\n'] printVar ls else []) =
      ls.flatMap fun v => [' ', ' ', 'v', 'a', 'r', ' '] ++ ((v.1 ++ [':', ' '] ++ v.2) ++ [';', '\n']) := by
  cases ls with
  | nil => rfl
  | cons v vs =>
    have := lines [' ', ' '] ['\n'] printVar v vs
    rw [if_pos (by simp), seqOf_cons]
    refine (Eq.trans ?_ this).trans ?_
    · rfl
    · congr 1
      funext v
      simp [printVar]

theorem proc_text (p : Proc) (t : Str) : printProc p ++ t = ['p', 'r', 'o', 'c', 'e', 'd', 'u', 'r', 'e'] ++ ' ' :: (printAttrs p.attrs ++ (p.name ++ (['('] ++ (printParams p.params ++ ([')'] ++
    ((if 0 < p.rets.length then ['\n', ' ', ' ', 'r', 'e', 't', 'u', 'r', 'n', 's', ' ', '('] ++ (printParams p.rets ++ [')']) else []) ++
      (semiText p ++ (modsText p ++ (reqText p ++ (ensText p ++ (bodyText p ++ t))))))))))) := by
  have h1 := clause_text ['r', 'e', 'q', 'u', 'i', 'r', 'e', 's', ' '] p.requires_
  have h2 := clause_text ['e', 'n', 's', 'u', 'r', 'e', 's', ' '] p.ensures_
  have h3 := locals_text p.locals
  simp only [List.cons_append, List.nil_append] at h1 h2 h3
  unfold printProc semiText modsText reqText ensText bodyText localsText
  simp only [List.cons_append, List.nil_append, List.append_assoc] at h1 h2 h3 ⊢
  rw [← h1, ← h2, ← h3]
/-- A line that is not indented, or begins with one of the words. -/
def Line (S : List Str) (t : Str) : Prop :=
  ∃ r, t = '\n' :: r ∧ ((∀ c ∈ r.head?, c ≠ ' ') ∨ ∃ w ∈ S, ∃ r', r = ' ' :: ' ' :: (w ++ r'))

theorem line_mono {S S' : List Str} {t : Str} (h : Line S t) (hs : ∀ w ∈ S, w ∈ S') : Line S' t := by
  obtain ⟨r, e, h⟩ := h
  refine ⟨r, e, h.imp id ?_⟩
  rintro ⟨w, hw, r', e'⟩
  exact ⟨w, hs w hw, r', e'⟩

theorem line_expect {S : List Str} {t : Str} (h : Line S t) (a b c : Char) (k : Str) (hS : ∀ w ∈ S, w.length = 3 ∧ w ≠ [a, b, c]) :
    expect ('\n' :: ' ' :: ' ' :: a :: b :: c :: k) t = none := by
  obtain ⟨r, rfl, h | ⟨w, hw, r', rfl⟩⟩ := h
  · unfold expect
    rw [if_neg]
    cases r with
    | nil => simp [List.isPrefixOf]
    | cons d r =>
      have : d ≠ ' ' := h d rfl
      simp [List.isPrefixOf, Ne.symm this]
  · obtain ⟨h3, hne⟩ := hS w hw
    match w, h3 with
    | [x, y, z], _ =>
    unfold expect
    rw [if_neg]
    simp only [List.cons_append, List.nil_append, List.isPrefixOf, Bool.and_eq_true, beq_iff_eq]
    rintro ⟨-, -, -, h1, h2, h3, -⟩
    exact hne (by rw [h1, h2, h3])

theorem body_line (p : Proc) {t : Str} (ht : Follow t) : Line [] (bodyText p ++ t) := by
  unfold bodyText
  split
  · exact ⟨_, rfl, Or.inl (head_ne (by decide))⟩
  · obtain ⟨r, rfl, h⟩ := ht
    exact ⟨r, rfl, Or.inl fun c hc => (h c hc).1⟩

theorem ens_line (p : Proc) {t : Str} (h : Line [] t) : Line [['e', 'n', 's']] (ensText p ++ t) := by
  unfold ensText
  cases p.ensures_ with
  | nil => exact line_mono h (by simp)
  | cons e es => exact ⟨_, rfl, Or.inr ⟨_, List.mem_cons_self .., _, rfl⟩⟩

theorem req_line (p : Proc) {t : Str} (h : Line [['e', 'n', 's']] t) : Line [['r', 'e', 'q'], ['e', 'n', 's']] (reqText p ++ t) := by
  unfold reqText
  cases p.requires_ with
  | nil => exact line_mono h (by simp)
  | cons e es => exact ⟨_, rfl, Or.inr ⟨_, List.mem_cons_self .., _, rfl⟩⟩

theorem mods_line (p : Proc) {t : Str} (h : Line [['r', 'e', 'q'], ['e', 'n', 's']] t) : Line [['m', 'o', 'd'], ['r', 'e', 'q'], ['e', 'n', 's']] (modsText p ++ t) := by
  unfold modsText
  cases p.mods with
  | nil => exact line_mono h (by simp)
  | cons e es => exact ⟨_, rfl, Or.inr ⟨_, List.mem_cons_self .., _, rfl⟩⟩

theorem optPart_none {p s : Str} {f : Str → Option (List α × Str)} (h : expect p s = none) : optPart p f s = some ([], s) := by
  unfold optPart
  rw [h]

theorem optPart_some {p s : Str} {f : Str → Option (List α × Str)} : optPart p f (p ++ s) = f s := by
  unfold optPart
  rw [expect_append]

theorem stmt_not_var (s : Stmt) (h : StmtOk s) (t : Str) : expect ['v', 'a', 'r', ' '] (printStmt s ++ t) = none := by
  cases s with
  | comment s => exact expect_head (by decide)
  | assert_ as e => exact expect_head (by decide)
  | assume_ as e => exact expect_head (by decide)
  | havoc vs => exact expect_head (by decide)
  | goto_ vs => exact expect_head (by decide)
  | return_ e => exact expect_head (by decide)
  | call as rs p es => exact expect_head (by decide)
  | assign l r =>
    obtain ⟨hl, hr, wl, wr, hroot⟩ := h
    cases l with
    | nil => exact absurd rfl hl
    | cons a l =>
      obtain ⟨v, hv, hw⟩ := hroot a rfl
      rw [WFs] at wl
      obtain ⟨hn, x, hx, hs⟩ := root_print a v wl.1 hv
      have e : printStmt (.assign (a :: l) r) ++ t = v ++ (x ++ (printRest l ++ ([' ', ':', '=', ' '] ++ (printSeq r ++ ([';'] ++ t))))) := by
        simp only [printStmt, seq_exprs, List.append_assoc]
        rw [printSeq, hx]
        simp only [List.append_assoc]
      have hsy : Stop (x ++ (printRest l ++ ([' ', ':', '=', ' '] ++ (printSeq r ++ ([';'] ++ t))))) := by
        cases x with
        | cons c x => exact hs
        | nil =>
          cases l with
          | nil => rw [printRest]; exact stop_char (by decide)
          | cons b l => rw [printRest]; exact stop_char (by decide)
      have ht := (word_take hn hsy).1
      rw [e]
      unfold expect
      rw [if_neg]
      intro hp
      rw [List.isPrefixOf_iff_prefix] at hp
      obtain ⟨y, hy⟩ := hp
      rw [← hy] at ht
      have := (kw_take (w := ['v', 'a', 'r']) (by decide) (c := ' ') (by decide) y).1
      rw [show ['v', 'a', 'r', ' '] ++ y = ['v', 'a', 'r'] ++ ' ' :: y from rfl, this] at ht
      exact hw (ht ▸ List.mem_of_getElem? (i := 6) rfl)

theorem expect_drop2 (p t : Str) (h : expect p t = none) : expect (' ' :: ' ' :: p) (' ' :: ' ' :: t) = none := by
  unfold expect at h ⊢
  by_cases hp : p.isPrefixOf t = true
  · rw [if_pos hp] at h; cases h
  · rw [if_neg]
    simpa [List.isPrefixOf] using hp

theorem blocks_not_var (bs : List Block) (hn : bs ≠ []) (h : BlocksOk bs) (t : Str) :
    expect [' ', ' ', 'v', 'a', 'r', ' '] (seqOf [] ['\n'] [] printBlock bs ++ '\n' :: t) = none := by
  cases bs with
  | nil => exact absurd rfl hn
  | cons b bs =>
    obtain ⟨h1, h2, -⟩ := h
    rw [seqOf_cons]
    simp only [List.append_assoc, List.nil_append]
    rcases h1 with h1 | h1
    · obtain ⟨n, ss⟩ := b
      have h1 : n = [] := h1
      subst h1
      cases ss with
      | nil =>
        refine expect_drop2 ['v', 'a', 'r', ' '] _ ?_
        cases bs with
        | nil => exact expect_head (by decide)
        | cons x xs => exact expect_head (by decide)
      | cons s ss =>
        have e : printBlock ⟨[], s :: ss⟩ = ' ' :: ' ' :: (printStmt s ++ ((ss.flatMap fun x => ['\n', ' ', ' '] ++ printStmt x) ++ [])) := by
          show seqOf [' ', ' '] ['\n', ' ', ' '] [] printStmt (s :: ss) = _
          rw [seqOf_cons]
          rfl
        rw [e]
        simp only [List.cons_append, List.append_assoc]
        exact expect_drop2 ['v', 'a', 'r', ' '] _ (stmt_not_var s (h2 s (List.mem_cons_self ..)) _)
    · rw [block_text b h1.1]
      exact expect_head' fun d hd => Ne.symm (name_ne h1 _ ' ' (by decide) d hd)

theorem local_parse {v : Str × Str} (h : TypedOk v) (t : Str) : parseLocal (((v.1 ++ [':', ' '] ++ v.2) ++ [';', '\n']) ++ t) = some (v, t) := by
  unfold parseLocal
  have : parseTyped ((v.1 ++ [':', ' '] ++ v.2) ++ ([';', '\n'] ++ t)) = some (v, [';', '\n'] ++ t) := typed_parse h (closed_char (by decide))
  rw [List.append_assoc, this]
  simp only [bind, Option.bind, expect_append]
  rfl

theorem mods_parse (p : Proc) (h : ∀ m ∈ p.mods, NameOk m) {t : Str} (ht : Line [['r', 'e', 'q'], ['e', 'n', 's']] t) :
    optPart ['\n', ' ', ' ', 'm', 'o', 'd', 'i', 'f', 'i', 'e', 's', ' '] parseMods (modsText p ++ t) = some (p.mods, t) := by
  unfold modsText
  cases hm : p.mods with
  | nil =>
    refine optPart_none (line_expect ht _ _ _ _ ?_)
    simp
  | cons m ms =>
    rw [hm] at h
    have e : (if 0 < (m :: ms).length then ['\n'] ++ seqOf [' ', ' ', 'm', 'o', 'd', 'i', 'f', 'i', 'e', 's', ' '] [',', ' '] [';'] id (m :: ms) else []) ++ t =
        ['\n', ' ', ' ', 'm', 'o', 'd', 'i', 'f', 'i', 'e', 's', ' '] ++ (seqOf [] [',', ' '] [] id (m :: ms) ++ ([';'] ++ t)) := by
      simp [seqOf]
    rw [e, optPart_some]
    unfold parseMods
    have : parseWords (seqOf [] [',', ' '] [] id (m :: ms) ++ ([';'] ++ t)) = some (m :: ms, [';'] ++ t) :=
      words_parse (by simp) h (stop_char (by decide)) (expect_head (by decide))
    rw [this]
    simp only [bind, Option.bind, expect_append]
    rfl

theorem clause_parse (k : Str) (es : List Expr) (h : ∀ e ∈ es, WF e) {t : Str} (ht : expect k t = none) :
    many (expect k) parseExprSemi ((es.flatMap fun e => k ++ (print e ++ [';'])) ++ t) = some (es, t) :=
  many_flat (f := fun e => print e ++ [';']) (T := fun _ => True) ht trivial es fun e he u =>
    ⟨by rw [List.append_assoc, expect_append], trivial, fun _ => by rw [List.append_assoc]; exact exprSemi_parse (h e he) u⟩

theorem rets_parse (p : Proc) (h : ∀ v ∈ p.rets, TypedOk v) {t : Str} (ht : expect ['\n', ' ', ' ', 'r', 'e', 't', 'u', 'r', 'n', 's', ' ', '('] t = none) :
    optPart ['\n', ' ', ' ', 'r', 'e', 't', 'u', 'r', 'n', 's', ' ', '('] parseParams
      ((if 0 < p.rets.length then ['\n', ' ', ' ', 'r', 'e', 't', 'u', 'r', 'n', 's', ' ', '('] ++ (printParams p.rets ++ [')']) else []) ++ t) = some (p.rets, t) := by
  cases hr : p.rets with
  | nil => exact optPart_none ht
  | cons v vs =>
    rw [hr] at h
    rw [if_pos (by simp), List.append_assoc, optPart_some, List.append_assoc]
    exact params_parse _ h t

theorem semi_parse (p : Proc) {t : Str} (ht : expect [';'] t = none) :
    optPart [';'] (fun r => some (([] : List Unit), r)) (semiText p ++ t) = some ([], t) := by
  unfold semiText
  split
  · exact optPart_some
  · exact optPart_none ht

theorem proc_parse (p : Proc) (h : ProcOk p) {t : Str} (ht : Follow t) :
    parseProc (printAttrs p.attrs ++ (p.name ++ (['('] ++ (printParams p.params ++ ([')'] ++
    ((if 0 < p.rets.length then ['\n', ' ', ' ', 'r', 'e', 't', 'u', 'r', 'n', 's', ' ', '('] ++ (printParams p.rets ++ [')']) else []) ++
      (semiText p ++ (modsText p ++ (reqText p ++ (ensText p ++ (bodyText p ++ t)))))))))) ) = some (p, t) := by
  have l5 := body_line p ht
  have l4 := ens_line p l5
  have l3 := req_line p l4
  have l2 := mods_line p l3
  have hret : expect ['\n', ' ', ' ', 'r', 'e', 't', 'u', 'r', 'n', 's', ' ', '('] (semiText p ++ (modsText p ++ (reqText p ++ (ensText p ++ (bodyText p ++ t))))) = none := by
    unfold semiText
    split
    · exact expect_head (by decide)
    · exact line_expect l2 _ _ _ _ (by decide)
  have hsemi : expect [';'] (modsText p ++ (reqText p ++ (ensText p ++ (bodyText p ++ t)))) = none := by
    obtain ⟨r, e, -⟩ := l2
    rw [e]
    exact expect_head (by decide)
  have hreq := clause_parse ['\n', ' ', ' ', 'r', 'e', 'q', 'u', 'i', 'r', 'e', 's', ' '] p.requires_ h.requires_ (t := ensText p ++ (bodyText p ++ t)) (line_expect l4 _ _ _ _ (by decide))
  have hens := clause_parse ['\n', ' ', ' ', 'e', 'n', 's', 'u', 'r', 'e', 's', ' '] p.ensures_ h.ensures_ (t := bodyText p ++ t) (line_expect l5 _ _ _ _ (by decide))
  have hname : parseWord (p.name ++ (['('] ++ (printParams p.params ++ ([')'] ++
    ((if 0 < p.rets.length then ['\n', ' ', ' ', 'r', 'e', 't', 'u', 'r', 'n', 's', ' ', '('] ++ (printParams p.rets ++ [')']) else []) ++
      (semiText p ++ (modsText p ++ (reqText p ++ (ensText p ++ (bodyText p ++ t)))))))))) = some (p.name, _) := word_parse h.name (stop_char (by decide))
  unfold parseProc
  rw [attrs_parse h.attrs (name_ne h.name _ '{' (by decide))]
  simp only [bind, Option.bind]
  rw [hname]
  simp only [expect_append]
  rw [params_parse _ h.params]
  simp only
  rw [rets_parse p h.rets hret]
  simp only
  rw [semi_parse p hsemi]
  simp only
  rw [mods_parse p h.mods l3]
  simp only
  have hreq' : many (expect ['\n', ' ', ' ', 'r', 'e', 'q', 'u', 'i', 'r', 'e', 's', ' ']) parseExprSemi (reqText p ++ (ensText p ++ (bodyText p ++ t))) = some (p.requires_, ensText p ++ (bodyText p ++ t)) := hreq
  have hens' : many (expect ['\n', ' ', ' ', 'e', 'n', 's', 'u', 'r', 'e', 's', ' ']) parseExprSemi (ensText p ++ (bodyText p ++ t)) = some (p.ensures_, bodyText p ++ t) := hens
  rw [hreq']
  simp only
  rw [hens']
  simp only
  by_cases hb : p.blocks = []
  · have hl := h.body hb
    have e : bodyText p = [] := by unfold bodyText; rw [hb]; rfl
    have hx : expect ['\n', '{', '\n'] t = none := by
      obtain ⟨r, rfl, hr⟩ := ht
      unfold expect
      rw [if_neg]
      cases r with
      | nil => simp [List.isPrefixOf]
      | cons d r =>
        have := (hr d rfl).2
        simp [List.isPrefixOf, Ne.symm this]
    rw [e, List.nil_append, hx]
    obtain ⟨a, n, ps, rs, ms, qs, es, ls, bs⟩ := p
    have hb : bs = [] := hb
    have hl : ls = [] := hl
    subst hb hl
    rfl
  · have e : bodyText p ++ t = ['\n', '{', '\n'] ++ (localsText p ++ (seqOf [] ['\n'] [] printBlock p.blocks ++ (['\n', '}'] ++ t))) := by
      unfold bodyText
      rw [if_pos (List.length_pos_iff.2 hb)]
      simp only [List.append_assoc]
    rw [e, expect_append]
    simp only
    have hloc : many (expect [' ', ' ', 'v', 'a', 'r', ' ']) parseLocal (localsText p ++ (seqOf [] ['\n'] [] printBlock p.blocks ++ (['\n', '}'] ++ t))) =
        some (p.locals, seqOf [] ['\n'] [] printBlock p.blocks ++ (['\n', '}'] ++ t)) :=
      many_flat (f := fun v => (v.1 ++ [':', ' '] ++ v.2) ++ [';', '\n']) (T := fun _ => True) (blocks_not_var p.blocks hb h.blocks _) trivial p.locals fun v hv u =>
        ⟨by rw [List.append_assoc, expect_append], trivial, fun _ => local_parse (h.locals v hv) u⟩
    rw [hloc]
    simp only
    rw [blocks_parse p.blocks hb h.blocks (t := ['\n', '}'] ++ t) ⟨rfl, rfl⟩ rfl]
    simp only [expect_append]
    rfl

end Smack.Printer
