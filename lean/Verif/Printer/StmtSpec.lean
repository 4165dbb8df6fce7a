import Verif.Printer.Spec
import Verif.Printer.StmtModel
/-!
# Specification: reading statements, blocks and declarations in the layout of the printer
-/
namespace Smack.Printer.Spec

open Smack.Printer

/-- Elements as long as `start` finds the beginning of one. -/
def many (start : Str → Option Str) (p : Str → Option (α × Str)) (s : Str) : Option (List α × Str) :=
  match start s with
  | none => some ([], s)
  | some r => do
    let (x, r) ← p r
    let (xs, r) ← many start p r
    return (x :: xs, r)
partial_fixpoint

/-- A word. -/
def parseWord (s : Str) : Option (Str × Str) :=
  if s.takeWhile atomChar = [] then none else some (s.takeWhile atomChar, s.dropWhile atomChar)

/-- Words separated by commas. -/
def parseWords (s : Str) : Option (List Str × Str) := do
  let (w, r) ← parseWord s
  let (ws, r) ← many (expect [',', ' ']) parseWord r
  return (w :: ws, r)

/-- An attribute after `{:`, and the blank after it. -/
def parseAttr (s : Str) : Option (Attr × Str) := do
  let (n, r) ← parseWord s
  match expect [' '] r with
  | some r => do
    let (vs, r) ← parseSeq r
    let r ← expect ['}', ' '] r
    return (⟨n, vs⟩, r)
  | none => do
    let r ← expect ['}', ' '] r
    return (⟨n, []⟩, r)

def parseAttrs : Str → Option (List Attr × Str) := many (expect ['{', ':']) parseAttr

/-- The text of a comment up to its end; comments of Boogie can be nested. -/
def parseComment : Nat → Str → Option (Str × Str)
  | _, [] => none
  | d, '*' :: '/' :: r => match d with
    | 0 => some ([], r)
    | d + 1 => (parseComment d r).map fun p => ('*' :: '/' :: p.1, p.2)
  | d, '/' :: '*' :: r => (parseComment (d + 1) r).map fun p => ('/' :: '*' :: p.1, p.2)
  | d, c :: r => (parseComment d r).map fun p => (c :: p.1, p.2)

/-- An expression and the semicolon. -/
def parseExprSemi (s : Str) : Option (Expr × Str) := do
  let (e, r) ← parseE s
  let r ← expect [';'] r
  return (e, r)

def parseStmt (s : Str) : Option (Stmt × Str) :=
  match expect ['/', '*', ' '] s with
  | some r => do
    let (c, r) ← parseComment 0 r
    return (.comment c.dropLast, r)
  | none =>
    let w := s.takeWhile atomChar
    let r := s.dropWhile atomChar
    if w = ['a', 's', 's', 'e', 'r', 't'] then do
      let r ← expect [' '] r
      let (as, r) ← parseAttrs r
      let (e, r) ← parseExprSemi r
      return (.assert_ as e, r)
    else if w = ['a', 's', 's', 'u', 'm', 'e'] then do
      let r ← expect [' '] r
      let (as, r) ← parseAttrs r
      let (e, r) ← parseExprSemi r
      return (.assume_ as e, r)
    else if w = ['h', 'a', 'v', 'o', 'c'] then do
      let r ← expect [' '] r
      let (vs, r) ← parseWords r
      let r ← expect [';'] r
      return (.havoc vs, r)
    else if w = ['g', 'o', 't', 'o'] then do
      let r ← expect [' '] r
      let (vs, r) ← parseWords r
      let r ← expect [';'] r
      return (.goto_ vs, r)
    else if w = ['r', 'e', 't', 'u', 'r', 'n'] then
      match expect [';'] r with
      | some r => some (.return_ none, r)
      | none => do
        let r ← expect [' '] r
        let (e, r) ← parseExprSemi r
        return (.return_ (some e), r)
    else if w = ['c', 'a', 'l', 'l'] then do
      let r ← expect [' '] r
      let (as, r) ← parseAttrs r
      let (ws, r) ← parseWords r
      match expect [' ', ':', '=', ' '] r with
      | some r => do
        let (p, r) ← parseWord r
        let r ← expect ['('] r
        let (es, r) ← parseSeq r
        let r ← expect [')', ';'] r
        return (.call as ws p es, r)
      | none => match ws with
        | [p] => do
          let r ← expect ['('] r
          let (es, r) ← parseSeq r
          let r ← expect [')', ';'] r
          return (.call as [] p es, r)
        | _ => none
    else do
      let (l, r) ← parseSeq s
      let r ← expect [' ', ':', '=', ' '] r
      let (e, r) ← parseSeq r
      let r ← expect [';'] r
      return (.assign l e, r)

/-- The statements of a block: each on a line of its own, indented by two blanks. -/
def parseStmts (s : Str) : Option (List Stmt × Str) := do
  let s ← expect [' ', ' '] s
  if s.head? = some '\n' then return ([], s) else
    let (x, r) ← parseStmt s
    let (xs, r) ← many (expect ['\n', ' ', ' ']) parseStmt r
    return (x :: xs, r)

/-- A block: its label, if it has one, and its statements. -/
def parseBlock (s : Str) : Option (Block × Str) :=
  if s.takeWhile atomChar = [] then do
    let (ss, r) ← parseStmts s
    return (⟨[], ss⟩, r)
  else do
    let r ← expect [':', '\n'] (s.dropWhile atomChar)
    let (ss, r) ← parseStmts r
    return (⟨s.takeWhile atomChar, ss⟩, r)

/-- A further block begins at the beginning of a line. -/
def nextBlock : Str → Option Str
  | '\n' :: c :: r => if atomChar c then some (c :: r) else none
  | _ => none

def parseBlocks (s : Str) : Option (List Block × Str) := do
  let (b, r) ← parseBlock s
  let (bs, r) ← many nextBlock parseBlock r
  return (b :: bs, r)

/-- Characters of types. -/
def typeChar (c : Char) : Bool := !([',', ')', ';'].contains c)

/-- A name and its type. -/
def parseTyped (s : Str) : Option ((Str × Str) × Str) := do
  let (n, r) ← parseWord s
  let r ← expect [':', ' '] r
  return ((n, r.takeWhile typeChar), r.dropWhile typeChar)

/-- Parameters up to the parenthesis. -/
def parseParams (s : Str) : Option (List (Str × Str) × Str) :=
  match expect [')'] s with
  | some r => some ([], r)
  | none => do
    let (p, r) ← parseTyped s
    let (ps, r) ← many (expect [',', ' ']) parseTyped r
    let r ← expect [')'] r
    return (p :: ps, r)

/-- A local variable after `var`. -/
def parseLocal (s : Str) : Option ((Str × Str) × Str) := do
  let (v, r) ← parseTyped s
  let r ← expect [';', '\n'] r
  return (v, r)

/-- A part that may be missing, and begins with the text `p`. -/
def optPart (p : Str) (f : Str → Option (List α × Str)) (s : Str) : Option (List α × Str) :=
  match expect p s with
  | none => some ([], s)
  | some r => f r

def parseMods (s : Str) : Option (List Str × Str) := do
  let (ws, r) ← parseWords s
  let r ← expect [';'] r
  return (ws, r)

/-- A procedure after the word `procedure`. -/
def parseProc (s : Str) : Option (Proc × Str) := do
  let (as, r) ← parseAttrs s
  let (n, r) ← parseWord r
  let r ← expect ['('] r
  let (ps, r) ← parseParams r
  let (rs, r) ← optPart ['\n', ' ', ' ', 'r', 'e', 't', 'u', 'r', 'n', 's', ' ', '('] parseParams r
  let (_, r) ← optPart [';'] (fun r => some (([] : List Unit), r)) r
  let (ms, r) ← optPart ['\n', ' ', ' ', 'm', 'o', 'd', 'i', 'f', 'i', 'e', 's', ' '] parseMods r
  let (qs, r) ← many (expect ['\n', ' ', ' ', 'r', 'e', 'q', 'u', 'i', 'r', 'e', 's', ' ']) parseExprSemi r
  let (es, r) ← many (expect ['\n', ' ', ' ', 'e', 'n', 's', 'u', 'r', 'e', 's', ' ']) parseExprSemi r
  match expect ['\n', '{', '\n'] r with
  | none => return (⟨as, n, ps, rs, ms, qs, es, [], []⟩, r)
  | some r => do
    let (ls, r) ← many (expect [' ', ' ', 'v', 'a', 'r', ' ']) parseLocal r
    let (bs, r) ← parseBlocks r
    let r ← expect ['\n', '}'] r
    return (⟨as, n, ps, rs, ms, qs, es, ls, bs⟩, r)

/-- A declaration. -/
def parseDecl (s : Str) : Option (Decl × Str) :=
  let w := s.takeWhile atomChar
  match expect [' '] (s.dropWhile atomChar) with
  | none => none
  | some r =>
    if w = ['t', 'y', 'p', 'e'] then do
      let (as, r) ← parseAttrs r
      let (n, r) ← parseWord r
      match expect [' ', '=', ' '] r with
      | some r => do
        let r' ← expect [';'] (r.dropWhile (· ≠ ';'))
        return (.type_ as n (r.takeWhile (· ≠ ';')), r')
      | none => do
        let r ← expect [';'] r
        return (.type_ as n [], r)
    else if w = ['a', 'x', 'i', 'o', 'm'] then do
      let (e, r) ← parseExprSemi r
      return (.axiom_ e, r)
    else if w = ['c', 'o', 'n', 's', 't'] then do
      let (as, r) ← parseAttrs r
      let (u, r) := match expect ['u', 'n', 'i', 'q', 'u', 'e', ' '] r with
        | some r => (true, r)
        | none => (false, r)
      let (v, r) ← parseTyped r
      let r ← expect [';'] r
      return (.const_ as u v.1 v.2, r)
    else if w = ['f', 'u', 'n', 'c', 't', 'i', 'o', 'n'] then do
      let (as, r) ← parseAttrs r
      let (n, r) ← parseWord r
      let r ← expect ['('] r
      let (ps, r) ← parseParams r
      let r ← expect [' ', 'r', 'e', 't', 'u', 'r', 'n', 's', ' ', '('] r
      let t := r.takeWhile typeChar
      let r ← expect [')'] (r.dropWhile typeChar)
      match expect [';'] r with
      | some r => return (.func as n ps t none, r)
      | none => do
        let r ← expect [' ', '{', ' '] r
        let (e, r) ← parseE r
        let r ← expect [' ', '}'] r
        return (.func as n ps t (some e), r)
    else if w = ['v', 'a', 'r'] then do
      let (v, r) ← parseTyped r
      let r ← expect [';'] r
      return (.var v.1 v.2, r)
    else if w = ['p', 'r', 'o', 'c', 'e', 'd', 'u', 'r', 'e'] then do
      let (p, r) ← parseProc r
      return (.proc p, r)
    else none

/-- A further declaration begins at the beginning of a line. -/
def nextDecl : Str → Option Str
  | '\n' :: c :: r => some (c :: r)
  | _ => none

/-- Declarations, and the end of the last line. -/
def parseDecls (s : Str) : Option (List Decl × Str) :=
  match expect ['\n'] s with
  | some r => some ([], r)
  | none => do
    let (d, r) ← parseDecl s
    let (ds, r) ← many nextDecl parseDecl r
    let r ← expect ['\n'] r
    return (d :: ds, r)

/-! ## Well-formed statements and declarations -/

/-- Names: not empty, made of the characters of identifiers. -/
def NameOk (n : Str) : Prop := n ≠ [] ∧ ∀ c ∈ n, atomChar c = true

/-- Words that begin statements and declarations of local variables. -/
def stmtWords : List Str :=
  [['a', 's', 's', 'e', 'r', 't'], ['a', 's', 's', 'u', 'm', 'e'], ['h', 'a', 'v', 'o', 'c'], ['g', 'o', 't', 'o'], ['r', 'e', 't', 'u', 'r', 'n'], ['c', 'a', 'l', 'l'], ['v', 'a', 'r']]

def AttrOk (a : Attr) : Prop := NameOk a.name ∧ WFs a.vals

/-- The variable that is assigned to. -/
def root : Expr → Option Str
  | .var v => some v
  | .sel b _ => root b
  | _ => none

/-- Comments contain no delimiters of comments. -/
def CommentOk (s : Str) : Prop := ¬ ['*', '/'] <:+: s ∧ ¬ ['/', '*'] <:+: s

def StmtOk : Stmt → Prop
  | .assert_ as e => (∀ a ∈ as, AttrOk a) ∧ WF e
  | .assume_ as e => (∀ a ∈ as, AttrOk a) ∧ WF e
  | .assign l r => l ≠ [] ∧ r ≠ [] ∧ WFs l ∧ WFs r ∧ ∀ e ∈ l.head?, ∃ v, root e = some v ∧ v ∉ stmtWords
  | .havoc vs => vs ≠ [] ∧ ∀ v ∈ vs, NameOk v
  | .goto_ ts => ts ≠ [] ∧ ∀ t ∈ ts, NameOk t
  | .call as rs p es => (∀ a ∈ as, AttrOk a) ∧ (∀ v ∈ rs, NameOk v) ∧ NameOk p ∧ WFs es
  | .return_ e => ∀ x ∈ e, WF x
  | .comment s => CommentOk s

/-- Only the first block of a body may have no label. -/
def BlocksOk : List Block → Prop
  | [] => True
  | b :: bs => (b.name = [] ∨ NameOk b.name) ∧ (∀ s ∈ b.stmts, StmtOk s) ∧ ∀ b ∈ bs, NameOk b.name ∧ ∀ s ∈ b.stmts, StmtOk s

/-- Types contain no delimiters of lists. -/
def TypeOk (t : Str) : Prop := ∀ c ∈ t, typeChar c = true

def TypedOk (p : Str × Str) : Prop := NameOk p.1 ∧ TypeOk p.2

/-- A procedure without a body has no local variables. -/
structure ProcOk (p : Proc) : Prop where
  attrs : ∀ a ∈ p.attrs, AttrOk a
  name : NameOk p.name
  params : ∀ v ∈ p.params, TypedOk v
  rets : ∀ v ∈ p.rets, TypedOk v
  mods : ∀ m ∈ p.mods, NameOk m
  requires_ : ∀ e ∈ p.requires_, WF e
  ensures_ : ∀ e ∈ p.ensures_, WF e
  locals : ∀ v ∈ p.locals, TypedOk v
  blocks : BlocksOk p.blocks
  body : p.blocks = [] → p.locals = []

def DeclOk : Decl → Prop
  | .type_ as n t => (∀ a ∈ as, AttrOk a) ∧ NameOk n ∧ ';' ∉ t
  | .axiom_ e => WF e
  | .const_ as _ n t => (∀ a ∈ as, AttrOk a) ∧ NameOk n ∧ n ≠ ['u', 'n', 'i', 'q', 'u', 'e'] ∧ TypeOk t
  | .func as n ps t b => (∀ a ∈ as, AttrOk a) ∧ NameOk n ∧ (∀ v ∈ ps, TypedOk v) ∧ TypeOk t ∧ ∀ e ∈ b, WF e
  | .var n t => NameOk n ∧ TypeOk t
  | .proc p => ProcOk p

end Smack.Printer.Spec
