import Verif.Printer.Model
/-!
# Printing of statements, blocks and declarations (lib/smack/BoogieAst.cpp:517-676, include/smack/BoogieAst.h:266-660)

Left out: CodeStmt, CodeDecl and the prelude, whose texts are printed as they are, and CodeExpr.
-/
namespace Smack.Printer

/-- print_seq, BoogieAst.cpp:331-340: `init`, the elements with `sep` between them, `term`. -/
def seqRest (sep : Str) (f : α → Str) : List α → Str
  | [] => []
  | x :: xs => sep ++ f x ++ seqRest sep f xs

def seqOf (init sep term : Str) (f : α → Str) (xs : List α) : Str :=
  init ++ (match xs with | [] => [] | x :: xs => f x ++ seqRest sep f xs) ++ term

/-- Attr, BoogieAst.h:266-286. -/
structure Attr where
  name : Str
  vals : List Expr

/-- Attr::print, BoogieAst.cpp:517-522. -/
def printAttr (a : Attr) : Str :=
  ['{', ':'] ++ a.name ++ (if 0 < a.vals.length then seqOf [' '] [',', ' '] [] print a.vals else []) ++ ['}']

/-- The attributes of a statement or declaration (BoogieAst.cpp:526-527 and the same lines elsewhere). -/
def printAttrs (as : List Attr) : Str := if 0 < as.length then seqOf [] [' '] [' '] printAttr as else []

/-- The classes derived from Stmt (BoogieAst.h:288-430) except CodeStmt. -/
inductive Stmt where
  | assert_ (attrs : List Attr) (e : Expr)
  | assume_ (attrs : List Attr) (e : Expr)
  | assign (lhs rhs : List Expr)
  | havoc (vars : List Str)
  | goto_ (targets : List Str)
  | call (attrs : List Attr) (returns : List Str) (proc : Str) (params : List Expr)
  | return_ (e : Option Expr)
  | comment (s : Str)

/-- The print methods, BoogieAst.cpp:524-577. -/
def printStmt : Stmt → Str
  | .assert_ as e => ['a', 's', 's', 'e', 'r', 't', ' '] ++ printAttrs as ++ print e ++ [';']
  | .assign l r => seqOf [] [',', ' '] [] print l ++ [' ', ':', '=', ' '] ++ seqOf [] [',', ' '] [] print r ++ [';']
  | .assume_ as e => ['a', 's', 's', 'u', 'm', 'e', ' '] ++ printAttrs as ++ print e ++ [';']
  | .call as rs p ps => ['c', 'a', 'l', 'l', ' '] ++ printAttrs as ++ (if 0 < rs.length then seqOf [] [',', ' '] [' ', ':', '=', ' '] id rs else []) ++ p ++
      seqOf ['('] [',', ' '] [')'] print ps ++ [';']
  | .comment s => ['/', '*', ' '] ++ s ++ [' ', '*', '/']
  | .goto_ ts => ['g', 'o', 't', 'o', ' '] ++ seqOf [] [',', ' '] [] id ts ++ [';']
  | .havoc vs => ['h', 'a', 'v', 'o', 'c', ' '] ++ seqOf [] [',', ' '] [] id vs ++ [';']
  | .return_ e => ['r', 'e', 't', 'u', 'r', 'n'] ++ (match e with | some e => [' '] ++ print e | none => []) ++ [';']

/-- Block, BoogieAst.h:520-545. -/
structure Block where
  name : Str
  stmts : List Stmt

/-- Block::print, BoogieAst.cpp:665-670. -/
def printBlock (b : Block) : Str :=
  (if b.name ≠ [] then b.name ++ [':'] ++ ['\n'] else []) ++ seqOf [' ', ' '] ['\n', ' ', ' '] [] printStmt b.stmts

/-- ProcDecl, BoogieAst.h:582-635. The local declarations are variables. -/
structure Proc where
  attrs : List Attr
  name : Str
  params : List (Str × Str)
  rets : List (Str × Str)
  mods : List Str
  requires_ : List Expr
  ensures_ : List Expr
  locals : List (Str × Str)
  blocks : List Block

/-- The classes derived from Decl (BoogieAst.h:432-518, 582-645) except CodeDecl. Variables have no attributes (BoogieAst.h:515). -/
inductive Decl where
  | type_ (attrs : List Attr) (name alias_ : Str)
  | axiom_ (e : Expr)
  | const_ (attrs : List Attr) (unique : Bool) (name type : Str)
  | func (attrs : List Attr) (name : Str) (params : List (Str × Str)) (type : Str) (body : Option Expr)
  | var (name type : Str)
  | proc (p : Proc)

/-- VarDecl::print, BoogieAst.cpp:619-623. -/
def printVar (v : Str × Str) : Str := ['v', 'a', 'r', ' '] ++ v.1 ++ [':', ' '] ++ v.2 ++ [';']

/-- Parameters, BoogieAst.cpp:609-611, 630-632, 636-637. -/
def printParams (ps : List (Str × Str)) : Str := seqOf [] [',', ' '] [] (fun p => p.1 ++ [':', ' '] ++ p.2) ps

/-- ProcDecl::print, BoogieAst.cpp:625-661. -/
def printProc (p : Proc) : Str :=
  ['p', 'r', 'o', 'c', 'e', 'd', 'u', 'r', 'e', ' '] ++ printAttrs p.attrs ++ p.name ++ ['('] ++ printParams p.params ++ [')'] ++
  (if 0 < p.rets.length then ['\n'] ++ [' ', ' ', 'r', 'e', 't', 'u', 'r', 'n', 's', ' ', '('] ++ printParams p.rets ++ [')'] else []) ++
  (if p.blocks.length = 0 then [';'] else []) ++
  (if 0 < p.mods.length then ['\n'] ++ seqOf [' ', ' ', 'm', 'o', 'd', 'i', 'f', 'i', 'e', 's', ' '] [',', ' '] [';'] id p.mods else []) ++
  (if 0 < p.requires_.length then ['\n'] ++ seqOf [' ', ' ', 'r', 'e', 'q', 'u', 'i', 'r', 'e', 's', ' '] [';', '\n', ' ', ' ', 'r', 'e', 'q', 'u', 'i', 'r', 'e', 's', ' '] [';'] print p.requires_ else []) ++
  (if 0 < p.ensures_.length then ['\n'] ++ seqOf [' ', ' ', 'e', 'n', 's', 'u', 'r', 'e', 's', ' '] [';', '\n', ' ', ' ', 'e', 'n', 's', 'u', 'r', 'e', 's', ' '] [';'] print p.ensures_ else []) ++
  (if 0 < p.blocks.length then ['\n'] ++ ['{'] ++ ['\n'] ++
    (if 0 < p.locals.length then seqOf [' ', ' '] ['\n', ' ', ' '] ['\n'] printVar p.locals else []) ++
    seqOf [] ['\n'] [] printBlock p.blocks ++ ['\n'] ++ ['}'] else [])

/-- The print methods, BoogieAst.cpp:581-661. -/
def printDecl : Decl → Str
  | .type_ as n a => ['t', 'y', 'p', 'e', ' '] ++ printAttrs as ++ n ++ (if a ≠ [] then [' ', '=', ' '] ++ a else []) ++ [';']
  | .axiom_ e => ['a', 'x', 'i', 'o', 'm', ' '] ++ print e ++ [';']
  | .const_ as u n t => ['c', 'o', 'n', 's', 't', ' '] ++ printAttrs as ++ (if u then ['u', 'n', 'i', 'q', 'u', 'e', ' '] else []) ++ n ++ [':', ' '] ++ t ++ [';']
  | .func as n ps t b => ['f', 'u', 'n', 'c', 't', 'i', 'o', 'n', ' '] ++ printAttrs as ++ n ++ ['('] ++ printParams ps ++ [')', ' ', 'r', 'e', 't', 'u', 'r', 'n', 's', ' ', '('] ++ t ++ [')'] ++
      (match b with | some e => [' ', '{', ' '] ++ print e ++ [' ', '}'] | none => [';'])
  | .var n t => printVar (n, t)
  | .proc p => printProc p

/-- Program::print after the prelude, BoogieAst.cpp:672-676. -/
def printDecls (ds : List Decl) : Str := seqOf [] ['\n'] [] printDecl ds ++ ['\n']

end Smack.Printer
