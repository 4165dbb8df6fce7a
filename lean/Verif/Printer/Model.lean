/-
Model of the expression printer (lib/smack/BoogieAst.cpp:284-515, include/smack/BoogieAst.h:58-265) and of the substitution of
arguments into inline Boogie code (lib/smack/SmackRep.cpp:1124-1184). Strings are lists of characters.
-/

namespace Smack.Printer

abbrev Str := List Char

/-- BinExpr::Binary, BoogieAst.h:60-78. -/
inductive BinOp where
  | iff | imp | or | and | eq | neq | lt | gt | lte | gte | sub | conc | plus | minus | times | div | mod
deriving DecidableEq, Repr

/-- RModeKind. -/
inductive RMode where
  | rne | rna | rtp | rtn | rtz
deriving DecidableEq, Repr

/-- QuantExpr::Quantifier, BoogieAst.h:190. -/
inductive Quant where
  | exists_ | forall_
deriving DecidableEq, Repr

/-- The classes derived from Expr (BoogieAst.h:58-265), except CodeExpr. -/
inductive Expr where
  | bin (op : BinOp) (l r : Expr)
  | fn (f : Str) (args : List Expr)
  | bool (b : Bool)
  | rmode (m : RMode)
  | int (v : Str)
  | bv (v : Str) (w : Nat)
  | fp (neg : Bool) (sig expo : Str) (sigSize expSize : Nat)
  | fpSpecial (v : Str) (sigSize expSize : Nat)
  | str (v : Str)
  | neg (e : Expr)
  | not (e : Expr)
  | quant (q : Quant) (vars : List (Str × Str)) (e : Expr)
  | sel (base : Expr) (idxs : List Expr)
  | upd (base : Expr) (idxs : List Expr) (val : Expr)
  | var (v : Str)
  | ite (c t e : Expr)
  | extract (v upper lower : Expr)
  | concat (l r : Expr)
deriving Repr

/-- Output of an unsigned number. -/
def dec (n : Nat) : Str := Nat.toDigits 10 n

/-- BoogieAst.cpp:365-419. -/
def opStr : BinOp → Str
  | .iff => ['<', '=', '=', '>']
  | .imp => ['=', '=', '>']
  | .or => ['|', '|']
  | .and => ['&', '&']
  | .eq => ['=', '=']
  | .neq => ['!', '=']
  | .lt => ['<']
  | .gt => ['>']
  | .lte => ['<', '=']
  | .gte => ['>', '=']
  | .sub => ['<', ':']
  | .conc => ['+', '+']
  | .plus => ['+']
  | .minus => ['-']
  | .times => ['*']
  | .div => ['/']
  | .mod => ['%']

/-- RModeLit::print, BoogieAst.cpp:430-448. -/
def rmodeStr : RMode → Str
  | .rne => ['R', 'N', 'E']
  | .rna => ['R', 'N', 'A']
  | .rtp => ['R', 'T', 'P']
  | .rtn => ['R', 'T', 'N']
  | .rtz => ['R', 'T', 'Z']

/-- The output of a Binding (operator<< for pairs, BoogieAst.cpp:325-329). -/
def printBinding (b : Str × Str) : Str := b.1 ++ [':', ' '] ++ b.2

/-- print_seq of bindings with ", ". -/
def printBindings : List (Str × Str) → Str
  | [] => []
  | [b] => printBinding b
  | b :: b' :: bs => printBinding b ++ [',', ' '] ++ printBindings (b' :: bs)

def quantStr : Quant → Str
  | .forall_ => ['f', 'o', 'r', 'a', 'l', 'l', ' ']
  | .exists_ => ['e', 'x', 'i', 's', 't', 's', ' ']

mutual
/-- The print methods, BoogieAst.cpp:360-515. -/
def print : Expr → Str
  | .bin op l r => ['('] ++ print l ++ [' '] ++ opStr op ++ [' '] ++ print r ++ [')']
  | .fn f args => f ++ ['('] ++ printSeq args ++ [')']
  | .bool b => if b then ['t', 'r', 'u', 'e'] else ['f', 'a', 'l', 's', 'e']
  | .rmode m => rmodeStr m
  | .int v => v
  | .bv v w => v ++ ['b', 'v'] ++ dec w
  | .fp neg sig expo ss es =>
    (if neg then ['-'] else []) ++ ['0', 'x'] ++ sig ++ ['e'] ++ expo ++ ['f'] ++ dec ss ++ ['e'] ++ dec es
  | .fpSpecial v ss es => ['0'] ++ v ++ dec ss ++ ['e'] ++ dec es
  | .str v => ['"'] ++ v ++ ['"']
  | .neg e => ['-', '('] ++ print e ++ [')']
  | .not e => ['!', '('] ++ print e ++ [')']
  | .quant q vs e => ['('] ++ quantStr q ++ printBindings vs ++ [' ', ':', ':', ' '] ++ print e ++ [')']
  | .sel b is => print b ++ ['['] ++ printSeq is ++ [']']
  | .upd b is v => print b ++ ['['] ++ printSeq is ++ [' ', ':', '=', ' '] ++ print v ++ [']']
  | .var v => v
  | .ite c t e => ['(', 'i', 'f', ' '] ++ print c ++ [' ', 't', 'h', 'e', 'n', ' '] ++ print t ++
      [' ', 'e', 'l', 's', 'e', ' '] ++ print e ++ [')']
  | .extract v u l => print v ++ ['['] ++ print u ++ [':'] ++ print l ++ [']']
  | .concat l r => ['('] ++ print l ++ ['+', '+'] ++ print r ++ [')']

/-- print_seq with ", " between the elements (BoogieAst.cpp:331-340). -/
def printSeq : List Expr → Str
  | [] => []
  | e :: es => print e ++ printRest es

/-- The elements after the first, each preceded by the separator. -/
def printRest : List Expr → Str
  | [] => []
  | e :: es => [',', ' '] ++ print e ++ printRest es
end

/-! ## Inline code -/

/-- The types distinguished by `code`. -/
inductive Ty where
  | i8 | i16 | i32 | float | other (n : Nat)
deriving DecidableEq, Repr

/-- An argument: its type, its printed form (`arg(f, i, argV)->print`), and the same for the operand if it is a cast. -/
structure Arg where
  ty : Ty
  text : Str
  inner : Option (Ty × Str)

/-- The type for a format character (SmackRep.cpp:1147-1169). -/
def fmtType : Char → Option Ty
  | 'c' | 'b' | 'B' => some .i8
  | 'f' => some .float
  | 'h' | 'H' => some .i16
  | 'i' | 'I' => some .i32
  | _ => none

/-- The text for an argument (SmackRep.cpp:1172-1181); `none` when an assertion fails. -/
def argText (target : Option Ty) (a : Arg) : Option Str :=
  match target with
  | none => some a.text
  | some t => if a.ty = t then some a.text else
    match a.inner with
    | some (t', s) => if t' = t then some s else none
    | none => none

/-- One iteration of the loop (SmackRep.cpp:1138-1182): the first '@' of the string built so far is replaced. -/
def substOne (s : Str) (a : Arg) : Option Str :=
  let pre := s.takeWhile (· ≠ '@')
  match s.dropWhile (· ≠ '@') with
  | [] => none
  | _ :: rest =>
    match rest with
    | [] => (argText none a).map fun t => pre ++ t
    | c :: rest' => match fmtType c with
      | some ty => (argText (some ty) a).map fun t => pre ++ t ++ rest'
      | none => (argText none a).map fun t => pre ++ t ++ (c :: rest')

/-- code, SmackRep.cpp:1129-1184. -/
def code (s : Str) : List Arg → Option Str
  | [] => some s
  | a :: as => (substOne s a).bind fun s' => code s' as

end Smack.Printer
