/-
Specification: a parser for the fragment of Boogie's expression grammar that is printed, the well-formed expressions (those the
translator builds: identifiers are legal and not reserved, literals are digit strings), and templates.
-/
import Verif.Printer.Model

namespace Smack.Printer.Spec

open Smack.Printer

/-! ## Lexical structure -/

/-- Characters of identifiers and numerals (plus `-` for signs). -/
def atomChar (c : Char) : Bool :=
  c.isAlpha || c.isDigit || ['_', '.', '$', '#', '\'', '`', '~', '^', '?', '-'].contains c

/-- The longest numeral or identifier at the start; `0+oo` starts the literal of positive infinity. -/
def lexAtom (s : Str) : Str :=
  if ['0', '+', 'o', 'o'].isPrefixOf s then ['0', '+', 'o', 'o'] ++ (s.drop 4).takeWhile atomChar else s.takeWhile atomChar

def toNat (ds : Str) : Nat := Nat.ofDigitChars 10 ds 0

/-- `...f<digits>e<digits>` from the right. -/
def parseFpSizes (a : Str) : Str × Nat × Nat :=
  let r := a.reverse
  let es := r.takeWhile Char.isDigit
  let r := (r.dropWhile Char.isDigit).drop 1
  let ss := r.takeWhile Char.isDigit
  ((r.dropWhile Char.isDigit).reverse, toNat ss.reverse, toNat es.reverse)

/-- `<sig>e<expo>f` from the right. -/
def parseFpBody (a : Str) : Str × Str :=
  let r := a.reverse.drop 1
  let ex := r.takeWhile (fun c => c.isDigit || c == '-')
  (((r.dropWhile (fun c => c.isDigit || c == '-')).drop 1).reverse, ex.reverse)

/-- `<digits>` or `<digits>bv<digits>`, split after the first digits. -/
def bvOrInt (d r : Str) : Expr :=
  match r with
  | 'b' :: 'v' :: w => .bv d (toNat w)
  | r => .int (d ++ r)

/-- The expression denoted by a numeral or identifier that is not reserved. -/
def classifyNum (a : Str) : Expr :=
  match a with
  | '-' :: '0' :: 'x' :: r =>
    let (b, ss, es) := parseFpSizes r
    let (sig, ex) := parseFpBody b
    .fp true sig ex ss es
  | '0' :: 'x' :: r =>
    let (b, ss, es) := parseFpSizes r
    let (sig, ex) := parseFpBody b
    .fp false sig ex ss es
  | '0' :: 'N' :: r =>
    let (b, ss, es) := parseFpSizes r
    .fpSpecial ('N' :: b) ss es
  | '0' :: '+' :: r =>
    let (b, ss, es) := parseFpSizes r
    .fpSpecial ('+' :: b) ss es
  | '0' :: '-' :: r =>
    let (b, ss, es) := parseFpSizes r
    .fpSpecial ('-' :: b) ss es
  | '-' :: r => .int ('-' :: r)
  | c :: r =>
    if c.isDigit then bvOrInt ((c :: r).takeWhile Char.isDigit) ((c :: r).dropWhile Char.isDigit)
    else .var (c :: r)
  | [] => .var []

/-- The expression denoted by a numeral or identifier. -/
def classify (a : Str) : Expr :=
  if a = ['t', 'r', 'u', 'e'] then .bool true
  else if a = ['f', 'a', 'l', 's', 'e'] then .bool false
  else if a = ['R', 'N', 'E'] then .rmode .rne
  else if a = ['R', 'N', 'A'] then .rmode .rna
  else if a = ['R', 'T', 'P'] then .rmode .rtp
  else if a = ['R', 'T', 'N'] then .rmode .rtn
  else if a = ['R', 'T', 'Z'] then .rmode .rtz
  else classifyNum a

/-- Boogie's binary operators. -/
def parseOp (o : Str) : Option BinOp :=
  if o = ['<', '=', '=', '>'] then some .iff
  else if o = ['=', '=', '>'] then some .imp
  else if o = ['|', '|'] then some .or
  else if o = ['&', '&'] then some .and
  else if o = ['=', '='] then some .eq
  else if o = ['!', '='] then some .neq
  else if o = ['<'] then some .lt
  else if o = ['>'] then some .gt
  else if o = ['<', '='] then some .lte
  else if o = ['>', '='] then some .gte
  else if o = ['<', ':'] then some .sub
  else if o = ['+', '+'] then some .conc
  else if o = ['+'] then some .plus
  else if o = ['-'] then some .minus
  else if o = ['*'] then some .times
  else if o = ['/'] then some .div
  else if o = ['%'] then some .mod
  else none

def expect (p s : Str) : Option Str := if p.isPrefixOf s then some (s.drop p.length) else none

/-- Bound variables `x: T, y: U`, up to ` :: `. -/
def parseBindings (s : Str) : Option (List (Str × Str) × Str) :=
  if s.takeWhile atomChar = [] then some ([], s) else do
    let r ← expect [':', ' '] (s.dropWhile atomChar)
    match expect [',', ' '] (r.dropWhile atomChar) with
    | some r' => do
      let (bs, r'') ← parseBindings r'
      return ((s.takeWhile atomChar, r.takeWhile atomChar) :: bs, r'')
    | none => return ([(s.takeWhile atomChar, r.takeWhile atomChar)], r.dropWhile atomChar)
partial_fixpoint

mutual
/-- An expression at the start of the text; the rest of the text is returned. -/
def parseE (s : Str) : Option (Expr × Str) :=
  match s with
  | '(' :: r =>
    if ['i', 'f', ' '].isPrefixOf r then do
      let (c, r) ← parseE (r.drop 3)
      let r ← expect [' ', 't', 'h', 'e', 'n', ' '] r
      let (t, r) ← parseE r
      let r ← expect [' ', 'e', 'l', 's', 'e', ' '] r
      let (e, r) ← parseE r
      let r ← expect [')'] r
      parseSuffix (.ite c t e) r
    else if ['f', 'o', 'r', 'a', 'l', 'l', ' '].isPrefixOf r then do
      let (vs, r) ← parseBindings (r.drop 7)
      let r ← expect [' ', ':', ':', ' '] r
      let (e, r) ← parseE r
      let r ← expect [')'] r
      parseSuffix (.quant .forall_ vs e) r
    else if ['e', 'x', 'i', 's', 't', 's', ' '].isPrefixOf r then do
      let (vs, r) ← parseBindings (r.drop 7)
      let r ← expect [' ', ':', ':', ' '] r
      let (e, r) ← parseE r
      let r ← expect [')'] r
      parseSuffix (.quant .exists_ vs e) r
    else do
      let (l, r) ← parseE r
      match r with
      | '+' :: '+' :: r => do
        let (e, r) ← parseE r
        let r ← expect [')'] r
        parseSuffix (.concat l e) r
      | ' ' :: r => do
        let op ← parseOp (r.takeWhile (· ≠ ' '))
        let r ← expect [' '] (r.dropWhile (· ≠ ' '))
        let (e, r) ← parseE r
        let r ← expect [')'] r
        parseSuffix (.bin op l e) r
      | _ => none
  | '!' :: '(' :: r => do
    let (e, r) ← parseE r
    let r ← expect [')'] r
    return (.not e, r)
  | '"' :: r => do
    let v := r.takeWhile (· ≠ '"')
    let r ← expect ['"'] (r.dropWhile (· ≠ '"'))
    return (.str v, r)
  | _ =>
    let a := lexAtom s
    if a = [] then none else
    match s.drop a.length with
    | '(' :: r =>
      if a = ['-'] then do
        let (e, r) ← parseE r
        let r ← expect [')'] r
        return (.neg e, r)
      else do
        let (as, r) ← parseSeq r
        let r ← expect [')'] r
        parseSuffix (.fn a as) r
    | r => parseSuffix (classify a) r
partial_fixpoint

/-- Selections, updates and extractions that follow an expression. -/
def parseSuffix (e : Expr) (s : Str) : Option (Expr × Str) :=
  match s with
  | '[' :: r => do
    let (is, r) ← parseSeq r
    match r with
    | ']' :: r => parseSuffix (.sel e is) r
    | ' ' :: ':' :: '=' :: ' ' :: r => do
      let (v, r) ← parseE r
      let r ← expect [']'] r
      parseSuffix (.upd e is v) r
    | ':' :: r =>
      match is with
      | [u] => do
        let (l, r) ← parseE r
        let r ← expect [']'] r
        parseSuffix (.extract e u l) r
      | _ => none
    | _ => none
  | _ => some (e, s)
partial_fixpoint

/-- Expressions separated by commas. -/
def parseSeq (s : Str) : Option (List Expr × Str) :=
  match s with
  | ')' :: _ => some ([], s)
  | ']' :: _ => some ([], s)
  | ' ' :: _ => some ([], s)
  | _ => do
    let (e, r) ← parseE s
    let (es, r) ← parseMore r
    return (e :: es, r)
partial_fixpoint

def parseMore (s : Str) : Option (List Expr × Str) :=
  match s with
  | ',' :: ' ' :: r => do
    let (e, r) ← parseE r
    let (es, r) ← parseMore r
    return (e :: es, r)
  | _ => some ([], s)
partial_fixpoint
end

/-! ## Well-formed expressions -/

/-- Words that cannot be identifiers. -/
def reserved : List Str :=
  [['t', 'r', 'u', 'e'], ['f', 'a', 'l', 's', 'e'], ['R', 'N', 'E'], ['R', 'N', 'A'], ['R', 'T', 'P'], ['R', 'T', 'N'],
   ['R', 'T', 'Z'], ['i', 'f'], ['f', 'o', 'r', 'a', 'l', 'l'], ['e', 'x', 'i', 's', 't', 's']]

def IdentOk (v : Str) : Prop :=
  v ≠ [] ∧ (∀ c ∈ v, atomChar c = true ∧ c ≠ '-') ∧ (∀ c ∈ v.head?, c.isDigit = false) ∧ v ∉ reserved

def Digits (v : Str) : Prop := v ≠ [] ∧ ∀ c ∈ v, c.isDigit = true

mutual
/-- Well-formed expressions. Negations are not subscripted: their operand would be. -/
def WF : Expr → Prop
  | .bin _ l r => WF l ∧ WF r
  | .fn f args => IdentOk f ∧ WFs args
  | .bool _ => True
  | .rmode _ => True
  | .int v => Digits v ∨ ∃ d, v = '-' :: d ∧ Digits d
  | .bv v _ => Digits v
  | .fp _ sig expo _ _ => (∀ c ∈ sig, atomChar c = true) ∧ (∀ c ∈ expo, c.isDigit = true ∨ c = '-')
  | .fpSpecial v _ _ => v ∈ [['N', 'a', 'N'], ['+', 'o', 'o'], ['-', 'o', 'o']]
  | .str v => '"' ∉ v
  | .neg e => WF e
  | .not e => WF e
  | .quant _ vs e => (∀ b ∈ vs, IdentOk b.1 ∧ IdentOk b.2) ∧ WF e
  | .sel b is => WF b ∧ Base b ∧ WFs is
  | .upd b is v => WF b ∧ Base b ∧ WFs is ∧ WF v
  | .var v => IdentOk v
  | .ite c t e => WF c ∧ WF t ∧ WF e
  | .extract v u l => WF v ∧ Base v ∧ WF u ∧ WF l
  | .concat l r => WF l ∧ WF r

def WFs : List Expr → Prop
  | [] => True
  | e :: es => WF e ∧ WFs es

/-- Expressions that can be subscripted. -/
def Base : Expr → Prop
  | .neg _ | .not _ | .str _ => False
  | _ => True
end

/-! ## Templates -/

/-- A template is a sequence of characters and holes; a hole may carry a format character. -/
inductive Tok where
  | ch (c : Char)
  | hole (fmt : Option Char)
deriving DecidableEq

def isFmt (c : Char) : Bool := ['c', 'b', 'B', 'f', 'h', 'H', 'i', 'I'].contains c

def tokenize : Str → List Tok
  | [] => []
  | '@' :: c :: r => if isFmt c then .hole (some c) :: tokenize r else .hole none :: tokenize (c :: r)
  | c :: r => if c = '@' then .hole none :: tokenize r else .ch c :: tokenize r

/-- The k-th hole is replaced by the k-th text; holes without text are left as they are. -/
def render : List Tok → List Str → Str
  | [], _ => []
  | .ch c :: ts, as => c :: render ts as
  | .hole _ :: ts, a :: as => a ++ render ts as
  | .hole none :: ts, [] => '@' :: render ts []
  | .hole (some c) :: ts, [] => '@' :: c :: render ts []

/-- The LLVM type that a format character asks for (share/smack/include/smack.h: `@c`, `@h`, `@i`, `@f`, `@b`, `@H`, `@I`). -/
def wanted (c : Char) : Option Ty :=
  if c = 'c' ∨ c = 'b' ∨ c = 'B' then some .i8
  else if c = 'h' ∨ c = 'H' then some .i16
  else if c = 'i' ∨ c = 'I' then some .i32
  else if c = 'f' then some .float
  else none

/-- `t` is what argument `a` contributes to a hole with the given format: without format its own text; with a format its own
text if its type is the wanted one, and otherwise the text of the cast operand that has the wanted type. -/
def Fits (f : Option Char) (a : Arg) (t : Str) : Prop :=
  match f.bind wanted with
  | none => t = a.text
  | some ty => (a.ty = ty ∧ t = a.text) ∨ (a.ty ≠ ty ∧ a.inner = some (ty, t))

/-- The k-th text is what the k-th argument contributes to the k-th hole. -/
def FitsAll : List (Option Char) → List Arg → List Str → Prop
  | _, [], ts => ts = []
  | f :: fs, a :: as, t :: ts => Fits f a t ∧ FitsAll fs as ts
  | _, _ :: _, _ => False

def holes : List Tok → List (Option Char)
  | [] => []
  | .ch _ :: ts => holes ts
  | .hole f :: ts => f :: holes ts

end Smack.Printer.Spec
