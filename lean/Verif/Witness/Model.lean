/-
Model of what the driver does with an error trace of Corral: the list of steps (share/smack/errtrace.py:6-36, 67-167), the
witness of the competition mode (share/smack/svcomp/toSVCOMPformat.py:68-219), and the values for the replay of a trace
(share/smack/replay.py:67-96, 125-142).

Text is a list of characters, as in `Driver`. The splitting of Corral's output into steps (errtrace.py:126-135, a regular
expression) is not modelled: a step is given by the five parts that the expression names. Line and column numbers are numbers.
-/
import Verif.Driver.Model

namespace Smack.Witness

open Smack.Driver

/-! ## Steps of a trace (errtrace.py) -/

/-- A match of the expression for the steps of Corral (errtrace.py:128-140). -/
structure Raw where
  file : List Char
  line : Nat
  column : Nat
  thread : Nat
  description : List Char
deriving DecidableEq, Repr

def remark : List Char := "ASSERTION FAILS".toList

/-- `ASSERTION FAILS.*;\n` at the start of a text: what follows it. -/
def remarkHere (s : List Char) : Option (List Char) :=
  match dropPrefix? remark s with
  | none => none
  | some r =>
    match r.dropWhile (· != '\n') with
    | _ :: rest => if (r.takeWhile (· != '\n')).getLast? == some ';' then some rest else none
    | [] => none

/-- `re.sub('ASSERTION FAILS.*;\n', '', description)` (errtrace.py:142). The number counts the characters of a match that are still
to be skipped. -/
def subRemark : Nat → List Char → List Char
  | _, [] => []
  | k + 1, _ :: s => subRemark k s
  | 0, c :: s =>
    match remarkHere (c :: s) with
    | some rest => subRemark (s.length - rest.length) s
    | none => c :: subRemark 0 s

/-- `(CALL|RETURN from)\s+(\$|__SMACK)` at the start of a text. -/
def internalHere (s : List Char) : Bool :=
  match dropPrefix? "CALL".toList s, dropPrefix? "RETURN from".toList s with
  | some r, _ | none, some r =>
    match r with
    | c :: r' => isWs c && ((dropPrefix? "$".toList (r'.dropWhile isWs)).isSome || (dropPrefix? "__SMACK".toList (r'.dropWhile isWs)).isSome)
    | [] => false
  | none, none => false

def internal : List Char → Bool
  | [] => false
  | c :: s => internalHere (c :: s) || internal s

/-- The tokens of a description that are left out (errtrace.py:152-155). -/
def skipped (t : List Char) : Bool := internal t || hasSub "Done".toList t || hasSub "ASSERTION".toList t

/-- `(\d+)bv\d+` at the start of a text: the number and what follows the match. -/
def bvHere (s : List Char) : Option (List Char × List Char) :=
  match s.takeWhile isDig, dropPrefix? "bv".toList (s.dropWhile isDig) with
  | d :: ds, some r => if (r.takeWhile isDig).isEmpty then none else some (d :: ds, r.dropWhile isDig)
  | _, _ => none

/-- The substitution in `reformat_assignment` (errtrace.py:9-36). `fp` says how a floating-point constant at the start of a text is
replaced: the number of its further characters and the new text (27-36 matches only texts that start with `0x` or `-0x`). -/
def reformatFrom (fp : List Char → Option (Nat × List Char)) : Nat → List Char → List Char
  | _, [] => []
  | k + 1, _ :: s => reformatFrom fp k s
  | 0, c :: s =>
    match bvHere (c :: s) with
    | some (n, rest) => n ++ "UL".toList ++ reformatFrom fp (s.length - rest.length) s
    | none =>
      if (dropPrefix? "0x".toList (c :: s)).isSome || (dropPrefix? "-0x".toList (c :: s)).isSome then
        match fp (c :: s) with
        | some (k, r) => r ++ reformatFrom fp k s
        | none => c :: reformatFrom fp 0 s
      else c :: reformatFrom fp 0 s

/-- `reformat_assignment` (errtrace.py:6-36). -/
def reformat (fp : List Char → Option (Nat × List Char)) (s : List Char) : List Char := reformatFrom fp 0 (strip s)

/-- One step of Corral (errtrace.py:136-163). -/
def entries (fp : List Char → Option (Nat × List Char)) (r : Raw) : List Step :=
  let d := if hasSub remark r.description then subRemark 0 r.description else r.description
  ((splitOn ',' d).map strip).filterMap fun t =>
    if skipped t then none
    else
      let t := transform (reformat fp) t
      some ⟨r.thread, r.file, r.line, r.column, t, if t.contains '=' then t else []⟩

/-- `traces` of the result with `prettify=False` (errtrace.py:126-163). -/
def traces (fp : List Char → Option (Nat × List Char)) (rs : List Raw) : List Step := rs.flatMap (entries fp)

/-- `failsAt` (errtrace.py:92, 143-147): file, line and column. -/
def failsAt (rs : List Raw) : Option (List Char × Nat × Nat) :=
  rs.foldl (fun acc r => if hasSub remark r.description then some (r.file, r.line, r.column) else acc) none

/-! ## The witness (toSVCOMPformat.py) -/

/-- What an edge says besides its line: assumption, result function and scope. -/
structure Input where
  assumption : List Char
  function : List Char
  scope : List Char
deriving DecidableEq, Repr

/-- An edge; node `n` has the identifier `A<n>`. -/
structure Edge where
  source : Nat
  target : Nat
  line : Nat
  input : Option Input
deriving DecidableEq, Repr

/-- The graph under construction with `nextNum`, `lastNode` and the names on `callStack` (innermost first). -/
structure St where
  nodes : List Nat
  violation : List Nat
  edges : List Edge
  last : Nat
  stack : List (List Char)
deriving DecidableEq, Repr

/-- `.*/smack/lib/.+\.[c|h]$` (toSVCOMPformat.py:158): the file is one of SMACK's library. -/
def inSmackLib (file : List Char) : Bool :=
  match file.reverse with
  | e :: '.' :: x :: rest => (e == 'c' || e == '|' || e == 'h') && hasSub "/smack/lib/".toList ((x :: rest).reverse.dropLast)
  | _ => false

/-- `=(\s*\d+)(bv\d+)` (toSVCOMPformat.py:131-132): `bv` and its width become `U`. -/
def subU : Nat → List Char → List Char
  | _, [] => []
  | k + 1, _ :: s => subU k s
  | 0, c :: s =>
    if c == '=' then
      match bvHere (s.dropWhile isWs) with
      | some (n, rest) => '=' :: (s.takeWhile isWs ++ n ++ "U".toList) ++ subU (s.length - rest.length) s
      | none => c :: subU 0 s
    else c :: subU 0 s

/-- `formatAssign` (toSVCOMPformat.py:126-134). -/
def formatAssign (d : List Char) : List Char :=
  match splitLast '=' (d.takeWhile (· != '\n')) with
  | some (a, b) => subU 0 (a ++ "==".toList ++ b)
  | none => []

/-- The text before and after the first `==`. -/
def cut : List Char → Option (List Char × List Char)
  | [] => none
  | c :: s =>
    match dropPrefix? "==".toList (c :: s) with
    | some r => some ([], r)
    | none => (cut s).map fun p => (c :: p.1, p.2)

/-- `s.split('==')[0]` and `s.split('==')[1]`. -/
def sides (s : List Char) : Option (List Char × List Char) :=
  match cut s with
  | some (a, r) => some (a, match cut r with | some (b, _) => b | none => r)
  | none => none

/-- `isSMACKInitFunc` (toSVCOMPformat.py:136-137). -/
def isInit (f : List Char) : Bool :=
  f == "$initialize".toList || f == "__SMACK_static_init".toList || f == "__SMACK_init_func_memory_model".toList

def startsWith (p s : List Char) : Bool := (dropPrefix? p s).isSome

/-- A new node and the edge to it (toSVCOMPformat.py:74-101). `nextNum` is the number of nodes so far. -/
def addStep (st : St) (line : Nat) (input : Option Input) : St :=
  { st with nodes := st.nodes ++ [st.nodes.length], edges := st.edges ++ [⟨st.last, st.nodes.length, line, input⟩] }

/-- toSVCOMPformat.py:177-197. `none`: an exception. -/
def addInput (st : St) (t : Step) : Option St :=
  let fa := formatAssign t.description
  if startsWith "smack:ext:__VERIFIER_nondet".toList fa then
    match sides fa, st.stack with
    | some (a, b), f :: _ =>
      let scope := if f.contains '.' then f.takeWhile (· != '.') else f
      let st' := addStep st t.line (some ⟨"\\result == ".toList ++ strip b ++ ";".toList, (strip a).drop 10, scope⟩)
      some { st' with last := st.nodes.length }
    | _, _ => none
  else some st

/-- toSVCOMPformat.py:198-216. `none`: an exception. -/
def addCall (st : St) (d : List Char) : Option St :=
  let ret (st : St) : Option St :=
    if hasSub "RETURN from".toList d then
      let f := strip (d.drop 12)
      if startsWith "devirtbounce".toList f || isInit f then some st
      else
        match st.stack with
        | g :: rest => if f == g then some { st with stack := rest } else none
        | [] => none
    else some st
  if hasSub "CALL".toList d then
    let f := strip (d.drop 5)
    if startsWith "devirtbounce".toList f || isInit f then some st
    else ret { st with stack := f :: st.stack }
  else ret st

/-- The loop (toSVCOMPformat.py:163-216). -/
def walk (fail : Option (List Char × Nat × Nat)) : List Step → St → Option St
  | [], st => some st
  | t :: ts, st =>
    if hasSub "ASSERTION FAILS".toList t.description then
      match fail with
      | some (_, line, _) =>
        let st' := addStep st line none
        some { st' with violation := st.violation ++ [st.nodes.length] }
      | none => none
    else if inSmackLib t.file then walk fail ts st
    else
      match addInput st t with
      | some st =>
        match addCall st t.description with
        | some st => walk fail ts st
        | none => none
      | none => none

/-- The entry node and the start of the loop (toSVCOMPformat.py:147, 156-162). -/
def start : St := ⟨[0], [], [], 0, ["main".toList]⟩

/-- `smackJsonToXmlGraph` (toSVCOMPformat.py:141-219) on the result of `json_output(…, prettify=False)` (svcomp/utils.py:171). -/
def witness (fp : List Char → Option (Nat × List Char)) (hasBug pthread : Bool) (rs : List Raw) : Option St :=
  if hasBug && !pthread then walk (failsAt rs) (traces fp rs) start else some start

/-! ## Values for the replay (replay.py) -/

/-- Greedy `(.*) = (.*)\)` at the start of a text. -/
def keyVal : List Char → Option (List Char × List Char)
  | [] => none
  | c :: s =>
    match keyVal s with
    | some (k, v) => some (c :: k, v)
    | none =>
      match dropPrefix? " = ".toList (c :: s) with
      | some y => (splitLast ')' y).map fun p => ([], p.1)
      | none => none

/-- `extract` (replay.py:67-69): `.*\((smack:.*) = (.*)\).*`, all greedy. -/
def extract : List Char → Option (List Char × List Char)
  | [] => none
  | c :: s =>
    match extract s with
    | some x => some x
    | none =>
      if c == '(' then
        match dropPrefix? "smack:".toList s with
        | some r => (keyVal r).map fun p => ("smack:".toList ++ p.1, p.2)
        | none => none
      else none

/-- A dictionary with lists of values. -/
abbrev Dict := List (List Char × List (List Char))

def Dict.set (d : Dict) (k : List Char) (v : List (List Char)) : Dict :=
  if d.any (·.1 == k) then d.map fun p => if p.1 == k then (k, v) else p else d ++ [(k, v)]

structure Values where
  arguments : Dict
  returns : Dict
deriving DecidableEq, Repr

/-- One pair of `extract_values` (replay.py:76-94). `none`: an exception. -/
def addValue (st : Values) (key val : List Char) : Option Values :=
  if hasSub "smack:entry:".toList key then
    match splitOn ':' key with
    | [_, _, fn] => some { st with arguments := st.arguments.set fn [] }
    | _ => none
  else if hasSub "smack:arg:".toList key then
    match splitOn ':' key with
    | [_, _, fn, _] =>
      match st.arguments.lookup fn with
      | some vs => some { st with arguments := st.arguments.set fn (vs ++ [val]) }
      | none => none
    | _ => none
  else if hasSub "smack:ext:".toList key then
    match splitOn ':' key with
    | [_, _, fn] => some { st with returns := st.returns.set fn (((st.returns.lookup fn).getD []) ++ [val]) }
    | _ => none
  else some st

/-- `extract_values` (replay.py:72-96) on the lines of the verifier's output. -/
def extractValues (ls : List (List Char)) : Option Values :=
  (ls.filterMap extract).foldlM (fun st p => addValue st p.1 p.2) ⟨[], []⟩

/-- The stub of a function (replay.py:125-142): the elements of its table, or `none` for a function without result. -/
def stub (st : Values) (fn : List Char) : Option (List (List Char)) := st.returns.lookup fn

/-- The initializer of the table as C text (replay.py:128, 134). -/
def joinComma : List (List Char) → List Char
  | [] => []
  | [x] => x
  | x :: xs => x ++ ", ".toList ++ joinComma xs

/-- What the stub returns for an element (replay.py:128-133): the table and the result have type `int`, so the constant is converted to
32 bits. -/
def stubValue (v : Int) : Int := (BitVec.ofInt 32 v).toInt

end Smack.Witness
