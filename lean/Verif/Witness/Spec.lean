/-
Specification for C85-C87: what Corral reports at a step of a trace, and the graph, the steps and the values that the driver should
make of it.
-/
import Verif.Witness.Model
import Verif.Driver.Spec

namespace Smack.Witness.Spec

open Smack.Driver

/-! ## Traces -/

/-- Values in a trace: integers and bit-vectors with their width. -/
inductive Value where
  | int (negative : Bool) (digits : List Char)
  | bv (digits width : List Char)
deriving DecidableEq

def Numeral (d : List Char) : Prop := d ≠ [] ∧ ∀ c ∈ d, isDig c = true

def Value.Wf : Value → Prop
  | .int _ d => Numeral d
  | .bv d w => Numeral d ∧ Numeral w

/-- As Corral prints it. -/
def Value.text : Value → List Char
  | .int n d => (if n then ['-'] else []) ++ d
  | .bv d w => d ++ ['b', 'v'] ++ w

/-- As a C constant. -/
def Value.c : Value → List Char
  | .int n d => (if n then ['-'] else []) ++ d
  | .bv d _ => d ++ ['U', 'L']

/-- What is reported at a step: the call of a function, the return from one, the value of something. -/
inductive Ev where
  | call (f : List Char)
  | ret (f : List Char)
  | value (x : List Char) (v : Value)
  | done
deriving DecidableEq

/-- As Corral prints it. -/
def Ev.text : Ev → List Char
  | .call f => "CALL ".toList ++ f
  | .ret f => "RETURN from ".toList ++ f ++ [' ']
  | .value x v => x ++ " = ".toList ++ v.text
  | .done => "Done".toList

/-- The names for which the driver works as intended. -/
structure Name (x : List Char) : Prop where
  ne : x ≠ []
  blank : ∀ c ∈ x, ¬ Blank c
  comma : ',' ∉ x
  eq : '=' ∉ x
  call : ¬ Occurs "CALL".toList x
  done : ¬ Occurs "Done".toList x
  assertion : ¬ Occurs "ASSERTION".toList x

def Ev.Wf : Ev → Prop
  | .call f => Name f
  | .ret f => Name f
  | .value x v => Name x ∧ v.Wf
  | .done => True

/-- A step: its position, what is reported, and, where the assertion fails, the rest of the remark about it. -/
structure Ln where
  file : List Char
  line : Nat
  column : Nat
  thread : Nat
  fails : Option (List Char)
  evs : List Ev
deriving DecidableEq

structure Ln.Wf (l : Ln) : Prop where
  ne : l.evs ≠ []
  evs : ∀ e ∈ l.evs, e.Wf
  fails : ∀ x, l.fails = some x → '\n' ∉ x

def commas : List (List Char) → List Char
  | [] => []
  | [t] => t
  | t :: ts => t ++ [',', ' '] ++ commas ts

/-- As Corral prints it. -/
def Ln.raw (l : Ln) : Raw :=
  ⟨l.file, l.line, l.column, l.thread,
    (match l.fails with | some x => "ASSERTION FAILS".toList ++ x ++ [';', '\n'] | none => []) ++ commas (l.evs.map Ev.text)⟩

/-- SMACK's own procedures. -/
def Own (f : List Char) : Prop := "$".toList <+: f ∨ "__SMACK".toList <+: f

instance (f : List Char) : Decidable (Own f) := inferInstanceAs (Decidable (_ ∨ _))

/-- What the driver should report. -/
def Ev.shown : Ev → Option (List Char)
  | .call f => if Own f then none else some ("CALL ".toList ++ f)
  | .ret f => if Own f then none else some ("RETURN from ".toList ++ f)
  | .value x v => some (x ++ " = ".toList ++ v.c)
  | .done => none

def Ev.isValue : Ev → Bool
  | .value _ _ => true
  | _ => false

/-- The step that the driver should report: its position, the text, and the text again as an assumption if it is a value. -/
def evStep (l : Ln) (e : Ev) : Option Step :=
  e.shown.map fun t => ⟨l.thread, l.file, l.line, l.column, t, if e.isValue then t else []⟩

/-- What is assumed of the replacement of floating-point constants: it is text of letters and signs as in C constants. -/
def FpOk (fp : List Char → Option (Nat × List Char)) : Prop :=
  ∀ s k r, fp s = some (k, r) → 'N' ∉ r ∧ ∃ c, r.getLast? = some c ∧ c ∉ "ASSERTION".toList

/-! ## Witnesses -/

/-- The start of the names under which the results of `__VERIFIER_nondet…` are reported. -/
def inputName : List Char := "smack:ext:__VERIFIER_nondet".toList

/-- Calls and returns that are not those of a function of the program. -/
def Ignored (f : List Char) : Prop := Own f ∨ "devirtbounce".toList <+: f

/-- The name in C: without what LLVM appends. -/
def Scope (f s : List Char) : Prop := ('.' ∉ f ∧ s = f) ∨ ∃ r, f = s ++ '.' :: r ∧ '.' ∉ s

/-- An input of the program: the line, the function that gave it (without the common start of the name), the value, and the function it
was called in. -/
structure In where
  line : Nat
  fn : List Char
  value : Value
  scope : List Char

/-- The inputs of the program along a trace. The lists of names are the functions that are active, innermost first, before and after. -/
inductive Walks : List (List Char) → List (Nat × Ev) → List (List Char) → List In → Prop where
  | nil (s) : Walks s [] s []
  | done (s l es s' is) : Walks s es s' is → Walks s ((l, .done) :: es) s' is
  | call (s l f es s' is) : ¬ Ignored f → Walks (f :: s) es s' is → Walks s ((l, .call f) :: es) s' is
  | callIgnored (s l f es s' is) : Ignored f → Walks s es s' is → Walks s ((l, .call f) :: es) s' is
  | ret (s l f es s' is) : ¬ Ignored f → Walks s es s' is → Walks (f :: s) ((l, .ret f) :: es) s' is
  | retIgnored (s l f es s' is) : Ignored f → Walks s es s' is → Walks s ((l, .ret f) :: es) s' is
  | value (s l x v es s' is) : ¬ inputName <+: x → Walks s es s' is → Walks s ((l, .value x v) :: es) s' is
  | input (s l f y v sc es s' is) : Scope f sc → Walks (f :: s) es s' is →
      Walks (f :: s) ((l, .value (inputName ++ y) v) :: es) s' (⟨l, y, v, sc⟩ :: is)

/-- The file belongs to SMACK's library. -/
def OfLibrary (file : List Char) : Prop :=
  ∃ a b e, file = a ++ "/smack/lib/".toList ++ b ++ ['.', e] ∧ b ≠ [] ∧ e ∈ ['c', '|', 'h']

/-- What is reported in the files of the program. -/
inductive UserEvs : List Ln → List (Nat × Ev) → Prop where
  | nil : UserEvs [] []
  | lib (l ls es) : OfLibrary l.file → UserEvs ls es → UserEvs (l :: ls) es
  | user (l ls es) : ¬ OfLibrary l.file → UserEvs ls es → UserEvs (l :: ls) (l.evs.map (fun e => (l.line, e)) ++ es)

/-- The edge for an input. -/
def In.edge (i : In) (n : Nat) : Edge :=
  ⟨n, n + 1, i.line, some ⟨"\\result == ".toList ++ i.value.c ++ [';'], "__VERIFIER_nondet".toList ++ i.fn, i.scope⟩⟩

/-- The edges of a path from node `n` on. -/
def pathEdges : Nat → List In → List Edge
  | _, [] => []
  | n, i :: is => i.edge n :: pathEdges (n + 1) is

/-! ## Replay -/

/-- What a line of the verifier's output records for the replay: the entry of the entry point, the value of one of its parameters, the
result of an external function. -/
inductive Rec where
  | entry (f v : List Char)
  | arg (f x v : List Char)
  | ext (f v : List Char)
deriving DecidableEq

def Rec.key : Rec → List Char
  | .entry f _ => "smack:entry:".toList ++ f
  | .arg f x _ => "smack:arg:".toList ++ f ++ [':'] ++ x
  | .ext f _ => "smack:ext:".toList ++ f

def Rec.value : Rec → List Char
  | .entry _ v => v
  | .arg _ _ v => v
  | .ext _ v => v

def Rec.names : Rec → List (List Char)
  | .entry f _ => [f]
  | .arg f x _ => [f, x]
  | .ext f _ => [f]

/-- A line: one record between other text, or a line without records. -/
inductive TLine where
  | record (pre : List Char) (r : Rec) (post : List Char)
  | plain (s : List Char)

def TLine.text : TLine → List Char
  | .record pre r post => pre ++ "(".toList ++ r.key ++ " = ".toList ++ r.value ++ ")".toList ++ post
  | .plain s => s

def TLine.Wf : TLine → Prop
  | .record _ r post => ')' ∉ post ∧ '(' ∉ r.value ∧ '=' ∉ r.value ∧ ∀ n ∈ r.names, ':' ∉ n ∧ '(' ∉ n
  | .plain s => ¬ Occurs "(smack:".toList s

def TLine.rec? : TLine → Option Rec
  | .record _ r _ => some r
  | .plain _ => none

/-- Every recorded parameter follows the entry of its function. -/
def Entered (rs : List Rec) : Prop := ∀ a f x v b, rs = a ++ .arg f x v :: b → ∃ w, Rec.entry f w ∈ a

/-- The results of a function, in order. -/
def results (f : List Char) (rs : List Rec) : List (List Char) :=
  rs.filterMap fun | .ext g v => if g = f then some v else none | _ => none

/-- The value, if it is one of a parameter of `f`. -/
def argOf (f : List Char) : Rec → Option (List Char)
  | .arg g _ v => if g = f then some v else none
  | _ => none

/-- The parameters of a function in its last call. -/
def LastArgs (f : List Char) (rs : List Rec) (vs : List (List Char)) : Prop :=
  ∃ a w b, rs = a ++ .entry f w :: b ∧ (∀ w', Rec.entry f w' ∉ b) ∧
    vs = b.filterMap (argOf f)

end Smack.Witness.Spec
