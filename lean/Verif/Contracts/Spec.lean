/-
Specification of C80: executions of functions with contract calls, and the value of a contract expression. The meaning of instructions and
conditions is arbitrary.
-/
import Verif.Contracts.Model

namespace Smack.Contracts.Spec

open Smack.Contracts

/-- The meaning of instructions and of Boolean values, over states `S` (registers and memory). -/
structure Interp (S : Type) where
  step : Nat → S → S
  test : Nat → S → Bool

variable {S : Type} (I : Interp S)

/-- Contract calls do nothing. -/
def exec : List Instr → S → S
  | [], s => s
  | .op i :: r, s => exec r (I.step i s)
  | .contract _ _ :: r, s => exec r s

/-- The contract calls of a block, with the values of their arguments. -/
def trace : List Instr → S → List (Kind × Bool)
  | [], _ => []
  | .op i :: r, s => trace r (I.step i s)
  | .contract k a :: r, s => (k, I.test a s) :: trace r s

/-- The next block. -/
def next : Term → S → Option Name
  | .br b, _ => some b
  | .cond c t f, s => some (if I.test c s then t else f)
  | .ret, _ => none

def find (F : List Block) (n : Name) : Option Block := F.find? fun b => decide (b.name = n)

/-- The function, entered at a block in a state, makes the given contract calls and returns in the given state. -/
inductive Result (F : List Block) : Name → S → List (Kind × Bool) → S → Prop
  | ret {b B s} : find F b = some B → next I B.term (exec I B.instrs s) = none →
      Result F b s (trace I B.instrs s) (exec I B.instrs s)
  | go {b B s b' tr s'} : find F b = some B → next I B.term (exec I B.instrs s) = some b' → Result F b' (exec I B.instrs s) tr s' →
      Result F b s (trace I B.instrs s ++ tr) s'

/-! ### Contract expressions -/

def efind (G : List EBlock) (n : Name) : Option EBlock := G.find? fun b => decide (b.name = n)

/-- The value of a contract expression; a branch out of it returns true (the exit blocks of the extracted region return, and
`setReturnToArgumentValue` makes that `return true`). -/
inductive Eval (G : List EBlock) : Name → S → Bool → Prop
  | out {b s} : efind G b = none → Eval G b s true
  | retTrue {b B s} : efind G b = some B → B.term = .retTrue → Eval G b s true
  | retArg {b B s a} : efind G b = some B → B.term = .retArg a → Eval G b s (I.test a (exec I B.instrs s))
  | br {b B s b' v} : efind G b = some B → B.term = .br b' → Eval G b' (exec I B.instrs s) v → Eval G b s v
  | cond {b B s c t f v} : efind G b = some B → B.term = .cond c t f →
      Eval G (if I.test c (exec I B.instrs s) then t else f) (exec I B.instrs s) v → Eval G b s v

/-- The region, entered at `b`, comes to the beginning of block `c` through blocks other than `ii`. -/
inductive Path (R : List Block) (ii : Name) : Name → S → Name → S → Prop
  | refl (b s) : Path R ii b s b s
  | step {b B s b' c s'} : find R b = some B → b ≠ ii → next I B.term (exec I B.instrs s) = some b' →
      Path R ii b' (exec I B.instrs s) c s' → Path R ii b s c s'

/-- What the value of the contract expression for the invocation in `ii` should be: the value of the argument when the invocation is first
reached, true if the region is left without reaching it. -/
def ExprValue (R : List Block) (ii e : Name) (s : S) (v : Bool) : Prop :=
  (∃ s1 B x k a, Path I R ii e s ii s1 ∧ find R ii = some B ∧ B.instrs = x ++ [.contract k a] ∧ v = I.test a (exec I x s1)) ∨
  (v = true ∧ ∃ b s1, Path I R ii e s b s1 ∧ b ≠ ii ∧ (find R b = none ∨ ∃ B, find R b = some B ∧ B.term = .ret))

/-! ### The function after the extraction -/

inductive Vals (R : List Block) (e : Name) (s : S) : List (Kind × Name) → List (Kind × Bool) → Prop
  | nil : Vals R e s [] []
  | cons {k n cs v vs} : Eval I (exprFn R n) e s v → Vals R e s cs vs → Vals R e s ((k, n) :: cs) ((k, v) :: vs)

def XBlock.nm : XBlock → Name
  | .clauses n _ _ => n
  | .block b => b.name

def xfind (X : List XBlock) (n : Name) : Option XBlock := X.find? fun b => decide (XBlock.nm b = n)

inductive XResult (R : List Block) (X : List XBlock) : Name → S → List (Kind × Bool) → S → Prop
  | clauses {b n cs nxt s vs tr s'} : xfind X b = some (.clauses n cs nxt) → Vals I R b s cs vs → XResult R X nxt s tr s' →
      XResult R X b s (vs ++ tr) s'
  | ret {b B s} : xfind X b = some (.block B) → next I B.term (exec I B.instrs s) = none →
      XResult R X b s (trace I B.instrs s) (exec I B.instrs s)
  | go {b B s b' tr s'} : xfind X b = some (.block B) → next I B.term (exec I B.instrs s) = some b' →
      XResult R X b' (exec I B.instrs s) tr s' → XResult R X b s (trace I B.instrs s ++ tr) s'

/-- The statements of a loop header, from a state to a state, with the values of the assertions; `e` is the first block of the region. -/
inductive HRun (R : List Block) (e : Name) : List HStmt → S → List (Name × Bool) → S → Prop
  | nil {s} : HRun R e [] s [] s
  | assert {n l s v vs s'} : Eval I (exprFn R n) e s v → HRun R e l s vs s' → HRun R e (.assert n :: l) s ((n, v) :: vs) s'
  | instr {i l s vs s'} : HRun R e l (exec I [i] s) vs s' → HRun R e (.instr i :: l) s vs s'

/-! ### Assumptions -/

/-- The blocks of the input are named `(n, 0)`, with different `n`. -/
def Fresh (F : List Block) : Prop := (F.map (·.name)).Nodup ∧ ∀ b ∈ F, b.name.2 = 0

/-- Every block has at most one contract call, which comes last. -/
def Ready (R : List Block) : Prop :=
  ∀ b ∈ R, (∀ k a, Instr.contract k a ∉ b.instrs) ∨
    ∃ x k a, b.instrs = x ++ [.contract k a] ∧ ∀ k' a', Instr.contract k' a' ∉ x

/-- The region can be extracted with one exit: it is entered only at `e`, never returns, and is left only to `nxt`. -/
structure Extractable (F R : List Block) (e nxt : Name) : Prop where
  sub : List.Sublist R F
  entry : ∃ B R', R = B :: R' ∧ B.name = e
  noRet : ∀ B ∈ R, B.term ≠ .ret
  exit : ∀ B ∈ R, ∀ s : S, ∀ b, next I B.term s = some b → b = nxt ∨ ∃ B' ∈ R, B'.name = b
  outside : ∀ B ∈ R, B.name ≠ nxt
  single : ∀ B ∈ F, B ∉ R → ∀ s : S, ∀ b, next I B.term s = some b → b = e ∨ ∀ B' ∈ R, B'.name ≠ b

def AllTrue (tr : List (Kind × Bool)) : Prop := ∀ c ∈ tr, c.2 = true

end Smack.Contracts.Spec
