/-
Specification: the semantics of LLVM control flow graphs with phi nodes, the semantics of Boogie blocks, dominance, and the
conditions under which a function is in SSA form.
-/
import Verif.Cfg.Model

namespace Smack.Cfg.Spec

open Smack.Cfg

/-- What the abstract operations and the control flow depend on. -/
structure Params (V M : Type) where
  /-- the value 1 of type i1 -/
  one : V
  /-- whether an exception is being thrown -/
  exn : M → Bool
  setExn : Bool → M → M
  setExnVal : V → M → M
  /-- operation, operand values, memory: a value and a new memory, or `none` for a failure -/
  sem : Nat → List V → M → Option (V × M) → Prop

/-- How an execution ends: with a return, or with a failing operation (of which operands and memory are observed). -/
inductive Outcome (V M : Type) where
  | ret (v : Option V) (m : M)
  | fail (op : Nat) (args : List V) (m : M)

variable {V M : Type} [DecidableEq V] (P : Params V M)

abbrev Env (V : Type) := Var → V

def eval (ρ : Env V) : Opd V → V
  | .var x => ρ x
  | .const v => v

def setOpt (ρ : Env V) (d : Option Var) (v : V) : Env V :=
  match d with
  | some x => fun y => if y = x then v else ρ y
  | none => ρ

/-! ## LLVM -/

/-- Execution of the instructions of a block up to its terminator. -/
inductive Exec : List (Instr V) → Env V → M → Env V → M → Prop where
  | nil (ρ m) : Exec [] ρ m ρ m
  | cons (i is ρ m v m' ρ₂ m₂) : P.sem i.op (i.args.map (eval ρ)) m (some (v, m')) → Exec is (setOpt ρ i.dst v) m' ρ₂ m₂ →
      Exec (i :: is) ρ m ρ₂ m₂

/-- The instructions of a block fail. -/
inductive ExecFail : List (Instr V) → Env V → M → Outcome V M → Prop where
  | here (i is ρ m) : P.sem i.op (i.args.map (eval ρ)) m none → ExecFail (i :: is) ρ m (.fail i.op (i.args.map (eval ρ)) m)
  | there (i is ρ m v m' o) : P.sem i.op (i.args.map (eval ρ)) m (some (v, m')) → ExecFail is (setOpt ρ i.dst v) m' o →
      ExecFail (i :: is) ρ m o

/-- The block in which execution continues. -/
def next (ρ : Env V) (m : M) : Term V → Option Nat
  | .br t => some t
  | .cbr c t f => some (if eval ρ c = P.one then t else f)
  | .switch c cs d => some (match cs.find? (fun p => p.1 = eval ρ c) with | some p => p.2 | none => d)
  | .invoke n u => some (if P.exn m then u else n)
  | _ => none

/-- The phi nodes of a block, entered from block `b`: all read the old values. -/
def enter (ρ : Env V) (b : Nat) (phis : List (Phi V)) : Env V := fun x =>
  match phis.find? (fun p => p.var = x) with
  | some p => match p.inc.lookup b with
    | some o => eval ρ o
    | none => ρ x
  | none => ρ x

/-- The outcome of a terminator that leaves the function. -/
def leave (ρ : Env V) (m : M) : Term V → Option (Outcome V M)
  | .ret v => some (.ret (v.map (eval ρ)) (P.setExn false m))
  | .resume v => some (.ret none (P.setExnVal (eval ρ v) (P.setExn true m)))
  | _ => none

/-- Execution of a function from the first instruction of block `b` after its phi nodes. -/
inductive Run (fn : Fn V) : Nat → Env V → M → Outcome V M → Prop where
  | fail (b blk ρ m o) : fn[b]? = some blk → ExecFail P blk.body ρ m o → Run fn b ρ m o
  | leave (b blk ρ m ρ₁ m₁ o) : fn[b]? = some blk → Exec P blk.body ρ m ρ₁ m₁ → leave P ρ₁ m₁ blk.term = some o →
      Run fn b ρ m o
  | step (b blk ρ m ρ₁ m₁ t blk' o) : fn[b]? = some blk → Exec P blk.body ρ m ρ₁ m₁ → next P ρ₁ m₁ blk.term = some t →
      fn[t]? = some blk' → Run fn t (enter ρ₁ b blk'.phis) m₁ o → Run fn b ρ m o

/-! ## Boogie -/

structure St (V M : Type) where
  env : Env V
  mem : M
  ret : Option V

/-- Truth of a condition. -/
def holds (ρ : Env V) (m : M) : Cond V → Bool
  | .isOne c => eval ρ c = P.one
  | .notOne c => !(eval ρ c = P.one : Bool)
  | .eq c v => eval ρ c = v
  | .neq c v => eval ρ c ≠ v
  | .and a b => holds ρ m a && holds ρ m b
  | .exn => P.exn m
  | .notExn => !P.exn m
  | .tt => true
  | .ff => false

/-- A parallel assignment. -/
def parallel (ρ : Env V) (xs : List (Var × Opd V)) : Env V := fun x =>
  match xs.lookup x with
  | some o => eval ρ o
  | none => ρ x

/-- Execution of Boogie statements, `n` counts the statements. An assume whose condition is false has no execution; a parallel
assignment that assigns a variable twice is not a Boogie statement and has none; `goto` chooses one of the blocks. -/
inductive BRun (code : Label → List (Stmt V)) : Nat → List (Stmt V) → St V M → Outcome V M → Prop where
  | assume (n c rest st o) : holds P st.env st.mem c = true → BRun code n rest st o → BRun code (n + 1) (.assume c :: rest) st o
  | assign (n xs rest st o) : (xs.map Prod.fst).Nodup → BRun code n rest { st with env := parallel st.env xs } o →
      BRun code (n + 1) (.assign xs :: rest) st o
  | instr (n i rest st v m' o) : P.sem i.op (i.args.map (eval st.env)) st.mem (some (v, m')) →
      BRun code n rest { st with env := setOpt st.env i.dst v, mem := m' } o → BRun code (n + 1) (.instr i :: rest) st o
  | fail (n i rest st) : P.sem i.op (i.args.map (eval st.env)) st.mem none →
      BRun code n (.instr i :: rest) st (.fail i.op (i.args.map (eval st.env)) st.mem)
  | annot (n c rest st o) : BRun code n rest st o → BRun code (n + 1) (.annot c :: rest) st o
  | goto (n ls rest st l o) : l ∈ ls → BRun code n (code l) st o → BRun code (n + 1) (.goto ls :: rest) st o
  | setRet (n x rest st o) : BRun code n rest { st with ret := some (eval st.env x) } o →
      BRun code (n + 1) (.setRet x :: rest) st o
  | setExn (n b rest st o) : BRun code n rest { st with mem := P.setExn b st.mem } o → BRun code (n + 1) (.setExn b :: rest) st o
  | setExnVal (n x rest st o) : BRun code n rest { st with mem := P.setExnVal (eval st.env x) st.mem } o →
      BRun code (n + 1) (.setExnVal x :: rest) st o
  | return_ (n rest st) : BRun code n (.return_ :: rest) st (.ret st.ret st.mem)

/-! ## SSA form -/

def Edge (fn : Fn V) (b t : Nat) : Prop := ∃ blk, fn[b]? = some blk ∧ t ∈ blk.term.succs

/-- Reachable from the entry block. -/
inductive Reach (fn : Fn V) : Nat → Prop where
  | entry : Reach fn 0
  | step (b t) : Reach fn b → Edge fn b t → Reach fn t

/-- Reachable from the entry block on a path that does not contain block `d`. -/
inductive Avoid (fn : Fn V) (d : Nat) : Nat → Prop where
  | entry : 0 ≠ d → Avoid fn d 0
  | step (b t) : Avoid fn d b → Edge fn b t → t ≠ d → Avoid fn d t

/-- Every path from the entry block to `b` contains `d`. -/
def Dom (fn : Fn V) (d b : Nat) : Prop := ¬ Avoid fn d b

def dsts (is : List (Instr V)) : List Var := is.filterMap (·.dst)

/-- Variable `x` is defined in block `d`. -/
def DefIn (fn : Fn V) (x : Var) (d : Nat) : Prop :=
  ∃ blk, fn[d]? = some blk ∧ (x ∈ blk.phis.map (·.var) ∨ x ∈ dsts blk.body)

/-- The definition of `x`, if any (parameters and globals have none), dominates the point of block `b` before the i-th
instruction. -/
def Avail (fn : Fn V) (b i : Nat) (x : Var) : Prop :=
  ∀ d, DefIn fn x d → (d ≠ b ∧ Dom fn d b) ∨ (d = b ∧ ∃ blk, fn[b]? = some blk ∧
    (x ∈ blk.phis.map (·.var) ∨ x ∈ dsts (blk.body.take i)))

/-- The definition of `x`, if any, dominates the end of block `b`. -/
def AvailEnd (fn : Fn V) (b : Nat) (x : Var) : Prop := ∀ d, DefIn fn x d → Dom fn d b

def OpdIs (p : Var → Prop) : Opd V → Prop
  | .var x => p x
  | .const _ => True

def Term.uses : Term V → List (Opd V)
  | .ret (some v) => [v]
  | .cbr c _ _ => [c]
  | .switch c _ _ => [c]
  | .resume v => [v]
  | _ => []

/-- A function in SSA form, as LLVM's verifier accepts it. -/
structure Ssa (fn : Fn V) : Prop where
  nonempty : 0 < fn.length
  unique : ∀ x d d', DefIn fn x d → DefIn fn x d' → d = d'
  nodup : ∀ (b : Nat) blk, fn[b]? = some blk → (blk.phis.map (·.var) ++ dsts blk.body).Nodup
  body : ∀ (b : Nat) blk (i : Nat) ins, fn[b]? = some blk → blk.body[i]? = some ins → ∀ o ∈ ins.args, OpdIs (Avail fn b i) o
  term : ∀ (b : Nat) blk, fn[b]? = some blk → ∀ o ∈ Term.uses blk.term, OpdIs (AvailEnd fn b) o
  phi : ∀ (b t : Nat) blk, Edge fn b t → fn[t]? = some blk → ∀ p ∈ blk.phis, ∃ o, p.inc.lookup b = some o ∧ OpdIs (AvailEnd fn b) o
  /-- only predecessors have entries -/
  phiPreds : ∀ (t : Nat) blk, fn[t]? = some blk → ∀ p ∈ blk.phis, ∀ q ∈ p.inc, Edge fn q.1 t
  succs : ∀ b t, Edge fn b t → t < fn.length
  entry : ∀ b, ¬ Edge fn b 0

/-- What is required besides SSA form: switches have been lowered, no terminator has the same successor twice, and the destinations
of invokes have no phi nodes. -/
structure Plain (fn : Fn V) : Prop where
  noSwitch : ∀ (b : Nat) blk c cs d, fn[b]? = some blk → blk.term ≠ .switch c cs d
  distinct : ∀ (b : Nat) blk, fn[b]? = some blk → blk.term.succs.Nodup
  invoke : ∀ (b : Nat) blk n u, fn[b]? = some blk → blk.term = .invoke n u → ∀ t ∈ [n, u], ∀ blk', fn[t]? = some blk' → blk'.phis = []

/-- What NormalizeLoops establishes: no block with several successors has an edge back to a block with phi nodes that dominates
it. -/
def Normalised (fn : Fn V) : Prop :=
  ∀ (b : Nat) blk (t : Nat) blk', Reach fn b → fn[b]? = some blk → 1 < blk.term.succs.length → t ∈ blk.term.succs → fn[t]? = some blk' →
    blk'.phis ≠ [] → ¬ Dom fn t b

/-- LoopInfo finds every edge back to a dominating block: there is a loop with the target as header that contains the source. -/
def LoopsComplete (fn : Fn V) (ls : List Loop) : Prop :=
  ∀ b t, Reach fn b → Edge fn b t → Dom fn t b → ∃ l ∈ ls, l.header = t ∧ b ∈ l.blocks

/-- An edge from a block with several successors to a block with phi nodes. -/
def Multi (fn : Fn V) (b t : Nat) : Prop :=
  ∃ blk blk', fn[b]? = some blk ∧ 1 < blk.term.succs.length ∧ t ∈ blk.term.succs ∧ fn[t]? = some blk' ∧ blk'.phis ≠ []

end Smack.Cfg.Spec
