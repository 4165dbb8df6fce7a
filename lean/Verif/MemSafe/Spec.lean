/-
Specification: executions in which an access outside the permitted memory, and a return from an entry point with unreleased memory,
is a failure.
-/
import Verif.MemSafe.Model

namespace Smack.MemSafe.Spec

open Smack.Cfg Smack.Cfg.Spec

variable {M : Type}

/-- The byte ranges `[p, p+n)` an instruction accesses. -/
def footprint : Kind → List Int → List (Int × Int)
  | .load n, [p] => [(p, n)]
  | .store n, [_, p] => [(p, n)]
  | .memset, [d, _, l, _] => [(d, l)]
  | .memTransfer, [d, s, l, _] => [(d, l), (s, l)]
  | .atomic n, p :: _ => [(p, n)]
  | _, _ => []

/-- The instruction has the operands of its kind. -/
def WellFormed (O : Ops) (i : Instr Int) : Prop :=
  i.op ≠ O.check ∧ i.op ≠ O.leak ∧
  match O.kind i.op with
  | .load _ => i.args.length = 1
  | .store _ => i.args.length = 2
  | .memset | .memTransfer => i.args.length = 4
  | .atomic _ => 1 ≤ i.args.length
  | .other => True

/-- The function consists of well-formed instructions. -/
def WfFn (O : Ops) (fn : Fn Int) : Prop := ∀ blk ∈ fn, ∀ i ∈ blk.body, WellFormed O i

/-- The function has no atomic instructions. -/
def NoAtomics (O : Ops) (fn : Fn Int) : Prop := ∀ blk ∈ fn, ∀ i ∈ blk.body, ∀ n, O.kind i.op ≠ .atomic n

/-- The effects of operations. -/
abbrev Sem (M : Type) := Nat → List Int → M → Option (Int × M) → Prop

/-- The meaning of memory safety: which ranges may be accessed in a memory, and which memories may remain at the end. -/
structure Safety (M : Type) where
  ok : M → Int → Int → Prop
  noLeak : M → Prop

/-- Some range the operation accesses may not be accessed. -/
def Bad (O : Ops) (S : Safety M) (op : Nat) (args : List Int) (m : M) : Prop :=
  ∃ a ∈ footprint (O.kind op) args, ¬ S.ok m a.1 a.2

/-- The operations, where illegal accesses fail. -/
def guarded (O : Ops) (S : Safety M) (sem : Sem M) : Sem M := fun op args m r =>
  (Bad O S op args m ∧ r = none) ∨ (¬ Bad O S op args m ∧ sem op args m r)

/-- The operations, and the two procedures called by the inserted instructions: an assertion that holds has no effect. -/
def withChecks (O : Ops) (S : Safety M) (sem : Sem M) : Sem M := fun op args m r =>
  if op = O.check then ∃ p n, args = [p, n] ∧ ((S.ok m p n ∧ r = some (0, m)) ∨ (¬ S.ok m p n ∧ r = none))
  else if op = O.leak then (S.noLeak m ∧ r = some (0, m)) ∨ (¬ S.noLeak m ∧ r = none)
  else sem op args m r

/-- How a guarded execution ends. -/
inductive Res (M : Type) where
  | ret (v : Option Int) (m : M)
  | fail
  deriving DecidableEq

def Res.of : Outcome Int M → Res M
  | .ret v m => .ret v m
  | .fail .. => .fail

/-- Executions of a function. If `entry` is true, a return instruction fails in memories that may not remain at the end. -/
inductive GRun (P : Params Int M) (S : Safety M) (entry : Bool) (fn : Fn Int) : Nat → Env Int → M → Res M → Prop where
  | fail (b blk ρ m o) : fn[b]? = some blk → ExecFail P blk.body ρ m o → GRun P S entry fn b ρ m .fail
  | leak (b blk ρ m ρ₁ m₁) : fn[b]? = some blk → Exec P blk.body ρ m ρ₁ m₁ → isRet blk.term = true → entry = true →
      ¬ S.noLeak m₁ → GRun P S entry fn b ρ m .fail
  | leave (b blk ρ m ρ₁ m₁ o) : fn[b]? = some blk → Exec P blk.body ρ m ρ₁ m₁ → leave P ρ₁ m₁ blk.term = some o →
      (entry = true → isRet blk.term = true → S.noLeak m₁) → GRun P S entry fn b ρ m (Res.of o)
  | step (b blk ρ m ρ₁ m₁ t blk' r) : fn[b]? = some blk → Exec P blk.body ρ m ρ₁ m₁ → next P ρ₁ m₁ blk.term = some t →
      fn[t]? = some blk' → GRun P S entry fn t (enter ρ₁ b blk'.phis) m₁ r → GRun P S entry fn b ρ m r

/-! ## Modules -/

/-- The variables at the entry of a function: the parameters have the values of the arguments. (The others are not read in SSA
form.) -/
def bindArgs (params : List Var) (args : List Int) : Env Int := fun x => ((params.zip args).lookup x).getD 0

def Res.result : Res M → Option (Int × M)
  | .ret v m => some (v.getD 0, m)
  | .fail => none

/-- The meaning of operations with calls nested at most `n` deep: `callee` tells the calls of defined functions, `base` the
meaning of the other operations, `run` how a function is executed. -/
def deep (callee : Nat → Option Nat) (base : Sem M) (run : Func → Sem M → List Int → M → Res M → Prop) (mod : List Func) :
    Nat → Sem M
  | 0 => fun op args m r => callee op = none ∧ base op args m r
  | n + 1 => fun op args m r => match callee op with
    | none => base op args m r
    | some f => ∃ F res, mod[f]? = some F ∧ run F (deep callee base run mod n) args m res ∧ r = res.result

/-- Execution of a function of the original module, where illegal accesses fail in the functions that are to be checked and
entry points must not leak. -/
def guardedRun (O : Ops) (opts : Opts) (S : Safety M) (P : Params Int M) (F : Func) (sem : Sem M) (args : List Int) (m : M)
    (r : Res M) : Prop :=
  if instrumented opts F.name then
    GRun { P with sem := guarded O S sem } S (decide (F.name ∈ opts.entryPoints)) F.code 0 (bindArgs F.params args) m r
  else GRun { P with sem := sem } S false F.code 0 (bindArgs F.params args) m r

/-- Execution of a function of the module after the pass. -/
def plainRun (O : Ops) (S : Safety M) (P : Params Int M) (F : Func) (sem : Sem M) (args : List Int) (m : M) (r : Res M) : Prop :=
  ∃ o, Run { P with sem := withChecks O S sem } F.code 0 (bindArgs F.params args) m o ∧ r = Res.of o

end Smack.MemSafe.Spec
