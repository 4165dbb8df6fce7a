/-
What Boogie requires of calls, and what LLVM guarantees of modules.
-/
import Verif.Calls.Model

namespace Smack.Calls

open Smack.Naming (Str)

/-- A value that uses the function directly or through values that are not calls. -/
inductive Reached (md : Module) (f : Nat) : Nat → Prop where
  | self : Reached md f f
  | step (u v : Nat) : Reached md f u → md.callAt u = none → v ∈ md.users u → Reached md f v

/-- The call instruction is a call of `__SMACK_return_value`. -/
def IsReturnValue (md : Module) (s : Site) : Prop := s.direct = true ∧ ∃ g, md.funcs[s.callee]? = some g ∧ g.returnValue = true

/-- What holds of the values of an LLVM module. -/
structure Wf (md : Module) : Prop where
  bound : ∀ u < md.size, ∀ v ∈ md.users u, v < md.size
  funcs : md.funcs.length ≤ md.size
  notCall : ∀ k < md.funcs.length, md.callAt k = none
  site : ∀ u c, md.callAt u = some c → ∃ s, md.sites[c]? = some s ∧ s.invoke = false
  /-- a call of `__SMACK_return_value` has no arguments, so that function is its only operand -/
  returnValue : ∀ (k : Nat) f u c s, md.funcs[k]? = some f → Reached md k u → md.callAt u = some c → md.sites[c]? = some s →
    IsReturnValue md s → f.returnValue = true

/-- The call matches the type of the function, as LLVM requires of a call without cast. -/
structure SiteOk (s : Site) (f : Func) : Prop where
  fixed : f.params.map (·.2) <+: s.args
  arity : f.varArg = false → s.args.length = f.params.length
  ret : s.ret = f.ret

/-- The names of the functions are distinct, and none extends the name of a variadic function by a dot. -/
structure NamesOk (md : Module) : Prop where
  distinct : ∀ (j k : Nat) f g, md.funcs[j]? = some f → md.funcs[k]? = some g → f.name = g.name → j = k
  noExtension : ∀ (j k : Nat) f g, md.funcs[j]? = some f → md.funcs[k]? = some g → f.varArg = true → ¬ f.name ++ ['.'] <+: g.name

/-- `malloc`, `free` and extracted contract expressions have declarations of their own. -/
def Special (f : Func) : Prop := f.name = "malloc".toList ∨ f.name = "free_".toList ∨ "$expr".toList <+: f.name

/-- The call is legal: exactly one procedure has its name, with parameters of the types of the arguments and results of the types of the
variables assigned. -/
def Legal (ds : List Proc) (c : Call) : Prop :=
  ∃ d, (ds.filter fun d => d.name = c.name) = [d] ∧ d.params.map (·.2) = c.args ∧ d.rets = c.rets

end Smack.Calls
