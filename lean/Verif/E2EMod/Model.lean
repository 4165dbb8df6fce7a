/-
Programs whose functions call each other: the generated Boogie procedures. A call of a function with a definition becomes a call of the
procedure of the same name (SmackInstGenerator.cpp:633-815 `visitCallInst`, SmackRep.cpp:1100-1122 `call`):

  call x := f(a, …);

The parameters of the procedure are those of the function (SmackRep.cpp:1015-1094 `procedure`, C68), its body is the translation of the body
(`Cfg.translate`), its other local variables start with any values of their types, and the memory variables are global. Boogie's calls are
executions of the body of the procedure called (bodies, not specifications, are what the verifiers used by SMACK look at: inlining).

Not modelled: indirect calls (C40), functions without definition, variable numbers of arguments (C68), exceptions (C28) and the frame
of stack memory.
-/
import Verif.Cfg.Spec
import Verif.Cfg.Model
import Verif.E2E.Model

namespace Smack.E2EMod

open Smack.Cfg Smack.Cfg.Spec

section
variable {V M : Type} [DecidableEq V]

/-- A function definition. -/
structure FnDef (V : Type) where
  params : List Var
  body : Fn V
  /-- found by LoopInfo -/
  loops : List Loop

/-- Which operations are calls and of which functions; the definitions. -/
structure Calls (V : Type) where
  callee : Nat → Option Nat
  funcs : List (FnDef V)

/-- The code of a procedure. -/
def procCode (d : FnDef V) : Gen V := translate (normalize d.loops d.body)

/-- The functions with the constants among their operands replaced by the values of their terms. -/
def mapCalls {W : Type} (k : V → W) (C : Calls V) : Calls W := ⟨C.callee, C.funcs.map fun d => ⟨d.params, E2E.mapFn k d.body, d.loops⟩⟩

/-- What a call of a procedure gives: the value of the variable `$r`, if it has one, and the memory. `u` stands for the value of a call
without result. -/
def returned (u : V) : Outcome V M → Option (V × M)
  | .ret (some v) m => some (v, m)
  | .ret none m => some (u, m)
  | .fail _ _ _ => none

/-- Local variables at the start of the procedure `g` on these arguments. `ok g` says that the variables have their types. -/
def BEnter (C : Calls V) (ok : Nat → Env V → Prop) (g : Nat) (σ : Env V) (args : List V) : Prop :=
  ∃ d, C.funcs[g]? = some d ∧ ok g σ ∧ d.params.map σ = args

/-- The operations of the procedures, where at most `n` calls are active at the same time. -/
def bcalls (C : Calls V) (ok : Nat → Env V → Prop) (u : V) (code : FnDef V → Gen V) (P : Params V M) : Nat → Params V M
  | 0 => { P with sem := fun op args m r => C.callee op = none ∧ P.sem op args m r }
  | n + 1 => { P with
      sem := fun op args m r => match C.callee op with
        | none => P.sem op args m r
        | some g => ∃ d σ k o, C.funcs[g]? = some d ∧ BEnter C ok g σ args ∧
            BRun (bcalls C ok u code P n) (code d) k (code d (.real 0)) ⟨σ, m, none⟩ o ∧ r = returned u o }

/-- The executions of the procedure `g` with at most `n` active calls. A failure inside a call is one of the whole execution. -/
inductive BExec (C : Calls V) (ok : Nat → Env V → Prop) (u : V) (code : FnDef V → Gen V) (P : Params V M) :
    Nat → Nat → Env V → M → Outcome V M → Prop where
  | ret (n g d σ m k v m') : C.funcs[g]? = some d →
      BRun (bcalls C ok u code P n) (code d) k (code d (.real 0)) ⟨σ, m, none⟩ (.ret v m') → BExec C ok u code P n g σ m (.ret v m')
  | here (n g d σ m k op l m') : C.funcs[g]? = some d →
      BRun (bcalls C ok u code P n) (code d) k (code d (.real 0)) ⟨σ, m, none⟩ (.fail op l m') → C.callee op = none →
      BExec C ok u code P n g σ m (.fail op l m')
  | inside (n g d σ m k op l m' h σ' op' l' m'') : C.funcs[g]? = some d →
      BRun (bcalls C ok u code P (n + 1)) (code d) k (code d (.real 0)) ⟨σ, m, none⟩ (.fail op l m') → C.callee op = some h →
      BEnter C ok h σ' l → BExec C ok u code P n h σ' m' (.fail op' l' m'') → BExec C ok u code P (n + 1) g σ m (.fail op' l' m'')
end

end Smack.E2EMod
