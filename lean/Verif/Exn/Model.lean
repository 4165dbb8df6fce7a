/-
Exceptions across calls. The generated program keeps an exception in two global variables, `$exn` (one is being thrown) and `$exnv` (its
value):

  return      $exn := false; return;                        SmackInstGenerator.cpp:240-248 `visitReturnInst`
  resume v    $exn := true; $exnv := v; return;             SmackInstGenerator.cpp:322-327 `visitResumeInst`
  invoke f    call x := f(…); goto normal if !$exn, unwind if $exn   SmackInstGenerator.cpp:305-320 `visitInvokeInst`
  call f      call x := f(…);                               SmackInstGenerator.cpp:633-815 `visitCallInst`
  landingpad  x := $exnv; and $exn := false if it is a cleanup   SmackInstGenerator.cpp:867-874 `visitLandingPadInst`

The terminators are those of `Cfg.translate`, and calls of functions with definition are those of `E2EMod`. A function without definition
becomes a procedure without body, which does not change `$exn`. The clauses of a landing pad are ignored by the code and here.
-/
import Verif.E2EMod.Model

namespace Smack.Exn

open Smack.Cfg Smack.Cfg.Spec Smack.E2EMod

/-- Memory and the variables `$exn` and `$exnv`. -/
structure Flags (V M : Type) where
  mem : M
  exn : Bool
  val : V

/-- Which operations are landing pads, and whether they are cleanups (`isCleanup`). -/
abbrev Pads := Nat → Option Bool

/-- What the generated code does: landing pads (SmackInstGenerator.cpp:867-874) and all other operations, which do not use the two
variables. -/
def flags {V M : Type} (one : V) (pad : Pads) (leaf : Nat → List V → M → Option (V × M) → Prop) : Params V (Flags V M) where
  one := one
  exn := fun s => s.exn
  setExn := fun b s => { s with exn := b }
  setExnVal := fun v s => { s with val := v }
  sem := fun op args s r => match pad op with
    | some cleanup => r = some (s.val, { s with exn := if cleanup then false else s.exn })
    | none => match r with
      | none => leaf op args s.mem none
      | some (v, s') => leaf op args s.mem (some (v, s'.mem)) ∧ s'.exn = s.exn ∧ s'.val = s.val

end Smack.Exn
