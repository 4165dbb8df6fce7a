/-
LLVM's semantics of exceptions (LangRef: `invoke`, `resume`, `landingpad`): an exception thrown in a call leaves the function that called
unless the call is an invoke; then it continues at the unwind destination, whose landing pad receives the exception.
-/
import Verif.Exn.Model
import Verif.E2EMod.Spec

namespace Smack.Exn

open Smack.Cfg Smack.Cfg.Spec Smack.E2EMod

/-- How a function ends. -/
inductive UOut (V M : Type) where
  | ret (v : Option V) (m : M)
  | unwound (x : V) (m : M)
  | fail (op : Nat) (args : List V) (m : M)

/-- The result of an operation. -/
inductive URes (V M : Type) where
  | ok (v : V) (m : M)
  | thrown (x : V) (m : M)
  | fail (op : Nat) (args : List V) (m : M)

/-- The result of the instructions of a block; `thrown` tells whether the instruction that threw was the last one. -/
inductive BRes (V M : Type) where
  | done (ρ : Env V) (m : M)
  | thrown (last : Bool) (ρ : Env V) (x : V) (m : M)
  | fail (op : Nat) (args : List V) (m : M)

section
variable {V M : Type} [DecidableEq V]

/-- The instructions of a block. The result of a call that throws is not used, it is given the value `u`. -/
inductive UBlock (S : Nat → List V → M → URes V M → Prop) (u : V) : List (Instr V) → Env V → M → BRes V M → Prop where
  | nil (ρ m) : UBlock S u [] ρ m (.done ρ m)
  | step (i is ρ m v m' r) : S i.op (i.args.map (eval ρ)) m (.ok v m') → UBlock S u is (setOpt ρ i.dst v) m' r → UBlock S u (i :: is) ρ m r
  | throw (i is ρ m x m') : S i.op (i.args.map (eval ρ)) m (.thrown x m') →
      UBlock S u (i :: is) ρ m (.thrown is.isEmpty (setOpt ρ i.dst u) x m')
  | fail (i is ρ m op l m') : S i.op (i.args.map (eval ρ)) m (.fail op l m') → UBlock S u (i :: is) ρ m (.fail op l m')

/-- A block entered with an exception starts with a landing pad. -/
def start (pad : Pads) (x : Option V) (is : List (Instr V)) (ρ : Env V) : Option (List (Instr V) × Env V) :=
  match x, is with
  | none, is => some (is, ρ)
  | some v, i :: is => if (pad i.op).isSome then some (is, setOpt ρ i.dst v) else none
  | some _, [] => none

/-- The next block if no exception is thrown. -/
def target (one : V) (ρ : Env V) : Term V → Option Nat
  | .br t => some t
  | .cbr c t f => some (if eval ρ c = one then t else f)
  | .invoke n _ => some n
  | _ => none

/-- Executions of a function from block `b`, entered with the exception `x` if there is one. -/
inductive URun (S : Nat → List V → M → URes V M → Prop) (one u : V) (pad : Pads) (fn : Fn V) :
    Nat → Env V → M → Option V → UOut V M → Prop where
  | fail (b blk ρ m x is ρ₀ op l m') : fn[b]? = some blk → start pad x blk.body ρ = some (is, ρ₀) → UBlock S u is ρ₀ m (.fail op l m') →
      URun S one u pad fn b ρ m x (.fail op l m')
  | ret (b blk ρ m x is ρ₀ ρ₁ m₁ v) : fn[b]? = some blk → start pad x blk.body ρ = some (is, ρ₀) → UBlock S u is ρ₀ m (.done ρ₁ m₁) →
      blk.term = .ret v → URun S one u pad fn b ρ m x (.ret (v.map (eval ρ₁)) m₁)
  | resume (b blk ρ m x is ρ₀ ρ₁ m₁ v) : fn[b]? = some blk → start pad x blk.body ρ = some (is, ρ₀) → UBlock S u is ρ₀ m (.done ρ₁ m₁) →
      blk.term = .resume v → URun S one u pad fn b ρ m x (.unwound (eval ρ₁ v) m₁)
  | out (b blk ρ m x is ρ₀ last ρ₁ y m₁) : fn[b]? = some blk → start pad x blk.body ρ = some (is, ρ₀) →
      UBlock S u is ρ₀ m (.thrown last ρ₁ y m₁) → ¬ (last = true ∧ ∃ n w, blk.term = .invoke n w) →
      URun S one u pad fn b ρ m x (.unwound y m₁)
  | goto (b blk ρ m x is ρ₀ ρ₁ m₁ t blk' o) : fn[b]? = some blk → start pad x blk.body ρ = some (is, ρ₀) →
      UBlock S u is ρ₀ m (.done ρ₁ m₁) → target one ρ₁ blk.term = some t → fn[t]? = some blk' →
      URun S one u pad fn t (enter ρ₁ b blk'.phis) m₁ none o → URun S one u pad fn b ρ m x o
  | land (b blk ρ m x is ρ₀ ρ₁ y m₁ n w blk' o) : fn[b]? = some blk → start pad x blk.body ρ = some (is, ρ₀) →
      UBlock S u is ρ₀ m (.thrown true ρ₁ y m₁) → blk.term = .invoke n w → fn[w]? = some blk' →
      URun S one u pad fn w (enter ρ₁ b blk'.phis) m₁ (some y) o → URun S one u pad fn b ρ m x o

/-- An operation that is not a call of a function with definition; `throws` says which exceptions it throws. -/
def leafRes (leaf : Nat → List V → M → Option (V × M) → Prop) (throws : Nat → List V → M → V → M → Prop) (op : Nat) (l : List V) (m : M) :
    URes V M → Prop
  | .ok v m' => leaf op l m (some (v, m'))
  | .thrown x m' => throws op l m x m'
  | .fail op' l' m' => op' = op ∧ l' = l ∧ m' = m ∧ leaf op l m none

/-- The result of a call. -/
def callRes (u : V) : UOut V M → URes V M
  | .ret v m => .ok (v.getD u) m
  | .unwound x m => .thrown x m
  | .fail op l m => .fail op l m

/-- The operations and the calls, with at most `n` active calls. -/
def ucalls (C : Calls V) (ok : Nat → Env V → Prop) (one u : V) (pad : Pads) (leaf : Nat → List V → M → Option (V × M) → Prop)
    (throws : Nat → List V → M → V → M → Prop) : Nat → Nat → List V → M → URes V M → Prop
  | 0 => fun op l m r => C.callee op = none ∧ pad op = none ∧ leafRes leaf throws op l m r
  | n + 1 => fun op l m r => match C.callee op with
    | none => pad op = none ∧ leafRes leaf throws op l m r
    | some g => ∃ ρ d o, Enter C ok g ρ l ∧ C.funcs[g]? = some d ∧
        URun (ucalls C ok one u pad leaf throws n) one u pad d.body 0 ρ m none o ∧ r = callRes u o

/-- The executions of the function `g` with at most `n` active calls. -/
def UExec (C : Calls V) (ok : Nat → Env V → Prop) (one u : V) (pad : Pads) (leaf : Nat → List V → M → Option (V × M) → Prop)
    (throws : Nat → List V → M → V → M → Prop) (n g : Nat) (ρ : Env V) (m : M) (o : UOut V M) : Prop :=
  ∃ d, C.funcs[g]? = some d ∧ URun (ucalls C ok one u pad leaf throws n) one u pad d.body 0 ρ m none o

/-! ## Programs -/

/-- The block is the unwind destination of an invoke. -/
def Dest (fn : Fn V) (w : Nat) : Prop := ∃ (b : Nat) (blk : Block V) (n : Nat), fn[b]? = some blk ∧ blk.term = .invoke n w

/-- What LLVM requires of a function: unwind destinations start with a landing pad, there are no others, and they are reached only by unwinding;
and what is required besides: invokes and calls are as described at `ProgOk`. -/
structure DefOk (C : Calls V) (pad : Pads) (calm : Nat → Prop) (d : FnDef V) : Prop where
  ssa : Ssa d.body
  plain : Plain d.body
  loops : LoopsComplete d.body d.loops
  landing : ∀ (b : Nat) blk, d.body[b]? = some blk → Dest d.body b → ∃ i is, blk.body = i :: is ∧ (pad i.op).isSome ∧ ∀ j ∈ is, pad j.op = none
  other : ∀ (b : Nat) blk, d.body[b]? = some blk → ¬ Dest d.body b → ∀ j ∈ blk.body, pad j.op = none
  reached : ∀ (b : Nat) blk t, d.body[b]? = some blk → t ∈ blk.term.succs → Dest d.body t → ∃ n, blk.term = .invoke n t
  invoke : ∀ (b : Nat) blk n w, d.body[b]? = some blk → blk.term = .invoke n w → ∃ pre i g, blk.body = pre ++ [i] ∧ C.callee i.op = some g
  call : ∀ (b : Nat) blk pre i post g, d.body[b]? = some blk → blk.body = pre ++ i :: post → C.callee i.op = some g →
    calm g ∨ (post = [] ∧ ∃ n w, blk.term = .invoke n w)

/-- Invokes call functions with definition. A plain call calls a function of the set `calm`, which have no `resume` instruction. -/
structure ProgOk (C : Calls V) (pad : Pads) (calm : Nat → Prop) : Prop where
  defs : ∀ (g : Nat) d, C.funcs[g]? = some d → DefOk C pad calm d
  pads : ∀ op g, C.callee op = some g → pad op = none
  calm : ∀ (g : Nat) d, C.funcs[g]? = some d → calm g → ∀ (b : Nat) blk v, d.body[b]? = some blk → blk.term ≠ .resume v

/-- The generated procedure ends in the same way: `$exn` tells whether an exception was thrown, `$exnv` is the exception. -/
inductive OutRel : UOut V M → Outcome V (Flags V M) → Prop where
  | ret (v m x) : OutRel (.ret v m) (.ret v ⟨m, false, x⟩)
  | unwound (x m) : OutRel (.unwound x m) (.ret none ⟨m, true, x⟩)
  | fail (op l m e x) : OutRel (.fail op l m) (.fail op l ⟨m, e, x⟩)

end

end Smack.Exn
