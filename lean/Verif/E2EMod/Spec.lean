/-
Programs whose functions call each other: the semantics of LLVM. A call executes the function called on the arguments and
continues with its result; a failure ends the whole execution.
-/
import Verif.E2EMod.Model
import Verif.E2EBv.Spec
import Verif.E2E.Spec

namespace Smack.E2EMod

open Smack.Cfg Smack.Cfg.Spec

section
variable {V M : Type} [DecidableEq V]

/-- The result of a call. -/
def result (u : V) : Outcome V M → Option (V × M)
  | .ret v m => some (v.getD u, m)
  | .fail _ _ _ => none

/-- SSA variables at the start of the function `g`: the parameters are the arguments. The others are not used before they are defined, they
have any values of their types (`ok g`). -/
def Enter (C : Calls V) (ok : Nat → Env V → Prop) (g : Nat) (ρ : Env V) (args : List V) : Prop :=
  ok g ρ ∧ ∃ d, C.funcs[g]? = some d ∧ args = d.params.map ρ

/-- The body of `g` has this execution. -/
def Body (C : Calls V) (P : Params V M) (g : Nat) (ρ : Env V) (m : M) (o : Outcome V M) : Prop :=
  ∃ d, C.funcs[g]? = some d ∧ Run P d.body 0 ρ m o

/-- The operations and the calls, with at most `n` active calls. -/
def calls (C : Calls V) (ok : Nat → Env V → Prop) (u : V) (P : Params V M) : Nat → Params V M
  | 0 => { P with sem := fun op args m r => match C.callee op with
      | none => P.sem op args m r
      | some _ => False }
  | n + 1 => { P with sem := fun op args m r => match C.callee op with
      | none => P.sem op args m r
      | some g => ∃ ρ o, Enter C ok g ρ args ∧ Body C (calls C ok u P n) g ρ m o ∧ r = result u o }

/-- The executions of the function `g` with at most `n` active calls. -/
inductive PExec (C : Calls V) (ok : Nat → Env V → Prop) (u : V) (P : Params V M) : Nat → Nat → Env V → M → Outcome V M → Prop where
  | ret (n g ρ m v m') : Body C (calls C ok u P n) g ρ m (.ret v m') → PExec C ok u P n g ρ m (.ret v m')
  | here (n g ρ m op l m') : Body C (calls C ok u P n) g ρ m (.fail op l m') → C.callee op = none → PExec C ok u P n g ρ m (.fail op l m')
  | inside (n g ρ m op l m' h ρ' op' l' m'') : Body C (calls C ok u P (n + 1)) g ρ m (.fail op l m') → C.callee op = some h →
      Enter C ok h ρ' l → PExec C ok u P n h ρ' m' (.fail op' l' m'') → PExec C ok u P (n + 1) g ρ m (.fail op' l' m'')
end

/-- The value of a call without result. -/
def unit : E2E.Word := ⟨0, 0⟩

/-! ## Well-typed programs -/

section
variable {V : Type}

/-- The operands in a block. -/
def operands (blk : Block V) : List (Opd V) :=
  (blk.phis.flatMap fun p => p.inc.map (·.2)) ++ (blk.body.flatMap (·.args)) ++ Term.uses blk.term

/-- A variable is a parameter or has a definition; the entry block has no phi nodes. -/
structure Closed (params : List Var) (fn : Fn V) : Prop where
  opds : ∀ (b : Nat) blk, fn[b]? = some blk → ∀ x, Opd.var x ∈ operands blk → x ∈ params ∨ ∃ d, DefIn fn x d
  entry : ∀ blk, fn[0]? = some blk → blk.phis = []
end

section Bv
open Smack.E2E (Word)
open Smack.E2EBv (Ctx Module InstrOk)

/-! ### With bit-vectors -/

namespace Bv

/-- The widths of the SSA variables of each function and of its result, if it has one. -/
structure Sig where
  ctx : Ctx
  ret : Option Nat

/-- A function is well-typed: as in C67, and a call stores a result only of a function that has one. -/
structure DefOk (md : Module) (C : Calls Word) (sigs : Nat → Sig) (s : Sig) (d : FnDef Word) : Prop where
  ssa : Ssa d.body
  plain : Plain d.body
  loops : LoopsComplete d.body d.loops
  instr : ∀ (b : Nat) blk, d.body[b]? = some blk → ∀ i ∈ blk.body, C.callee i.op = none → InstrOk s.ctx md i
  call : ∀ (b : Nat) blk, d.body[b]? = some blk → ∀ i ∈ blk.body, ∀ f, C.callee i.op = some f →
    ∀ x, i.dst = some x → (sigs f).ret = some (s.ctx x)
  phi : ∀ (b : Nat) blk, d.body[b]? = some blk → ∀ p ∈ blk.phis, ∀ q ∈ p.inc, s.ctx.opd q.2 = s.ctx p.var
  ret : ∀ (b : Nat) blk o, d.body[b]? = some blk → blk.term = .ret o → o.map s.ctx.opd = s.ret
  term : ∀ (b : Nat) blk, d.body[b]? = some blk → (∀ n u, blk.term ≠ .invoke n u) ∧ (∀ v, blk.term ≠ .resume v) ∧
    ∀ c cs d, blk.term ≠ .switch c cs d

/-- A program is well-typed. -/
def ProgOk (md : Module) (C : Calls Word) (sigs : Nat → Sig) : Prop := ∀ (g : Nat) d, C.funcs[g]? = some d → DefOk md C sigs (sigs g) d

/-- The variables of the function `g` have their widths. -/
def Widths (sigs : Nat → Sig) (g : Nat) (ρ : Env Word) : Prop := ∀ x, (ρ x).1 = (sigs g).ctx x

end Bv
end Bv

/-! ### With integers -/

namespace Ints

/-- The widths of the SSA variables of each function and which hold reduced values (C66); the same for its result, if it has one. -/
structure Sig where
  ctx : E2E.Ctx
  ret : Option Nat
  retReduced : Prop

/-- A function is well-typed: as in C66, and the arguments and the result of a call have the types of the function called. With wrapped
integers, a parameter or a result holds reduced values only if all arguments or all values returned are reduced. -/
structure DefOk (enc : IntOps.Enc) (ops : List E2E.Op) (C : Calls E2E.Word) (sigs : Nat → Sig) (s : Sig) (d : FnDef E2E.Word) : Prop where
  ssa : Ssa d.body
  plain : Plain d.body
  loops : LoopsComplete d.body d.loops
  closed : Closed d.params d.body
  nodup : d.params.Nodup
  positive : ∀ x, 1 ≤ s.ctx.width x
  instr : ∀ (b : Nat) blk, d.body[b]? = some blk → ∀ i ∈ blk.body, C.callee i.op = none → E2E.InstrOk enc s.ctx ops i
  args : ∀ (b : Nat) blk, d.body[b]? = some blk → ∀ i ∈ blk.body, ∀ f d', C.callee i.op = some f → C.funcs[f]? = some d' →
    i.args.length = d'.params.length ∧ ∀ (j : Nat) o x, i.args[j]? = some o → d'.params[j]? = some x →
      s.ctx.opdWidth o = (sigs f).ctx.width x ∧ (enc = .wrapped → (sigs f).ctx.reduced x → s.ctx.opdReduced o)
  call : ∀ (b : Nat) blk, d.body[b]? = some blk → ∀ i ∈ blk.body, ∀ f, C.callee i.op = some f →
    ∀ x, i.dst = some x → (sigs f).ret = some (s.ctx.width x) ∧ (enc = .wrapped → s.ctx.reduced x → (sigs f).retReduced)
  phi : ∀ (b : Nat) blk, d.body[b]? = some blk → ∀ p ∈ blk.phis, ∀ q ∈ p.inc, s.ctx.opdWidth q.2 = s.ctx.width p.var ∧
    (enc = .wrapped → s.ctx.reduced p.var → s.ctx.opdReduced q.2)
  cond : ∀ (b : Nat) blk c t f, d.body[b]? = some blk → blk.term = .cbr c t f → s.ctx.opdWidth c = 1
  ret : ∀ (b : Nat) blk o, d.body[b]? = some blk → blk.term = .ret o → o.map s.ctx.opdWidth = s.ret ∧
    (enc = .wrapped → s.retReduced → ∀ o', o = some o' → s.ctx.opdReduced o')
  term : ∀ (b : Nat) blk, d.body[b]? = some blk → (∀ n u, blk.term ≠ .invoke n u) ∧ (∀ v, blk.term ≠ .resume v) ∧
    ∀ c cs d, blk.term ≠ .switch c cs d

/-- A program is well-typed. -/
def ProgOk (enc : IntOps.Enc) (ops : List E2E.Op) (C : Calls E2E.Word) (sigs : Nat → Sig) : Prop :=
  ∀ (g : Nat) d, C.funcs[g]? = some d → DefOk enc ops C sigs (sigs g) d

/-- The variables of the function `g` have their widths. -/
def Widths (sigs : Nat → Sig) (g : Nat) (ρ : Env E2E.Word) : Prop := ∀ x, (ρ x).1 = (sigs g).ctx.width x

/-- The parameters of the function `g` correspond. -/
def ParamsRel (enc : IntOps.Enc) (C : Calls E2E.Word) (sigs : Nat → Sig) (g : Nat) (ρ : Env E2E.Word) (σ : Env Int) : Prop :=
  ∀ d, C.funcs[g]? = some d → ∀ x ∈ d.params,
    E2E.Represents enc (ρ x) (σ x) ∧ (enc = .wrapped → (sigs g).ctx.reduced x → (ρ x).2 = 0 → σ x = 0)

end Ints

end Smack.E2EMod
