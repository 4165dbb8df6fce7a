/-
The translation of a whole function on integers: the instructions (`IntOps`, `Nondet`), the operands of phi nodes, branches and
returns, and the control flow (`Cfg`), in the two integer encodings.

An instruction is an operation of a table with SSA variables as operands; an arithmetic operation is an expression over the operands,
which also contains the literals printed in a context with signedness flags (SmackRep::bop, cmp). Not modelled: memory, calls other than those of
the verifier functions below, exceptions.
-/
import Verif.Cfg.Spec
import Verif.IntOps.Spec
import Verif.Nondet.Model

namespace Smack.E2E

open Smack.IntOps Smack.Cfg Smack.Cfg.Spec

/-- A machine word with its width. -/
abbrev Word := (w : Nat) × BitVec w

/-- The operations. -/
inductive Op where
  /-- integer instructions -/
  | expr (w : Nat) (e : Expr w)
  /-- `__VERIFIER_assert(x)`, share/smack/lib/smack.c:48-55 -/
  | check (w : Nat)
  /-- `__VERIFIER_assume(x)`, share/smack/lib/smack.c:43-46 -/
  | assume (w : Nat)
  /-- `__VERIFIER_nondet_T()` -/
  | nondet (s : Nondet.Shape)

/-- The value of the term printed for a constant operand of a phi node, branch, return or call: `rep->expr(v)` has the default flags
(SmackRep.h:145, SmackRep.cpp:627-648). With these flags `lit` never fails. -/
def konst (c : Word) : Int := (litInt false false c.2).getD 0

section
variable {V W : Type} (k : V → W)

def mapOpd : Opd V → Opd W
  | .var x => .var x
  | .const v => .const (k v)

def mapInstr (i : Instr V) : Instr W := ⟨i.dst, i.op, i.args.map (mapOpd k)⟩

def mapPhi (p : Phi V) : Phi W := ⟨p.var, p.inc.map fun q => (q.1, mapOpd k q.2)⟩

def mapTerm : Term V → Term W
  | .ret v => .ret (v.map (mapOpd k))
  | .br t => .br t
  | .cbr c t f => .cbr (mapOpd k c) t f
  | .switch c cs d => .switch (mapOpd k c) (cs.map fun p => (k p.1, p.2)) d
  | .invoke n u => .invoke n u
  | .resume v => .resume (mapOpd k v)
  | .unreachable => .unreachable

def mapBlock (b : Block V) : Block W := ⟨b.phis.map (mapPhi k), b.body.map (mapInstr k), mapTerm k b.term⟩

/-- The function with its constants replaced by the values of the printed terms. -/
def mapFn (fn : Fn V) : Fn W := fn.map (mapBlock k)
end

/-- The Boogie code of a function; `ls` are the loops found by LoopInfo. -/
def compile (ls : List Loop) (fn : Fn Word) : Gen Int := translate (normalize ls (mapFn konst fn))

/-- What the generated statements do: an assignment of the value of a term; `assert x != $0` and `assume x != $0` on the integer that represents
the argument; a call of a nondet function. The literal 1 of branch conditions is `integerLit(1ULL, 1)`
(SmackInstGenerator.cpp:264). Assertion failures are the only failures. -/
def boogie (S : Smt) (enc : Enc) (ops : List Op) : Params Int Unit where
  one := 1
  exn := fun _ => false
  setExn := fun _ m => m
  setExnVal := fun _ m => m
  sem := fun op args _ r => match ops[op]? with
    | some (.expr _ e) => ∃ i, e.evalInt S enc (fun n => args.getD n 0) = some i ∧ r = some (i, ())
    | some (.check _) => ∃ i, args = [i] ∧ r = if i ≠ 0 then some (i, ()) else none
    | some (.assume _) => ∃ i, args = [i] ∧ i ≠ 0 ∧ r = some (i, ())
    | some (.nondet s) => ∃ i, Nondet.returnsInt S enc s i ∧ r = some (i, ())
    | none => False

end Smack.E2E
