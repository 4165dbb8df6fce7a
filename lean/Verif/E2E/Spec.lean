/-
The LLVM semantics of the operations on machine words, stopped where the integer encoding gives up; typing; and the relation between machine
words and the integers that represent them.
-/
import Verif.E2E.Model

namespace Smack.E2E

open Smack.IntOps Smack.Cfg Smack.Cfg.Spec

/-- The machine word of operand `n` at width `w`. -/
def argBits (l : List Word) (n w : Nat) : BitVec w :=
  match l[n]? with
  | some x => x.2.setWidth w
  | none => 0

/-- The evaluation has undefined behaviour, or is one that the encoding does not reproduce: with wrapped integers a signed division
of a negative number that is not exact (C02); with unbounded integers an overflow or another departure from exact arithmetic (C05). -/
def Stops (enc : Enc) {w : Nat} (e : Expr w) (l : List Word) : Prop :=
  e.evalBv (argBits l) = none ∨ match enc with
    | .wrapped => ¬ e.SdivExact (argBits l)
    | .unbounded => e.exact (argBits l) = none

/-- In the unbounded encoding an unsigned value with the highest bit set is not represented by its signed reading. -/
def Lost (enc : Enc) (s : Nondet.Shape) {w : Nat} (v : BitVec w) : Prop :=
  enc = .unbounded ∧ (∃ w', s = .uPromoted w' ∨ s = .uDirect w') ∧ v.toInt < 0

/-- LLVM semantics. A failure of a `check` is a failure of the assertion, any other failure means that `Stops` or `Lost` holds. -/
def llvm (enc : Enc) (ops : List Op) : Params Word Unit where
  one := ⟨1, 1⟩
  exn := fun _ => false
  setExn := fun _ m => m
  setExnVal := fun _ m => m
  sem := fun op args _ r => match ops[op]? with
    | some (.expr w e) => (Stops enc e args ∧ r = none) ∨
        (¬ Stops enc e args ∧ ∃ v, e.evalBv (argBits args) = some v ∧ r = some (⟨w, v⟩, ()))
    | some (.check _) => ∃ v, args = [v] ∧ ((v.2 = 0 ∧ r = none) ∨ (v.2 ≠ 0 ∧ r = some (v, ())))
    | some (.assume _) => ∃ v, args = [v] ∧ v.2 ≠ 0 ∧ r = some (v, ())
    | some (.nondet s) => ∃ v : BitVec s.width, (Lost enc s v ∧ r = none) ∨ (¬ Lost enc s v ∧ r = some (⟨s.width, v⟩, ()))
    | none => False

/-- The operation is an assertion. -/
def IsCheck (ops : List Op) (op : Nat) : Prop := ∃ w, ops[op]? = some (.check w)

/-! ## Typing -/

/-- A property of all variable occurrences (operand number and width). -/
def VarsIn (p : Nat → Nat → Prop) : {w : Nat} → Expr w → Prop
  | _, .var w n => p n w
  | _, .lit _ _ _ => True
  | _, .add a b | _, .sub a b | _, .mul a b | _, .udiv a b | _, .sdiv a b | _, .urem a b
  | _, .srem a b | _, .minMax _ _ a b => VarsIn p a ∧ VarsIn p b
  | _, .trunc _ a => VarsIn p a
  | _, .zext _ a => VarsIn p a
  | _, .sext _ a => VarsIn p a
  | _, .icmp _ a b => VarsIn p a ∧ VarsIn p b
  | _, .select c a b => VarsIn p c ∧ VarsIn p a ∧ VarsIn p b
  | _, .logic1 _ a b => VarsIn p a ∧ VarsIn p b

/-- No arithmetic on `i1`. -/
def NoArith1 : {w : Nat} → Expr w → Prop
  | _, .var _ _ => True
  | _, .lit _ _ _ => True
  | w, .add a b | w, .sub a b | w, .mul a b | w, .udiv a b | w, .sdiv a b | w, .urem a b
  | w, .srem a b => w ≠ 1 ∧ NoArith1 a ∧ NoArith1 b
  | _, .minMax _ _ a b => NoArith1 a ∧ NoArith1 b
  | _, .trunc _ a => NoArith1 a
  | _, .zext _ a => NoArith1 a
  | _, .sext _ a => NoArith1 a
  | _, .icmp _ a b => NoArith1 a ∧ NoArith1 b
  | _, .select c a b => NoArith1 c ∧ NoArith1 a ∧ NoArith1 b
  | _, .logic1 _ a b => NoArith1 a ∧ NoArith1 b

/-- The value is reduced: additions, subtractions and multiplications are not, the results of all other operations are. -/
def Reduced (N : Nat → Prop) : {w : Nat} → Expr w → Prop
  | _, .var _ n => N n
  | _, .add _ _ | _, .sub _ _ | _, .mul _ _ => False
  | _, .minMax _ _ a b => Reduced N a ∧ Reduced N b
  | _, .select _ a b => Reduced N a ∧ Reduced N b
  | _, _ => True

/-- Widths of the SSA variables, and the set of those that hold reduced values. -/
structure Ctx where
  width : Var → Nat
  reduced : Var → Prop

def Ctx.opdWidth (Γ : Ctx) : Opd Word → Nat
  | .var x => Γ.width x
  | .const c => c.1

def Ctx.opdReduced (Γ : Ctx) : Opd Word → Prop
  | .var x => Γ.reduced x
  | .const _ => True

/-- The types of an instruction are right; with wrapped integers there is no arithmetic on `i1` and the arguments of assertions and
assumptions are reduced. -/
def InstrOk (enc : Enc) (Γ : Ctx) (ops : List Op) (i : Instr Word) : Prop :=
  match ops[i.op]? with
  | some (.expr w e) => e.WellTyped ∧ e.NarrowLits ∧
      VarsIn (fun n w' => ∃ o, i.args[n]? = some o ∧ Γ.opdWidth o = w') e ∧
      (enc = .wrapped → NoArith1 e) ∧
      ∀ d, i.dst = some d → Γ.width d = w ∧
        (enc = .wrapped → Γ.reduced d → Reduced (fun n => ∃ o, i.args[n]? = some o ∧ Γ.opdReduced o) e)
  | some (.check w) | some (.assume w) => i.dst = none ∧ ∃ o, i.args = [o] ∧ Γ.opdWidth o = w ∧ (enc = .wrapped → Γ.opdReduced o)
  | some (.nondet s) => i.args = [] ∧ 2 ≤ s.width ∧ (∀ w, s ≠ .undefined w) ∧ (∀ w, s = .sPromoted w → w < 32) ∧
      (∀ w, s = .uPromoted w → w < 32) ∧
      ∀ d, i.dst = some d → Γ.width d = s.width ∧ (enc = .wrapped → ¬ Γ.reduced d)
  | none => False

/-- A function is well-typed. -/
structure FnOk (enc : Enc) (Γ : Ctx) (ops : List Op) (fn : Fn Word) : Prop where
  positive : ∀ x, 1 ≤ Γ.width x
  instr : ∀ (b : Nat) blk, fn[b]? = some blk → ∀ i ∈ blk.body, InstrOk enc Γ ops i
  phi : ∀ (b : Nat) blk, fn[b]? = some blk → ∀ p ∈ blk.phis, ∀ q ∈ p.inc, Γ.opdWidth q.2 = Γ.width p.var ∧
    (enc = .wrapped → Γ.reduced p.var → Γ.opdReduced q.2)
  cond : ∀ (b : Nat) blk c t f, fn[b]? = some blk → blk.term = .cbr c t f → Γ.opdWidth c = 1
  term : ∀ (b : Nat) blk, fn[b]? = some blk → (∀ n u, blk.term ≠ .invoke n u) ∧ (∀ v, blk.term ≠ .resume v) ∧
    ∀ c cs d, blk.term ≠ .switch c cs d

/-! ## Representation -/

/-- The integer `i` represents the machine word `v`: congruent, and 0 or 1 for a truth value, with wrapped integers; equal to the
reading with unbounded integers. -/
def Represents (enc : Enc) (v : Word) (i : Int) : Prop :=
  match enc with
  | .wrapped => BitVec.ofInt v.1 i = v.2 ∧ (v.1 = 1 → i = 0 ∨ i = 1)
  | .unbounded => i = reading v.2

/-- The environments correspond. -/
def EnvRel (enc : Enc) (Γ : Ctx) (ρ : Env Word) (σ : Env Int) : Prop :=
  ∀ x, (ρ x).1 = Γ.width x ∧ Represents enc (ρ x) (σ x) ∧ (enc = .wrapped → Γ.reduced x → (ρ x).2 = 0 → σ x = 0)

/-- The outcomes correspond: a return of a represented value, or a failure of the same operation. -/
inductive OutRel (enc : Enc) : Outcome Word Unit → Outcome Int Unit → Prop where
  | retNone : OutRel enc (.ret none ()) (.ret none ())
  | retSome (v i) : Represents enc v i → OutRel enc (.ret (some v) ()) (.ret (some i) ())
  | fail (op l l') : l.length = l'.length → (∀ (n : Nat) v i, l[n]? = some v → l'[n]? = some i → Represents enc v i) →
      OutRel enc (.fail op l ()) (.fail op l' ())

end Smack.E2E
