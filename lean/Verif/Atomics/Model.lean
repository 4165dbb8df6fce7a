/-
Model of the translation of `atomicrmw` and `cmpxchg` (lib/smack/SmackInstGenerator.cpp:546-572), with the functions of
Naming.cpp:149-154 and Prelude.cpp:472-580.

Both visitors emit two Boogie statements, an assignment to the result and a store. Operands are functions of the local
variables (`SmackRep::expr` of any operand); pointers have type `A`, values type `V`. Not modelled: memory orderings and
`weak`/`volatile` flags (ignored by the visitors), floating-point regions.
-/
import Verif.IntOps.Model
import Verif.Bytes.Model
import Verif.Aggr.Model
import Verif.Vec.Model

namespace Smack.Atomics

open Smack.IntOps (Smt Enc Logic)

/-- The operations of LLVM's `atomicrmw` (llvm/IR/Instructions.h, `AtomicRMWInst::BinOp`). -/
inductive Op where
  | xchg | add | sub | and | nand | or | xor | max | min | umax | umin | fadd | fsub
deriving DecidableEq, Repr

/-- The Boogie functions named in ATOMICRMWINST_TABLE. -/
inductive Fn where
  | add | sub | and | nand | or | xor | smax | smin | umax | umin
deriving DecidableEq, Repr

/-- Naming.cpp:149-154 ATOMICRMWINST_TABLE; `none`: no entry, so `.at` throws std::out_of_range. -/
def table : Op → Option Fn
  | .add => some .add
  | .sub => some .sub
  | .and => some .and
  | .nand => some .nand
  | .or => some .or
  | .xor => some .xor
  | .max => some .smax
  | .min => some .smin
  | .umax => some .umax
  | .umin => some .umin
  | .xchg | .fadd | .fsub => none

/-- Boogie expressions built by the visitors. `load` is `SmackRep::load` of the pointer operand. -/
inductive Ex (A V : Type) where
  | opd (f : (Nat → V) → V)
  | load (p : (Nat → V) → A)
  | app (f : Fn) (a b : Ex A V)
  | iteEq (a b x y : Ex A V)

/-- Boogie statements: assignment to a local variable; assignment to the memory of the region (SmackRep.cpp:530-542). -/
inductive Stmt (A V : Type) where
  | assign (r : Nat) (e : Ex A V)
  | store (p : (Nat → V) → A) (e : Ex A V)

/-- SmackInstGenerator.cpp:557-572 `visitAtomicRMWInst`; `none` is the exception of the table lookup. -/
def rmw {A V : Type} (op : Op) (res : Nat) (p : (Nat → V) → A) (val : (Nat → V) → V) : Option (List (Stmt A V)) :=
  match op with
  | .xchg => some [.assign res (.load p), .store p (.opd val)]
  | op =>
    match table op with
    | some f => some [.assign res (.load p), .store p (.app f (.load p) (.opd val))]
    | none => none

/-- SmackInstGenerator.cpp:546-555 `visitAtomicCmpXchgInst`. -/
def cmpxchg {A V : Type} (res : Nat) (p : (Nat → V) → A) (cmp swp : (Nat → V) → V) : List (Stmt A V) :=
  [.assign res (.load p), .store p (.iteEq (.load p) (.opd cmp) (.opd swp) (.load p))]

/-! Semantics. -/

/-- A region: its Boogie variable of type `M` and how `SmackRep::load` and `SmackRep::store` access it. `Apart p q`: an
access at `q` does not overlap one at `p`. -/
structure Region (M A V : Type) where
  ld : M → A → V
  st : M → A → V → M
  Apart : A → A → Prop

/-- A map region (`$load.T(M, p)` is `M[p]`, `$store.T` is map update; Prelude.cpp:880-950). -/
def mapRegion (A V : Type) [DecidableEq A] : Region (A → V) A V where
  ld m p := m p
  st m p v := fun q => if q = p then v else m q
  Apart p q := q ≠ p

/-- A singleton region (SmackRep.cpp:517 and 541): the variable itself; the pointer is not used. -/
def singleton (A V : Type) : Region V A V where
  ld m _ := m
  st _ _ v := v
  Apart _ _ := False

/-- A bytewise region (`$load.bytes.bvN`, `$store.bytes.bvN`). -/
noncomputable def byteRegion (P : Bytes.PtrRep) (size : Nat) : Region (Bytes.Mem P) P.Ref (BitVec size) where
  ld m p := (Bytes.load size m p).2.setWidth size
  st m p v := Bytes.store m p v
  Apart p q := ∀ i < Bytes.bytes size, ∀ j < Bytes.bytes size, Bytes.addr q j ≠ Bytes.addr p i

/-- Local variables and the variable of the region. -/
structure State (M V : Type) where
  regs : Nat → V
  mem : M

def upd {V : Type} (ρ : Nat → V) (r : Nat) (v : V) : Nat → V := fun x => if x = r then v else ρ x

/-- Value of an expression. `fn` is the interpretation of the functions; equality is Boogie's `==`. -/
def Ex.eval {M A V : Type} [DecidableEq V] (R : Region M A V) (fn : Fn → V → V → V) (s : State M V) : Ex A V → V
  | .opd f => f s.regs
  | .load p => R.ld s.mem (p s.regs)
  | .app f a b => fn f (a.eval R fn s) (b.eval R fn s)
  | .iteEq a b x y => if a.eval R fn s = b.eval R fn s then x.eval R fn s else y.eval R fn s

def step {M A V : Type} [DecidableEq V] (R : Region M A V) (fn : Fn → V → V → V) (s : State M V) : Stmt A V → State M V
  | .assign r e => { s with regs := upd s.regs r (e.eval R fn s) }
  | .store p e => { s with mem := R.st s.mem (p s.regs) (e.eval R fn s) }

def exec {M A V : Type} [DecidableEq V] (R : Region M A V) (fn : Fn → V → V → V) (s : State M V)
    (l : List (Stmt A V)) : State M V := l.foldl (step R fn) s

/-! The functions of the prelude. -/

/-- Prelude.cpp:356-366 `bvMinMaxExpr<SIGN, MIN>`: `if $slt.bvN.bool(i1, i2) then i1 else i2`. -/
def bvMinMax {w : Nat} (sign isMin : Bool) (a b : BitVec w) : BitVec w :=
  let p : Bool := match sign, isMin with
    | true, true => a.slt b
    | true, false => b.slt a
    | false, true => a.ult b
    | false, false => b.ult a
  if p then a else b

/-- Bit-vector mode: SMT-LIB functions (Prelude.cpp:276-278, 480-512), min and max from the table at 521-544. -/
def bvFn (w : Nat) : Fn → BitVec w → BitVec w → BitVec w
  | .add, a, b => a + b
  | .sub, a, b => a - b
  | .and, a, b => a &&& b
  | .nand, a, b => ~~~(a &&& b)
  | .or, a, b => a ||| b
  | .xor, a, b => a ^^^ b
  | .smin, a, b => bvMinMax true true a b
  | .smax, a, b => bvMinMax true false a b
  | .umin, a, b => bvMinMax false true a b
  | .umax, a, b => bvMinMax false false a b

/-- An arbitrary interpretation of the functions that are uninterpreted in integer mode (Prelude.cpp:507-510), with the
axioms of Prelude.cpp:550-580. -/
structure UInterp (w : Nat) where
  logic : Logic → Int → Int → Int
  nand : Int → Int → Int
  ax1 : w = 1 → ∀ (o : Logic) (i j : Bool), logic o i.toInt j.toInt = (o.onBool i j).toInt
  ax32 : w = 32 → logic .and 32 16 = 0

/-- Integer modes (Prelude.cpp:480-544). -/
def intFn (S : Smt) (enc : Enc) (w : Nat) (U : UInterp w) : Fn → Int → Int → Int
  | .add, a, b => IntOps.iadd a b
  | .sub, a, b => IntOps.isub a b
  | .and, a, b => U.logic .and a b
  | .or, a, b => U.logic .or a b
  | .xor, a, b => U.logic .xor a b
  | .nand, a, b => U.nand a b
  | .smin, a, b => IntOps.minMax S enc true true w a b
  | .smax, a, b => IntOps.minMax S enc false true w a b
  | .umin, a, b => IntOps.minMax S enc true false w a b
  | .umax, a, b => IntOps.minMax S enc false false w a b

/-! The result of cmpxchg. -/

/-- The LLVM type of a `cmpxchg` on a `k`-byte integer with Boogie type name `n`: `{ iN, i1 }`. -/
def pairTy (n : String) (k : Nat) (i1 : String) : Aggr.Ty :=
  .struct (2 * k) (.cons 0 (.scalar n k) (.cons k (.scalar i1 1) .nil))

/-- The value of `extractvalue res, i` after the instruction (SmackInstGenerator.cpp:417-429), where `ext` interprets the
uninterpreted functions `$extractvalue.T`. -/
def extracted {V : Type} (ext : String → V → Nat → V) (t : Aggr.Ty) (i : Nat) (res : V) : V :=
  (Aggr.genExtract t [i] .res).eval ext res res res

/-- The variable of the result has the type of `{ iN, i1 }`, which is `ref` (SmackRep.cpp:216-244); it is assigned a
value of type `iN`. Boogie accepts the assignment only if the types are equal. -/
def AssignOk (m : Vec.Mode) (w : Nat) : Prop := Vec.bty m .ref = Vec.bty m (.int w)

/-! Interleaving. -/

/-- Two threads: what is left to execute of each, its local variables, and the shared memory. -/
structure Par (M A V : Type) where
  code : Bool → List (Stmt A V)
  regs : Bool → Nat → V
  mem : M

/-- One statement of thread `t`. The code emitted for an atomic instruction is not inside an atomic section. -/
def parStep {M A V : Type} [DecidableEq V] (R : Region M A V) (fn : Fn → V → V → V) (c : Par M A V) (t : Bool) :
    Par M A V :=
  match c.code t with
  | [] => c
  | x :: l =>
    let s := step R fn ⟨c.regs t, c.mem⟩ x
    { code := fun u => if u = t then l else c.code u, regs := fun u => if u = t then s.regs else c.regs u, mem := s.mem }

def parExec {M A V : Type} [DecidableEq V] (R : Region M A V) (fn : Fn → V → V → V) (c : Par M A V) (sched : List Bool) :
    Par M A V := sched.foldl (parStep R fn) c

end Smack.Atomics
