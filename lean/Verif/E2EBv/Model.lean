/-
The translation of a whole function in bit-vector mode (BitPrecise and BitPrecisePointers), with memory: the instructions on integers and
pointers, the verifier functions, address computations (`Gep`), loads and stores on memory split into regions (`MemSplit`), and the
control flow (`Cfg`).

An instruction is an operation of a table with SSA variables and constants as operands. Values are machine words with their widths;
pointers have 64 bits. Blocks of memory are allocated by `alloca` and `malloc` with the default memory model (`no-reuse-impls`, without checks
of memory safety). Not modelled: calls other than those of the verifier functions, exceptions, floating point, vectors, aggregates.
-/
import Verif.E2E.Model
import Verif.MemSplit.Spec
import Verif.Gep.Spec

namespace Smack.E2EBv

open Smack.IntOps (Smt Pred Logic litBv)
open Smack.Cfg Smack.Cfg.Spec
open Smack.E2E (Word mapFn)
open Smack.MemSplit (Node Static Content Event)

/-- Binary instructions. -/
inductive Bin where
  | add | sub | mul | udiv | sdiv | urem | srem | shl | lshr | ashr | and | or | xor
deriving DecidableEq, Repr

/-- Integer-typed expressions over the operands of an instruction, as `IntOps.Expr` with all bitwise operations. -/
inductive Expr : Nat → Type where
  | var (w : Nat) (n : Nat) : Expr w
  | lit {w : Nat} (isUnsigned isUnsignedInst : Bool) (c : BitVec w) : Expr w
  | bin {w : Nat} (op : Bin) (a b : Expr w) : Expr w
  | minMax {w : Nat} (isMin sign : Bool) (a b : Expr w) : Expr w
  | trunc {w : Nat} (w' : Nat) (a : Expr w) : Expr w'
  | zext {w : Nat} (w' : Nat) (a : Expr w) : Expr w'
  | sext {w : Nat} (w' : Nat) (a : Expr w) : Expr w'
  | icmp {w : Nat} (p : Pred) (a b : Expr w) : Expr 1
  | select {w : Nat} (c : Expr 1) (a b : Expr w) : Expr w

/-- The SMT-LIB functions that Prelude.cpp:276-278 and 475-510 attach (`"bv" + opName`): bvadd, bvsub, bvmul, bvudiv, bvsdiv, bvurem,
bvsrem, bvshl, bvlshr, bvashr, bvand, bvor, bvxor. -/
def smtBin {w : Nat} : Bin → BitVec w → BitVec w → BitVec w
  | .add, a, b => a + b
  | .sub, a, b => a - b
  | .mul, a, b => a * b
  | .udiv, a, b => a.smtUDiv b
  | .sdiv, a, b => a.smtSDiv b
  | .urem, a, b => a.umod b
  | .srem, a, b => a.srem b
  | .shl, a, b => a <<< b
  | .lshr, a, b => a >>> b
  | .ashr, a, b => a.sshiftRight' b
  | .and, a, b => a &&& b
  | .or, a, b => a ||| b
  | .xor, a, b => a ^^^ b

/-- The predicates of Prelude.cpp:690-722 on bit-vectors: `bvule`, …; `eq` and `ne` are inlined as Boogie's `==` and `!=`. -/
def smtPred {w : Nat} : Pred → BitVec w → BitVec w → Bool
  | .eq, a, b => a == b
  | .ne, a, b => a != b
  | .ule, a, b => a.ule b
  | .ult, a, b => a.ult b
  | .uge, a, b => b.ule a
  | .ugt, a, b => b.ult a
  | .sle, a, b => a.sle b
  | .slt, a, b => a.slt b
  | .sge, a, b => b.sle a
  | .sgt, a, b => b.slt a

/-- Prelude.cpp:357-366 `bvMinMaxExpr<SIGN, MIN>`. -/
def smtMinMax {w : Nat} (isMin sign : Bool) (a b : BitVec w) : BitVec w :=
  let p : Pred := match sign, isMin with
    | true, true => .slt | true, false => .sgt | false, true => .ult | false, false => .ugt
  if smtPred p a b then a else b

/-- Value of the generated term (SmackRep.cpp `bop` 913-948, `cast` 878-898, `cmp` 963-984, `select` 994-1004; literals 627-648; casts
Prelude.cpp:882-912: `i[w':0]`, `(_ zero_extend k)`, `(_ sign_extend k)`). `none` is a failed assertion of the translator. The widths have to be
in INTEGER_SIZES (Prelude.h) for the functions to be declared. -/
def Expr.evalSmt (ρ : (n w : Nat) → BitVec w) : {w : Nat} → Expr w → Option (BitVec w)
  | _, .var w n => some (ρ n w)
  | _, .lit u ui c => litBv u ui c
  | _, .bin op a b => do return smtBin op (← a.evalSmt ρ) (← b.evalSmt ρ)
  | _, .minMax m s a b => do return smtMinMax m s (← a.evalSmt ρ) (← b.evalSmt ρ)
  | _, .trunc w' a => do return (← a.evalSmt ρ).extractLsb' 0 w'
  | _, .zext w' a => do return (← a.evalSmt ρ).zeroExtend w'
  | _, .sext w' a => do return (← a.evalSmt ρ).signExtend w'
  | _, .icmp p a b => do return if smtPred p (← a.evalSmt ρ) (← b.evalSmt ρ) then 1#1 else 0#1
  | _, .select c a b => do
      let cv ← c.evalSmt ρ
      let av ← a.evalSmt ρ
      let bv ← b.evalSmt ρ
      return if cv = 1#1 then av else bv

/-- An index of a `getelementptr`: a constant, or operand `n` of the instruction. -/
inductive GIdx where
  | const (w : Nat) (c : BitVec w)
  | opd (w n : Nat)

/-- The operations. -/
inductive Op where
  | expr (w : Nat) (e : Expr w)
  /-- `__VERIFIER_assert(x)`, share/smack/lib/smack.c:48-55; `int x` -/
  | check
  /-- `__VERIFIER_assume(x)`, share/smack/lib/smack.c:43-46 -/
  | assume
  /-- `__VERIFIER_nondet_T()` -/
  | nondet (s : Nondet.Shape)
  /-- `getelementptr t, p, is`: operand 0 is `p` -/
  | gep (t : Gep.Ty) (is : List GIdx)
  /-- the access with this number in the module: `load p`, `store v, p` (operands `p`, `v`) -/
  | load (a : Nat)
  | store (a : Nat)
  /-- `alloca t, k` for a type of this size: operand 0 is `k` -/
  | alloca (size : Nat)
  /-- `malloc(n)` -/
  | malloc
  /-- `free(p)` -/
  | free

/-- What happened to the blocks of memory: `n` bytes at `p` were allocated, on the stack or by `malloc`; `free(p)` was called. -/
inductive HEv where
  | alloc (stack : Bool) (p n : BitVec 64)
  | free (p : BitVec 64)
deriving DecidableEq

/-- The value of operand `n` at width `w`. -/
def argBits (l : List Word) (n w : Nat) : BitVec w :=
  match l[n]? with
  | some x => x.2.setWidth w
  | none => 0

/-- The indices with the values of the operands. `rep` is not used with bit-vectors. -/
def GIdx.value (l : List Word) : GIdx → Gep.Idx
  | .const w c => ⟨w, c, true, 0⟩
  | .opd w n => ⟨w, argBits l n w, false, 0⟩

/-- The module: its operations; the points-to graph, the accesses of the region pass and the loads and stores in order of translation
(`MemSplit`); SmackOptions::NoByteAccessInference. -/
structure Module where
  ops : List Op
  D : Nat → Node
  seen : List Static
  prog : List Static
  noInference : Bool

/-- Bit-vector integers and pointers. -/
def Module.mode (md : Module) : MemSplit.Mode := ⟨true, true, md.noInference⟩

/-- The generated loads and stores. -/
def Module.stmts (md : Module) : List MemSplit.Stmt :=
  (MemSplit.translate md.mode md.D (MemSplit.table md.mode md.D md.seen) md.prog).1

/-- The declared memory variables. -/
def Module.decls (md : Module) : List MemSplit.Decl :=
  (MemSplit.translate md.mode md.D (MemSplit.table md.mode md.D md.seen) md.prog).2.map (MemSplit.memType md.mode)

abbrev Ptr : Bytes.PtrRep := Bytes.bvPtr 64

/-- A state of the memory variables and of `$CurrAddr`. `trace` and `heap` are ghost variables: the accesses made, and the calls of the
allocation procedures. -/
structure BState where
  vars : Nat → Content Ptr
  trace : List (Event Ptr)
  curr : BitVec 64
  heap : List HEv

/-- `$MALLOC_TOP`, Prelude.cpp:1139-1147: `9223372036854775807bv64`. -/
def mallocTop : BitVec 64 := 9223372036854775807#64

/-- `$$alloc`, share/smack/lib/smack.c:1816-1827, for `n` bytes, with bit-vector pointers (`$sge.ref.bool` is `bvsge`, …: Prelude.cpp:690-722
and Prelude.cpp:1203-1246); `c` and `c'` are `$CurrAddr` before and after. The result `p` is not assigned when `n` is zero. -/
def allocBv (n p c c' : BitVec 64) : Prop :=
  (0#64).sle n = true ∧
  (if (0#64).slt n then p = c ∧ p.sle (c' - n) = true ∧ (0#64).slt c' = true ∧ c'.slt mallocTop = true else c' = c)

/-- The value of the term printed for a constant operand: `rep->expr(v)` with the default flags (SmackRep.h:145, SmackRep.cpp:627-648). -/
def konst (c : Word) : Word := ⟨c.1, (litBv false false c.2).getD 0⟩

/-- The Boogie code of a function; `ls` are the loops found by LoopInfo. -/
def compile (ls : List Loop) (fn : Fn Word) : Gen Word := translate (normalize ls (mapFn konst fn))

/-- What the generated statements do. `$0` is `0bv32` (Prelude.cpp:1083-1092); the literal 1 of branch conditions is
`integerLit(1ULL, 1)` (SmackInstGenerator.cpp:264). An ill-typed statement has no execution. -/
def boogie (S : Smt) (md : Module) : Params Word BState where
  one := ⟨1, 1⟩
  exn := fun _ => false
  setExn := fun _ m => m
  setExnVal := fun _ m => m
  sem := fun op args s r => match md.ops[op]? with
    | some (.expr w e) => ∃ v, e.evalSmt (argBits args) = some v ∧ r = some (⟨w, v⟩, s)
    | some .check => ∃ v : BitVec 32, args = [⟨32, v⟩] ∧ r = if v ≠ 0#32 then some (⟨32, v⟩, s) else none
    | some .assume => ∃ v : BitVec 32, args = [⟨32, v⟩] ∧ v ≠ 0#32 ∧ r = some (⟨32, v⟩, s)
    | some (.nondet sh) => ∃ v, Nondet.returnsBv sh v ∧ r = some (⟨sh.width, v⟩, s)
    | some (.gep t is) => ∃ as v, Gep.args t (is.map (·.value args)) = some as ∧
        Gep.ptrArithBv S .bv 64 (argBits args 0 64) as = some v ∧ r = some (⟨64, v⟩, s)
    | some (.load a) => ∃ (p : BitVec 64) (st : MemSplit.Stmt) (w : Nat) (v : BitVec w), args = [⟨64, p⟩] ∧ md.stmts[a]? = some st ∧
        MemSplit.load md.mode md.decls s.vars st p = some (.bv w v) ∧
        r = some (⟨w, v⟩, { s with trace := s.trace ++ [⟨a, p, none⟩] })
    | some (.store a) => ∃ (p : BitVec 64) (st : MemSplit.Stmt) (w : Nat) (v : BitVec w) (c : Content Ptr), args = [⟨64, p⟩, ⟨w, v⟩] ∧
        md.stmts[a]? = some st ∧ MemSplit.store md.mode md.decls s.vars st p (.bv w v) = some c ∧
        r = some (⟨w, v⟩, { s with vars := fun x => if x = st.region then c else s.vars x, trace := s.trace ++ [⟨a, p, some (.bv w v)⟩] })
    -- SmackRep.cpp:292-299: `call p := $alloc($mul.ref(size, k))`, `k` converted by 581-589; `$alloc` is smack.c:1623-1628
    | some (.alloca size) => ∃ (w : Nat) (k : BitVec w) (p c : BitVec 64), args = [⟨w, k⟩] ∧
        allocBv (BitVec.ofNat 64 size * k.setWidth 64) p s.curr c ∧
        r = some (⟨64, p⟩, { s with curr := c, heap := s.heap ++ [.alloc true p (BitVec.ofNat 64 size * k.setWidth 64)] })
    -- SmackRep.cpp:1028-1036: `call r := $malloc(n)`; `$malloc` is smack.c:1806-1811
    | some .malloc => ∃ (w : Nat) (n : BitVec w) (p c : BitVec 64), args = [⟨w, n⟩] ∧ allocBv (n.setWidth 64) p s.curr c ∧
        r = some (⟨64, p⟩, { s with curr := c, heap := s.heap ++ [.alloc false p (n.setWidth 64)] })
    -- SmackRep.cpp:1038-1041, smack.c:1829: `$free` has no contract
    | some .free => ∃ p : BitVec 64, args = [⟨64, p⟩] ∧ r = some (⟨64, p⟩, { s with heap := s.heap ++ [.free p] })
    | none => False

end Smack.E2EBv
