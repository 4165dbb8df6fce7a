/-
The LLVM semantics of the operations on machine words and one flat memory of bytes, in terms of numbers; typing; and the relation between
the outcomes.
-/
import Verif.E2EBv.Model

namespace Smack.E2EBv

open Smack.IntOps (Pred)
open Smack.Cfg Smack.Cfg.Spec
open Smack.E2E (Word)
open Smack.MemSplit (Static Event Content flatRead flatWrite Sound)

/-- Binary instructions (LLVM language reference); `none` is undefined behaviour, or poison for a shift by the width or more. The `nsw`,
`nuw` and `exact` flags are ignored. -/
def llvmBin {w : Nat} : Bin → BitVec w → BitVec w → Option (BitVec w)
  | .add, a, b => some (BitVec.ofNat w (a.toNat + b.toNat))
  | .sub, a, b => some (BitVec.ofInt w (a.toInt - b.toInt))
  | .mul, a, b => some (BitVec.ofNat w (a.toNat * b.toNat))
  | .udiv, a, b => if b.toNat = 0 then none else some (BitVec.ofNat w (a.toNat / b.toNat))
  | .sdiv, a, b =>
    if b.toInt = 0 ∨ (a.toInt = -2 ^ (w - 1) ∧ b.toInt = -1) then none else some (BitVec.ofInt w (a.toInt.tdiv b.toInt))
  | .urem, a, b => if b.toNat = 0 then none else some (BitVec.ofNat w (a.toNat % b.toNat))
  | .srem, a, b =>
    if b.toInt = 0 ∨ (a.toInt = -2 ^ (w - 1) ∧ b.toInt = -1) then none else some (BitVec.ofInt w (a.toInt.tmod b.toInt))
  | .shl, a, b => if w ≤ b.toNat then none else some (BitVec.ofNat w (a.toNat * 2 ^ b.toNat))
  | .lshr, a, b => if w ≤ b.toNat then none else some (BitVec.ofNat w (a.toNat / 2 ^ b.toNat))
  | .ashr, a, b => if w ≤ b.toNat then none else some (BitVec.ofInt w (a.toInt / 2 ^ b.toNat))
  | .and, a, b => some (BitVec.ofNat w (a.toNat &&& b.toNat))
  | .or, a, b => some (BitVec.ofNat w (a.toNat ||| b.toNat))
  | .xor, a, b => some (BitVec.ofNat w (a.toNat ^^^ b.toNat))

/-- `icmp`. -/
def llvmPred {w : Nat} (p : Pred) (a b : BitVec w) : Prop :=
  match p with
  | .eq => a.toNat = b.toNat
  | .ne => a.toNat ≠ b.toNat
  | .ule => a.toNat ≤ b.toNat
  | .ult => a.toNat < b.toNat
  | .uge => a.toNat ≥ b.toNat
  | .ugt => a.toNat > b.toNat
  | .sle => a.toInt ≤ b.toInt
  | .slt => a.toInt < b.toInt
  | .sge => a.toInt ≥ b.toInt
  | .sgt => a.toInt > b.toInt

instance {w : Nat} (p : Pred) (a b : BitVec w) : Decidable (llvmPred p a b) := by
  unfold llvmPred; cases p <;> infer_instance

/-- The intrinsics `llvm.smin`, `llvm.smax`, `llvm.umin`, `llvm.umax`. -/
def llvmMinMax {w : Nat} (isMin sign : Bool) (a b : BitVec w) : BitVec w :=
  match sign, isMin with
  | true, true => BitVec.ofInt w (min a.toInt b.toInt)
  | true, false => BitVec.ofInt w (max a.toInt b.toInt)
  | false, true => BitVec.ofNat w (min a.toNat b.toNat)
  | false, false => BitVec.ofNat w (max a.toNat b.toNat)

/-- The value of an expression. -/
def Expr.eval (ρ : (n w : Nat) → BitVec w) : {w : Nat} → Expr w → Option (BitVec w)
  | _, .var w n => some (ρ n w)
  | _, .lit _ _ c => some c
  | _, .bin op a b => do llvmBin op (← a.eval ρ) (← b.eval ρ)
  | _, .minMax m s a b => do return llvmMinMax m s (← a.eval ρ) (← b.eval ρ)
  | _, .trunc w' a => do return BitVec.ofNat w' (← a.eval ρ).toNat
  | _, .zext w' a => do return BitVec.ofNat w' (← a.eval ρ).toNat
  | _, .sext w' a => do return BitVec.ofInt w' (← a.eval ρ).toInt
  | _, .icmp p a b => do return if llvmPred p (← a.eval ρ) (← b.eval ρ) then 1 else 0
  | _, .select c a b => do
      let cv ← c.eval ρ
      let av ← a.eval ρ
      let bv ← b.eval ρ
      return if cv.toNat = 1 then av else bv

/-- The memory, the accesses made so far, and the history of the allocated blocks. -/
structure LState where
  mem : BitVec 64 → BitVec 8
  trace : List (Event Ptr)
  heap : List HEv

/-- The block was allocated and has not been freed. (The end of the lifetime of a stack block is not modelled: no address is used again.) -/
def Held (h : List HEv) (stack : Bool) (p n : BitVec 64) : Prop := ∃ h₁ h₂, h = h₁ ++ .alloc stack p n :: h₂ ∧ HEv.free p ∉ h₂

/-- The `n` bytes at `p` are addressable and in no block that is in use. -/
def NewBlock (h : List HEv) (p : BitVec 64) (n : Nat) : Prop :=
  p.toNat ≠ 0 ∧ p.toNat + n ≤ 2 ^ 64 ∧ ∀ st (q k : BitVec 64), Held h st q k → q.toNat ≠ 0 → k.toNat ≠ 0 →
    p.toNat + n ≤ q.toNat ∨ q.toNat + k.toNat ≤ p.toNat

/-- An index narrower than a pointer that is not a constant is negative (C43). -/
def NarrowNegative (is : List Gep.Idx) : Prop := ∃ i ∈ is, i.isConst = false ∧ i.w < 64 ∧ i.bits.toInt < 0

/-- The value of operand `n` as a number of `w` bits. -/
def operand (l : List Word) (n w : Nat) : BitVec w :=
  match l[n]? with
  | some ⟨_, v⟩ => BitVec.ofNat w v.toNat
  | none => 0

/-- The value of an index. -/
def GIdx.index (l : List Word) : GIdx → Gep.Idx
  | .const w c => { w := w, bits := c, isConst := true, rep := 0 }
  | .opd w n => { w := w, bits := operand l n w, isConst := false, rep := 0 }

/-- LLVM semantics. A failure of a `check` is a failure of the assertion. Any other failure means undefined behaviour, an address
computation with a narrow negative index, that the next access contradicts the points-to graph, or a `malloc` of no bytes (whose result in
Boogie is any pointer, C18). The bytes of a new block have the values that the memory has there. -/
noncomputable def llvm (md : Module) : Params Word LState where
  one := ⟨1, 1⟩
  exn := fun _ => false
  setExn := fun _ m => m
  setExnVal := fun _ m => m
  sem := fun op args s r => match md.ops[op]? with
    | some (.expr w e) => (e.eval (operand args) = none ∧ r = none) ∨ ∃ v, e.eval (operand args) = some v ∧ r = some (⟨w, v⟩, s)
    | some .check => ∃ v : BitVec 32, args = [⟨32, v⟩] ∧ ((v.toNat = 0 ∧ r = none) ∨ (v.toNat ≠ 0 ∧ r = some (⟨32, v⟩, s)))
    | some .assume => ∃ v : BitVec 32, args = [⟨32, v⟩] ∧ v.toNat ≠ 0 ∧ r = some (⟨32, v⟩, s)
    | some (.nondet sh) => ∃ v : BitVec sh.width, r = some (⟨sh.width, v⟩, s)
    | some (.gep t is) => (NarrowNegative (is.map (·.index args)) ∧ r = none) ∨
        (¬ NarrowNegative (is.map (·.index args)) ∧ ∃ o t', Gep.offset Gep.Ty.alloc t (is.map (·.index args)) = some (o, t') ∧
          r = some (⟨64, BitVec.ofInt 64 ((operand args 0 64).toInt + o)⟩, s))
    | some (.load a) => ∃ (p : BitVec 64) (A : Static), args = [⟨64, p⟩] ∧ md.prog[a]? = some A ∧
        ((¬ Sound md.D md.prog (s.trace ++ [⟨a, p, none⟩]) ∧ r = none) ∨
         (Sound md.D md.prog (s.trace ++ [⟨a, p, none⟩]) ∧
          r = some (⟨A.ty.bits, flatRead (P := Ptr) s.mem p A.ty⟩, { s with trace := s.trace ++ [⟨a, p, none⟩] })))
    | some (.store a) => ∃ (p : BitVec 64) (A : Static) (v : BitVec A.ty.bits), args = [⟨64, p⟩, ⟨A.ty.bits, v⟩] ∧ md.prog[a]? = some A ∧
        ((¬ Sound md.D md.prog (s.trace ++ [⟨a, p, some (.bv _ v)⟩]) ∧ r = none) ∨
         (Sound md.D md.prog (s.trace ++ [⟨a, p, some (.bv _ v)⟩]) ∧
          r = some (⟨A.ty.bits, v⟩, ⟨flatWrite (P := Ptr) s.mem p A.ty.store v, s.trace ++ [⟨a, p, some (.bv _ v)⟩], s.heap⟩)))
    | some (.alloca size) => ∃ (w : Nat) (k : BitVec w), args = [⟨w, k⟩] ∧
        ((2 ^ 64 ≤ size * k.toNat ∧ r = none) ∨
         (size * k.toNat < 2 ^ 64 ∧ ∃ p, (size * k.toNat = 0 ∨ NewBlock s.heap p (size * k.toNat)) ∧
          r = some (⟨64, p⟩, { s with heap := s.heap ++ [.alloc true p (BitVec.ofNat 64 (size * k.toNat))] })))
    | some .malloc => ∃ n : BitVec 64, args = [⟨64, n⟩] ∧
        ((n.toNat = 0 ∧ r = none) ∨
         (∃ p, (p.toNat = 0 ∨ NewBlock s.heap p (max n.toNat 1)) ∧ r = some (⟨64, p⟩, { s with heap := s.heap ++ [.alloc false p n] })))
    | some .free => ∃ p : BitVec 64, args = [⟨64, p⟩] ∧
        ((p.toNat ≠ 0 ∧ (∀ n, ¬ Held s.heap false p n) ∧ r = none) ∨
         ((p.toNat = 0 ∨ ∃ n, Held s.heap false p n) ∧ r = some (⟨64, p⟩, { s with heap := s.heap ++ [.free p] })))
    | none => False

/-- The operation is an assertion. -/
def IsCheck (md : Module) (op : Nat) : Prop := md.ops[op]? = some .check

/-! ## Typing -/

/-- The operands have the widths of their uses; a truncation truncates and an extension extends. A literal in an unsigned position of a signed
instruction has at most 64 bits (C06). -/
def Expr.Ok (p : Nat → Nat → Prop) : {w : Nat} → Expr w → Prop
  | _, .var w n => p n w
  | _, .lit (w := w) u ui _ => u = true → ui = false → w ≤ 64
  | _, .bin _ a b => a.Ok p ∧ b.Ok p
  | _, .minMax _ _ a b => a.Ok p ∧ b.Ok p
  | _, .trunc (w := w) w' a => w' < w ∧ a.Ok p
  | _, .zext (w := w) w' a => w < w' ∧ a.Ok p
  | _, .sext (w := w) w' a => w < w' ∧ a.Ok p
  | _, .icmp _ a b => a.Ok p ∧ b.Ok p
  | _, .select c a b => c.Ok p ∧ a.Ok p ∧ b.Ok p

/-- Widths of the SSA variables. -/
abbrev Ctx := Var → Nat

def Ctx.opd (Γ : Ctx) : Opd Word → Nat
  | .var x => Γ x
  | .const c => c.1

/-- The types of an instruction are right. -/
def InstrOk (Γ : Ctx) (md : Module) (i : Instr Word) : Prop :=
  match md.ops[i.op]? with
  | some (.expr w e) => e.Ok (fun n w' => ∃ o, i.args[n]? = some o ∧ Γ.opd o = w') ∧ ∀ d, i.dst = some d → Γ d = w
  | some .check | some .assume => i.dst = none ∧ ∃ o, i.args = [o] ∧ Γ.opd o = 32
  | some (.nondet s) => i.args = [] ∧ 1 ≤ s.width ∧ (∀ w, s = .sPromoted w → w < 32) ∧
      (∀ w, s = .uPromoted w → w < 32) ∧ ∀ d, i.dst = some d → Γ d = s.width
  | some (.gep t is) => (∃ o, i.args[0]? = some o ∧ Γ.opd o = 64) ∧
      (∀ l : List Word, (Gep.offset Gep.Ty.alloc t (is.map (·.index l))).isSome ∧ Gep.SizesOk t (is.map (·.index l)) ∧
        ∀ as, Gep.args t (is.map (·.index l)) = some as → Gep.AllIdx (fun j t => j.isConst = true → j.ConstOk t) as) ∧
      ∀ d, i.dst = some d → Γ d = 64
  | some (.load a) => ∃ A, md.prog[a]? = some A ∧ (∃ p, i.args = [p] ∧ Γ.opd p = 64) ∧ ∀ d, i.dst = some d → Γ d = A.ty.bits
  | some (.store a) => ∃ A, md.prog[a]? = some A ∧ i.dst = none ∧ ∃ p v, i.args = [p, v] ∧ Γ.opd p = 64 ∧ Γ.opd v = A.ty.bits
  | some (.alloca _) => (∃ o, i.args = [o]) ∧ ∀ d, i.dst = some d → Γ d = 64
  | some .malloc => (∃ o, i.args = [o] ∧ Γ.opd o = 64) ∧ ∀ d, i.dst = some d → Γ d = 64
  | some .free => i.dst = none ∧ ∃ o, i.args = [o] ∧ Γ.opd o = 64
  | none => False

/-- A function is well-typed. -/
structure FnOk (Γ : Ctx) (md : Module) (fn : Fn Word) : Prop where
  instr : ∀ (b : Nat) blk, fn[b]? = some blk → ∀ i ∈ blk.body, InstrOk Γ md i
  phi : ∀ (b : Nat) blk, fn[b]? = some blk → ∀ p ∈ blk.phis, ∀ q ∈ p.inc, Γ.opd q.2 = Γ p.var
  term : ∀ (b : Nat) blk, fn[b]? = some blk → (∀ n u, blk.term ≠ .invoke n u) ∧ (∀ v, blk.term ≠ .resume v) ∧
    ∀ c cs d, blk.term ≠ .switch c cs d

/-- What the region pass relies on (C65). -/
structure ModuleOk (md : Module) : Prop where
  valid : MemSplit.Valid md.D md.seen md.prog
  noScalars : MemSplit.NoScalars md.mode md.D md.seen

/-! ## Addresses of blocks

SMACK's allocator never uses an address again; it gives out increasing addresses. -/

/-- The blocks of the history have the addresses that the allocator gives out when it stands at `c`: each block starts there, and then the allocator
moves to somewhere after the block, below `2 ^ 63 - 1`. -/
def Follows : BitVec 64 → List HEv → Prop
  | _, [] => True
  | c, .free _ :: h => Follows c h
  | c, .alloc _ p n :: h =>
    if n.toNat = 0 then Follows c h
    else p = c ∧ ∃ c' : BitVec 64, p.toNat + n.toNat ≤ c'.toNat ∧ c'.toNat < 2 ^ 63 - 1 ∧ Follows c' h

/-- The blocks in use are below `c`, or above the addresses that are ever given out (global variables). -/
def Below (c : BitVec 64) (h : List HEv) : Prop :=
  ∀ st (q k : BitVec 64), Held h st q k → q.toNat ≠ 0 → k.toNat ≠ 0 → q.toNat + k.toNat ≤ c.toNat ∨ 2 ^ 63 - 1 ≤ q.toNat

/-- The allocator stands at an address that it can give out. -/
def Start (c : BitVec 64) (h : List HEv) : Prop := 0 < c.toNat ∧ c.toNat < 2 ^ 63 - 1 ∧ Below c h

/-- The history in the last state. -/
def lastHeap : Outcome Word LState → List HEv
  | .ret _ s => s.heap
  | .fail _ _ s => s.heap

/-! ## Outcomes -/

/-- The memory variables have their declared types. -/
def VarsTyped (md : Module) (σ : Nat → Content Ptr) : Prop := ∀ (r : Nat) d, md.decls[r]? = some d → (σ r).HasTy d

/-- The same accesses were made, the same blocks were allocated and freed, and every address accessed holds the same value in the memory and
in the memory variables, as seen through the access. -/
def MemRel (md : Module) (s : LState) (s' : BState) : Prop :=
  s.trace = s'.trace ∧ s.heap = s'.heap ∧ ∀ e ∈ s.trace, ∃ A st v, md.prog[e.stmt]? = some A ∧ md.stmts[e.stmt]? = some st ∧
    MemSplit.load md.mode md.decls s'.vars st e.addr = some v ∧ MemSplit.bitsOf A.ty v = flatRead (P := Ptr) s.mem e.addr A.ty

/-- The outcomes are the same, with related memories. -/
inductive OutRel (md : Module) : Outcome Word LState → Outcome Word BState → Prop where
  | ret (v s s') : MemRel md s s' → OutRel md (.ret v s) (.ret v s')
  | fail (op l s s') : MemRel md s s' → OutRel md (.fail op l s) (.fail op l s')

end Smack.E2EBv
