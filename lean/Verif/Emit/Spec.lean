/-
Well-formed LLVM values and instructions (LangRef), the Boogie type that represents an LLVM type, and what it means that a generated
statement is accepted by Boogie's type checker. Written without using the functions of the model, except for the declared names of
types (`tyName`, `memType`), whose meaning is part of what is proved.
-/
import Verif.PreludeTy.Spec
import Verif.Emit.Model

namespace Smack.Emit

open Smack.PreludeTy

/-- The Boogie type that represents an LLVM type: IEEE 754 formats by their significand and exponent widths. -/
def boogieTy (m : Mode) : LTy → Ty
  | .int n => if m.bp then .bv n else .int
  | .ptr | .agg => if m.bpp then .bv m.ptr else .int
  | .fp k =>
    if m.flt then
      match k with
      | .half => .fp 11 5
      | .single => .fp 24 8
      | .double => .fp 53 11
      | .longdouble => .fp 65 15
    else .opaque .ufloat

/-! ## LLVM -/

/-- The integer widths for which the prelude has declarations. -/
def widths : List Nat := [1, 5, 6, 8, 16, 24, 32, 33, 40, 48, 56, 64, 80, 88, 96, 128, 160, 256]

/-- The integer widths for which pointers can be converted. -/
def ptrWidths : List Nat := [8, 16, 32, 64]

/-- Size in bits of the floating-point formats. -/
def fpBits : FK → Nat
  | .half => 16
  | .single => 32
  | .double => 64
  | .longdouble => 80

/-- LangRef, conversion operations. -/
inductive CastOk : CastOp → LTy → LTy → Prop
  | trunc {a b} : b < a → CastOk .trunc (.int a) (.int b)
  | zext {a b} : a < b → CastOk .zext (.int a) (.int b)
  | sext {a b} : a < b → CastOk .sext (.int a) (.int b)
  | fptrunc {a b} : fpBits b < fpBits a → CastOk .fptrunc (.fp a) (.fp b)
  | fpext {a b} : fpBits a < fpBits b → CastOk .fpext (.fp a) (.fp b)
  | fptoui {a n} : CastOk .fptoui (.fp a) (.int n)
  | fptosi {a n} : CastOk .fptosi (.fp a) (.int n)
  | uitofp {a n} : CastOk .uitofp (.int n) (.fp a)
  | sitofp {a n} : CastOk .sitofp (.int n) (.fp a)
  | ptrtoint {n} : CastOk .ptrtoint .ptr (.int n)
  | inttoptr {n} : CastOk .inttoptr (.int n) .ptr
  | bitPtr : CastOk .bitcast .ptr .ptr
  | bitSame {t} : t ≠ .agg → CastOk .bitcast t t
  | bitFi {k} : CastOk .bitcast (.fp k) (.int (fpBits k))
  | bitIf {k} : CastOk .bitcast (.int (fpBits k)) (.fp k)

/-- LangRef, binary operations. -/
inductive BopOk : BinOp → LTy → Prop
  | int {op n} : op ∈ [BinOp.add, .sub, .mul, .sdiv, .udiv, .srem, .urem, .and, .or, .xor, .lshr, .ashr, .shl] → BopOk op (.int n)
  | fp {op k} : op ∈ [BinOp.fadd, .fsub, .fmul, .fdiv, .frem] → BopOk op (.fp k)

def icmps : List CmpOp := [.eq, .ne, .sge, .uge, .sle, .ule, .slt, .ult, .sgt, .ugt]

def fcmps : List CmpOp :=
  [.ffalse, .oeq, .oge, .ogt, .ole, .olt, .one, .ord, .ftrue, .ueq, .fuge, .fugt, .fule, .fult, .une, .uno]

/-- LangRef, `icmp` and `fcmp`. -/
inductive CmpOk : CmpOp → LTy → Prop
  | int {p n} : p ∈ icmps → CmpOk p (.int n)
  | ptr {p} : p ∈ icmps → CmpOk p .ptr
  | fp {p k} : p ∈ fcmps → CmpOk p (.fp k)

mutual

/-- A condition on all values inside a value. -/
def Val.All (P : Val → Prop) : Val → Prop
  | .reg x t => P (.reg x t)
  | .cint w v => P (.cint w v)
  | .cfp k i f e => P (.cfp k i f e)
  | .null => P .null
  | .gep p ixs => P (.gep p ixs) ∧ p.All P ∧ ixs.All P
  | .cast op v t => P (.cast op v t) ∧ v.All P
  | .bop op l r => P (.bop op l r) ∧ l.All P ∧ r.All P
  | .cmp p l r => P (.cmp p l r) ∧ l.All P ∧ r.All P
  | .sel c a b => P (.sel c a b) ∧ c.All P ∧ a.All P ∧ b.All P

def Ixs.All (P : Val → Prop) : Ixs → Prop
  | .nil => True
  | .field _ _ rest => rest.All P
  | .idx i _ rest => i.All P ∧ rest.All P

end

/-- The indices are integers. -/
def Ixs.Ints : Ixs → Prop
  | .nil => True
  | .field _ _ rest => rest.Ints
  | .idx i _ rest => (∃ n, i.ty = .int n) ∧ rest.Ints

/-- One level of a well-formed value. -/
def Val.wt : Val → Prop
  | .reg _ _ => True
  | .cint w v => 0 < w ∧ v < 2 ^ w
  | .cfp _ _ _ _ => True
  | .null => True
  | .gep p ixs => p.ty = .ptr ∧ ixs.Ints
  | .cast op v t => CastOk op v.ty t
  | .bop op l r => l.ty = r.ty ∧ BopOk op l.ty
  | .cmp p l r => l.ty = r.ty ∧ CmpOk p l.ty
  | .sel c a b => c.ty = .int 1 ∧ a.ty = b.ty

/-- The type has a declaration in the prelude. -/
def LTy.Sup : LTy → Prop
  | .int n => n ∈ widths
  | _ => True

/-- The conversions with a declaration in the prelude. -/
def CastSup : CastOp → LTy → LTy → Prop
  | .ptrtoint, _, .int n => n ∈ ptrWidths
  | .inttoptr, .int n, _ => n ∈ ptrWidths
  | .bitcast, s, t => s = t → s = .ptr
  | _, _, _ => True

/-- One level of a value that uses only declared types and conversions. -/
def Val.sup : Val → Prop
  | .cast op v t => CastSup op v.ty t ∧ t.Sup
  | v => v.ty.Sup

/-- One level of a value whose registers are declared in `Γ` with the type of the value. -/
def Val.decl (m : Mode) (Γ : String → Option TName) : Val → Prop
  | .reg x t => Γ x = some (tyName m t)
  | _ => True

/-- A value that is well-formed, uses only what is declared in the prelude, and whose registers are declared. -/
def Val.Good (m : Mode) (Γ : String → Option TName) (v : Val) : Prop :=
  v.All Val.wt ∧ v.All Val.sup ∧ v.All (Val.decl m Γ)

def Ixs.Good (m : Mode) (Γ : String → Option TName) (is : Ixs) : Prop :=
  is.Ints ∧ is.All Val.wt ∧ is.All Val.sup ∧ is.All (Val.decl m Γ)

/-! ## Statements -/

/-- A statement accepted by the type checker. `$alloc` has a parameter and a result of type `ref`. -/
def StOk (S : Sig) (Γ : String → Option TName) : St → Prop
  | .assign x e => ∃ t T, Γ x = some t ∧ Resolves S.types t T ∧ HasTy S Γ e T
  | .assume e => HasTy S Γ e .bool
  | .havoc x => ∃ t T, Γ x = some t ∧ Resolves S.types t T
  | .alloc x e => ∃ t T, Γ x = some t ∧ Resolves S.types t T ∧ Resolves S.types .ref T ∧ HasTy S Γ e T

/-- A scalar type. -/
def LTy.scalar : LTy → Prop
  | .agg => False
  | _ => True

/-- What is known of the region of an access at type `t` (`c72_regions`): it has that type or none; it is accessed by bytes exactly if
it has no type and integers are bit-vectors. -/
structure Reg.Consistent (m : Mode) (r : Reg) (t : LTy) : Prop where
  ty : r.ty = none ∨ r.ty = some t
  byte : r.bytewise = true ↔ m.bp = true ∧ r.ty = none

/-- An access is type-correct: its pointer is, its type is a scalar type, and the memory variable is declared with the type computed
for its region. -/
structure Acc.Good (m : Mode) (Γ : String → Option TName) (a : Acc) : Prop where
  ptr : a.ptr.Good m Γ
  isPtr : a.ptr.ty = .ptr
  ty : a.ty.Sup
  scalar : a.ty.scalar
  mem : Γ a.mem = some (memType m a.reg)
  reg : a.reg.Consistent m a.ty

/-- The three situations in which a load or store does not match the declared type of its region. -/
def Acc.Clash (m : Mode) (a : Acc) : Prop :=
  (a.reg.singleton = true ∧ m.bp = true ∧ m.noInfer = true) ∨
  (a.reg.singleton = true ∧ a.reg.ty = none ∧ boogieTy m a.ty ≠ boogieTy m (.int 8)) ∨
  (a.reg.singleton = false ∧ a.reg.ty = none ∧ m.bp = false ∧ m.bpp = true ∧ a.ty = .ptr)

/-- Whether an intrinsic is translated to an expression; otherwise it is called (SmackInstGenerator.cpp:894-912). `assumes` is the
option `-llvm-assumes`. -/
def handled (m : Mode) (rewriteBitwise : Bool) : Instr → Prop
  | .fp16up .. | .fp16down .. => m.flt = true ∧ m.bp = true
  | .fma .. | .unFp .. | .minmax .. | .round .. => m.flt = true
  | .bitreverse .. | .bswap .. | .ctlz .. | .cttz .. => m.bp = true
  | .ctpop .. => m.bp = true ∨ rewriteBitwise = true
  | _ => True

/-- The path of an `extractvalue`: all types on it but the last are aggregates. -/
def PathOk : LTy → List (Nat × LTy) → LTy → Prop
  | s, [], t => s = t
  | s, (_, u) :: rest, t => s = .agg ∧ u.Sup ∧ PathOk u rest t

/-- The path of an `insertvalue`; each level has the types of all elements. -/
def InsOk : LTy → List (Nat × List LTy) → LTy → Prop
  | s, [], t => s = t
  | s, (i, us) :: rest, t => s = .agg ∧ (∀ u ∈ us, u.Sup) ∧ ∃ u, us[i]? = some u ∧ InsOk u rest t

/-- Well-formed instructions (LangRef), with operands as in `Val.Good`; the register of the result is declared with its type. -/
def Instr.Good (m : Mode) (Γ : String → Option TName) : Instr → Prop
  | .ret none => Γ "$exn" = some .bool
  | .ret (some v) => v.Good m Γ ∧ Γ "$r" = some (tyName m v.ty) ∧ Γ "$exn" = some .bool
  | .br c => c.Good m Γ ∧ c.ty = .int 1
  | .bin x op _ l r => l.Good m Γ ∧ r.Good m Γ ∧ l.ty = r.ty ∧ BopOk op l.ty ∧ Γ x = some (tyName m l.ty)
  | .fneg x v => v.Good m Γ ∧ (∃ k, v.ty = .fp k) ∧ Γ x = some (tyName m v.ty)
  | .extract x v path => v.Good m Γ ∧ ∃ t, PathOk v.ty path t ∧ Γ x = some (tyName m t)
  | .insert x v w path => v.Good m Γ ∧ w.Good m Γ ∧ InsOk v.ty path w.ty ∧ Γ x = some (tyName m v.ty)
  | .alloca x _ n => n.Good m Γ ∧ (∃ w, n.ty = .int w) ∧ Γ x = some (tyName m .ptr)
  | .load x a => a.Good m Γ ∧ Γ x = some (tyName m a.ty)
  | .store a v => a.Good m Γ ∧ v.Good m Γ ∧ v.ty = a.ty
  | .cmpxchg x a c s =>
    a.Good m Γ ∧ c.Good m Γ ∧ s.Good m Γ ∧ c.ty = a.ty ∧ s.ty = a.ty ∧ (a.ty = .ptr ∨ ∃ n, a.ty = .int n) ∧ Γ x = some (tyName m .agg)
  | .rmw x op a v => a.Good m Γ ∧ v.Good m Γ ∧ v.ty = a.ty ∧ (op ≠ none → ∃ n, a.ty = .int n) ∧ Γ x = some (tyName m a.ty)
  | .gep x p ixs => p.Good m Γ ∧ p.ty = .ptr ∧ ixs.Good m Γ ∧ Γ x = some (tyName m .ptr)
  | .cast x op v t => v.Good m Γ ∧ CastOk op v.ty t ∧ CastSup op v.ty t ∧ t.Sup ∧ Γ x = some (tyName m t)
  | .cmp x p l r => l.Good m Γ ∧ r.Good m Γ ∧ l.ty = r.ty ∧ CmpOk p l.ty ∧ Γ x = some (tyName m (.int 1))
  | .sel x c a b => c.Good m Γ ∧ a.Good m Γ ∧ b.Good m Γ ∧ c.ty = .int 1 ∧ a.ty = b.ty ∧ Γ x = some (tyName m a.ty)
  | .llvmAssume v => v.Good m Γ ∧ v.ty = .int 1
  | .expect x v => v.Good m Γ ∧ Γ x = some (tyName m v.ty)
  | .fp16up x v t => v.Good m Γ ∧ v.ty = .int 16 ∧ (∃ k, t = .fp k ∧ 16 < fpBits k) ∧ Γ x = some (tyName m t)
  | .fp16down x v => v.Good m Γ ∧ (∃ k, v.ty = .fp k ∧ 16 < fpBits k) ∧ Γ x = some (tyName m (.int 16))
  | .fma x a b c =>
    a.Good m Γ ∧ b.Good m Γ ∧ c.Good m Γ ∧ (∃ k, a.ty = .fp k) ∧ a.ty = b.ty ∧ a.ty = c.ty ∧ Γ x = some (tyName m a.ty)
  | .unFp x _ v => v.Good m Γ ∧ (∃ k, v.ty = .fp k) ∧ Γ x = some (tyName m v.ty)
  | .minmax x _ a b => a.Good m Γ ∧ b.Good m Γ ∧ (∃ k, a.ty = .fp k) ∧ a.ty = b.ty ∧ Γ x = some (tyName m a.ty)
  | .round x _ v => v.Good m Γ ∧ (∃ k, v.ty = .fp k) ∧ Γ x = some (tyName m v.ty)
  | .bitreverse x v => v.Good m Γ ∧ (∃ n, v.ty = .int n) ∧ Γ x = some (tyName m v.ty)
  | .bswap x v => v.Good m Γ ∧ (∃ n, v.ty = .int n ∧ n % 16 = 0) ∧ Γ x = some (tyName m v.ty)
  | .ctlz x v z | .cttz x v z =>
    v.Good m Γ ∧ z.Good m Γ ∧ (∃ n, v.ty = .int n) ∧ z.ty = .int 1 ∧ Γ x = some (tyName m v.ty)
  | .ctpop x v => v.Good m Γ ∧ (∃ n, v.ty = .int n) ∧ Γ x = some (tyName m v.ty)

/-- The instructions whose translation does not type-check although they are well-formed. -/
def Instr.Clash (m : Mode) : Instr → Prop
  | .load _ a | .store a _ | .rmw _ _ a _ => a.Clash m
  | .cmpxchg _ a _ _ => a.Clash m ∨ boogieTy m a.ty ≠ boogieTy m .agg
  | .fma .. => m.flt = true
  | .unFp _ .sqrt _ => m.flt = true
  | .ctpop _ v => m.bp = true ∧ v.ty = .int 1
  | _ => False

end Smack.Emit
