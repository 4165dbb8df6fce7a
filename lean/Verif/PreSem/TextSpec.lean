/-
LLVM's evaluation of values built of integers, and the expressions of `IntOps` that have the same form. Written without the functions
of the model that translate values.
-/
import Verif.Emit.Spec
import Verif.E2EBv.Spec

namespace Smack.PreSem

/-- The integer operations. -/
def intOp : Emit.BinOp → Option E2EBv.Bin
  | .add => some .add | .sub => some .sub | .mul => some .mul | .sdiv => some .sdiv | .udiv => some .udiv | .srem => some .srem
  | .urem => some .urem | .and => some .and | .or => some .or | .xor => some .xor | .lshr => some .lshr | .ashr => some .ashr
  | .shl => some .shl | _ => none

/-- The predicates of `icmp`. -/
def icmpOf : Emit.CmpOp → Option IntOps.Pred
  | .eq => some .eq | .ne => some .ne | .sge => some .sge | .uge => some .uge | .sle => some .sle | .ule => some .ule
  | .slt => some .slt | .ult => some .ult | .sgt => some .sgt | .ugt => some .ugt | _ => none

/-- `Sem μ v w a`: the value `v` has type `iw` and evaluates to `a`, without undefined behaviour or poison, when the registers have the
contents `μ` (LangRef; `llvmBin`, `llvmPred` are the instructions on machine words). -/
inductive Sem (μ : String → Option ((w : Nat) × BitVec w)) : Emit.Val → (w : Nat) → BitVec w → Prop
  | reg {x w a} : μ x = some ⟨w, a⟩ → Sem μ (.reg x (.int w)) w a
  | cint {w v} : v < 2 ^ w → Sem μ (.cint w v) w (BitVec.ofNat w v)
  | trunc {v n k a} : Sem μ v n a → k < n → Sem μ (.cast .trunc v (.int k)) k (BitVec.ofNat k a.toNat)
  | zext {v n k a} : Sem μ v n a → n < k → Sem μ (.cast .zext v (.int k)) k (BitVec.ofNat k a.toNat)
  | sext {v n k a} : Sem μ v n a → n < k → Sem μ (.cast .sext v (.int k)) k (BitVec.ofInt k a.toInt)
  | bin {op o l r w a b c} : intOp op = some o → Sem μ l w a → Sem μ r w b → E2EBv.llvmBin o a b = some c → Sem μ (.bop op l r) w c
  | cmp {p q l r w a b} : icmpOf p = some q → Sem μ l w a → Sem μ r w b → Sem μ (.cmp p l r) 1 (if E2EBv.llvmPred q a b then 1 else 0)
  | sel {c x y w b s t} : Sem μ c 1 b → Sem μ x w s → Sem μ y w t → Sem μ (.sel c x y) w (if b.toNat = 1 then s else t)

/-- `Off μ n is o`: the indices of a `getelementptr` evaluate to the offset `o`, the sum of the offsets of the fields and of the products of
the indices, which are signed, with the sizes. An index that is not a constant has the width `n` of pointers, or is smaller and
not negative. -/
inductive Off (μ : String → Option ((w : Nat) × BitVec w)) (n : Nat) : Emit.Ixs → Int → Prop
  | nil : Off μ n .nil 0
  | field {no off rest o} : Off μ n rest o → Off μ n (.field no off rest) (off + o)
  | const {w v size rest o} : 0 < w → v < 2 ^ w → Off μ n rest o → Off μ n (.idx (.cint w v) size rest) ((BitVec.ofNat w v).toInt * size + o)
  | idx {i w a size rest o} : Sem μ i w a → (w = n ∨ w < n ∧ 0 ≤ a.toInt) → Off μ n rest o → Off μ n (.idx i size rest) (a.toInt * size + o)

/-- A `getelementptr` with indices that are all zero has no offset: fields with number 0 have offset 0. -/
def FieldsOk : Emit.Ixs → Prop
  | .nil => True
  | .field no off rest => (no = 0 → off = 0) ∧ FieldsOk rest
  | .idx _ _ rest => FieldsOk rest

/-- `Adr μ α n v z`: the pointer value `v` is the address `z` when the pointer registers hold the addresses `α`. -/
inductive Adr (μ : String → Option ((w : Nat) × BitVec w)) (α : String → Option Int) (n : Nat) : Emit.Val → Int → Prop
  | reg {x z} : α x = some z → Adr μ α n (.reg x .ptr) z
  | null : Adr μ α n .null 0
  | gep {p is z o} : Adr μ α n p z → Off μ n is o → FieldsOk is → Adr μ α n (.gep p is) (z + o)
  | cast {v z} : Adr μ α n v z → v.ty = .ptr → Adr μ α n (.cast .bitcast v .ptr) z

/-- `Ren nm u ui v w e`: the expression `e` of width `w` is the value `v`, with the variable `k` for the register `nm k`. The flags
`u`, `ui` are those under which constants are translated (SmackRep.cpp:936-944, 973-984, 994-1004). -/
inductive Ren (nm : Nat → String) : Bool → Bool → Emit.Val → (w : Nat) → IntOps.Expr w → Prop
  | reg {u ui k w} : Ren nm u ui (.reg (nm k) (.int w)) w (.var w k)
  | cint {u ui w v} : 0 < w → v < 2 ^ w → Ren nm u ui (.cint w v) w (.lit u ui (BitVec.ofNat w v))
  | trunc {u ui v n k e} : Ren nm false false v n e → k < n → Ren nm u ui (.cast .trunc v (.int k)) k (.trunc k e)
  | zext {u ui v n k e} : Ren nm false false v n e → n < k → Ren nm u ui (.cast .zext v (.int k)) k (.zext k e)
  | sext {u ui v n k e} : Ren nm false false v n e → n < k → Ren nm u ui (.cast .sext v (.int k)) k (.sext k e)
  | add {u ui l r w a b} : Ren nm false false l w a → Ren nm false false r w b → Ren nm u ui (.bop .add l r) w (.add a b)
  | sub {u ui l r w a b} : Ren nm true true l w a → Ren nm true true r w b → Ren nm u ui (.bop .sub l r) w (.sub a b)
  | mul {u ui l r w a b} : Ren nm false false l w a → Ren nm false false r w b → Ren nm u ui (.bop .mul l r) w (.mul a b)
  | udiv {u ui l r w a b} : Ren nm true true l w a → Ren nm true true r w b → Ren nm u ui (.bop .udiv l r) w (.udiv a b)
  | sdiv {u ui l r w a b} : Ren nm false false l w a → Ren nm false false r w b → Ren nm u ui (.bop .sdiv l r) w (.sdiv a b)
  | urem {u ui l r w a b} : Ren nm true true l w a → Ren nm true true r w b → Ren nm u ui (.bop .urem l r) w (.urem a b)
  | srem {u ui l r w a b} : Ren nm false false l w a → Ren nm false false r w b → Ren nm u ui (.bop .srem l r) w (.srem a b)
  | and {u ui l r a b} : Ren nm false false l 1 a → Ren nm false false r 1 b → Ren nm u ui (.bop .and l r) 1 (.logic1 .and a b)
  | or {u ui l r a b} : Ren nm false false l 1 a → Ren nm false false r 1 b → Ren nm u ui (.bop .or l r) 1 (.logic1 .or a b)
  | xor {u ui l r a b} : Ren nm false false l 1 a → Ren nm false false r 1 b → Ren nm u ui (.bop .xor l r) 1 (.logic1 .xor a b)
  | cmp {u ui p q l r w a b} : icmpOf p = some q →
      Ren nm (p ∈ [Emit.CmpOp.ugt, .uge, .ult, .ule]) true l w a → Ren nm (p ∈ [Emit.CmpOp.ugt, .uge, .ult, .ule]) true r w b →
      Ren nm u ui (.cmp p l r) 1 (.icmp q a b)
  | sel {u ui c x y w d a b} : Ren nm false false c 1 d → Ren nm true true x w a → Ren nm true true y w b →
      Ren nm u ui (.sel c x y) w (.select d a b)

end Smack.PreSem
