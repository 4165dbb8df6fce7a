/-
Model of the code generated for `llvm.memcpy` and `llvm.memset`
(lib/smack/SmackRep.cpp: memcpy 301-325, memset 327-348, memcpyProc 1330-1403, memsetProc 1405-1476).
-/
import Verif.Regions.Model

namespace Smack.MemIntr

/-- The operations on `ref` used by the generated code. -/
structure RefOps (R : Type) where
  add : R → R → R
  sub : R → R → R
  sle : R → R → Bool
  slt : R → R → Bool
  lit : Nat → R

/-- `ref` = `int`: `$add.ref`, `$sub.ref`, `$sle.ref.bool`, `$slt.ref.bool` are the operations of `int` (Prelude.cpp:1183-1320). -/
def intRef : RefOps Int where
  add := (· + ·)
  sub := (· - ·)
  sle := fun a b => decide (a ≤ b)
  slt := fun a b => decide (a < b)
  lit := fun n => (n : Int)

/-- `ref` = `bv64` with bit-precise pointers (the width is a parameter): bvadd, bvsub, bvsle, bvslt. -/
def bvRef (w : Nat) : RefOps (BitVec w) where
  add := (· + ·)
  sub := (· - ·)
  sle := fun a b => a.sle b
  slt := fun a b => a.slt b
  lit := fun n => BitVec.ofNat w n

/-- MEMORY_INTRINSIC_THRESHOLD, SmackRep.cpp:55. -/
def threshold : Nat := 0

/-- The `unsigned length` computed from the length operand (SmackRep.cpp:302-306, 328-332): `getZExtValue()` of a constant is
truncated to 32 bits, other operands give UINT_MAX. -/
def length (const : Option Nat) : Nat := Regions.memLength const

/-- A map update `M[p] := v`. -/
def upd {R α : Type} [DecidableEq R] (M : R → α) (p : R) (v : α) : R → α := fun q => if q = p then v else M q

variable {R α : Type} [DecidableEq R]

/-- The body of `$memcpy.T.n` (SmackRep.cpp:1352-1363): `M.ret := M.dst` followed by the assignments for offsets 0, ..., n-1. The
parameter `M.src` is the memory before the call. -/
def copyBody (o : RefOps R) (Mdst Msrc : R → α) (dst src : R) (n : Nat) : R → α :=
  (List.range n).foldl (fun M k => upd M (o.add dst (o.lit k)) (Msrc (o.add src (o.lit k)))) Mdst

/-- The three quantified formulas of `$memcpy.T` (SmackRep.cpp:1365-1401; assumed in the body or ensured by the contract). -/
def copyContract (o : RefOps R) (Mdst Msrc : R → α) (dst src len : R) (Mret : R → α) : Prop :=
  (∀ x, (o.sle dst x && o.slt x (o.add dst len)) = true → Mret x = Msrc (o.add (o.sub src dst) x)) ∧
  (∀ x, o.slt x dst = true → Mret x = Mdst x) ∧
  (∀ x, o.sle (o.add dst len) x = true → Mret x = Mdst x)

/-- The memories that can result from `M.ret := $memcpy(M.dst, M.src, dst, src, len)` (memcpyProc). -/
def memcpyPost (o : RefOps R) (const : Option Nat) (Mdst Msrc : R → α) (dst src len : R) (Mret : R → α) : Prop :=
  if length const ≤ threshold then Mret = copyBody o Mdst Msrc dst src (length const)
  else copyContract o Mdst Msrc dst src len Mret

/-- The body of `$memset.T.n` (SmackRep.cpp:1427-1437). -/
def setBody (o : RefOps R) (M : R → α) (dst : R) (val : α) (n : Nat) : R → α :=
  (List.range n).foldl (fun M k => upd M (o.add dst (o.lit k)) val) M

/-- The three formulas of `$memset.T` (SmackRep.cpp:1439-1474). -/
def setContract (o : RefOps R) (M : R → α) (dst : R) (val : α) (len : R) (Mret : R → α) : Prop :=
  (∀ x, (o.sle dst x && o.slt x (o.add dst len)) = true → Mret x = val) ∧
  (∀ x, o.slt x dst = true → Mret x = M x) ∧
  (∀ x, o.sle (o.add dst len) x = true → Mret x = M x)

/-- The memories that can result from `M.ret := $memset(M, dst, val, len)` (memsetProc). -/
def memsetPost (o : RefOps R) (const : Option Nat) (M : R → α) (dst : R) (val : α) (len : R) (Mret : R → α) : Prop :=
  if length const ≤ threshold then Mret = setBody o M dst val (length const)
  else setContract o M dst val len Mret

end Smack.MemIntr
