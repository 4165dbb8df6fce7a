/-
One flat memory of bytes, and what it means for the points-to information to be right for an execution.
-/
import Verif.MemSplit.Model

namespace Smack.MemSplit

open Smack.Bytes (PtrRep)

/-- Byte `i` of a value of `w` bits, little endian; the last byte is filled up with zeros. -/
def byteOf {w : Nat} (b : BitVec w) (i : Nat) : BitVec 8 := BitVec.ofNat 8 (b.toNat / 256 ^ i)

open Classical in
/-- Writing `n` bytes of a value. -/
noncomputable def flatWrite {P : PtrRep} {w : Nat} (M : P.Ref → BitVec 8) (p : P.Ref) (n : Nat) (b : BitVec w) :
    P.Ref → BitVec 8 :=
  fun q => match (List.range n).find? (fun i => decide (Bytes.addr p i = q)) with
    | some i => byteOf b i
    | none => M q

/-- The number stored in `n` bytes, least significant byte first. -/
def flatNat {P : PtrRep} (M : P.Ref → BitVec 8) (p : P.Ref) : Nat → Nat
  | 0 => 0
  | n + 1 => flatNat M p n + (M (Bytes.addr p n)).toNat * 256 ^ n

/-- Reading a value of type `t`. -/
def flatRead {P : PtrRep} (M : P.Ref → BitVec 8) (p : P.Ref) (t : Ty) : BitVec t.bits := BitVec.ofNat _ (flatNat M p t.store)

/-- The bits of a value of type `t`. -/
def bitsOf (t : Ty) : Val → BitVec t.bits
  | .int i => BitVec.ofInt _ i
  | .bv _ b => b.setWidth _

/-- The reference execution; `prog` gives the type of each access. Returns the bits loaded. -/
noncomputable def flatRun {P : PtrRep} (prog : List Static) :
    (P.Ref → BitVec 8) → List (Event P) → Option (List ((t : Ty) × BitVec t.bits))
  | _, [] => some []
  | M, e :: es => do
    let A ← prog[e.stmt]?
    match e.value with
    | none =>
      let vs ← flatRun prog M es
      pure (⟨A.ty, flatRead M e.addr A.ty⟩ :: vs)
    | some v => flatRun prog (flatWrite M e.addr A.ty.store (bitsOf A.ty v)) es

/-- The node may be aliased by any other incomplete node; by any other node with the flags of a complicated one; or at any offset.
Without a node everything is possible. -/
def mayIncomplete (D : Nat → Node) : Option Nat → Bool
  | none => true
  | some n => (D n).incomplete
def mayComplicated (D : Nat → Node) : Option Nat → Bool
  | none => true
  | some n => (D n).intToPtr || (D n).ptrToInt || (D n).external || (D n).unknown
def mayCollapsed (D : Nat → Node) : Option Nat → Bool
  | none => true
  | some n => (D n).offsetCollapsed

/-- What sea-dsa says is true of the execution: two executed accesses that share a byte belong to incomplete nodes, or to
complicated nodes, or to the same node, and unless its offsets are collapsed the byte has the same offset in both. An access to an
object with a single instance is always to the same address. -/
structure Sound (D : Nat → Node) {P : PtrRep} (prog : List Static) (tr : List (Event P)) : Prop where
  alias : ∀ e ∈ tr, ∀ f ∈ tr, ∀ A B, prog[e.stmt]? = some A → prog[f.stmt]? = some B → ∀ i j, i < A.len → j < B.len →
    Bytes.addr e.addr i = Bytes.addr f.addr j →
    (mayIncomplete D A.node = true ∧ mayIncomplete D B.node = true) ∨
    (mayComplicated D A.node = true ∧ mayComplicated D B.node = true) ∨
    (A.node = B.node ∧ (mayCollapsed D A.node = true ∨ A.offset + i = B.offset + j))
  global : ∀ e ∈ tr, ∀ f ∈ tr, ∀ A B, prog[e.stmt]? = some A → prog[f.stmt]? = some B → ∀ n, A.node = some n → B.node = some n →
    A.offset = B.offset → (D n).heap = false → (D n).alloca = false → (D n).array = false → (D n).numGlobals = 1 →
    e.addr = f.addr

/-- The accesses `h` seen by the region pass: what sea-dsa recorded about the nodes, and the sizes. `prog` are the loads and
stores. -/
structure Valid (D : Nat → Node) (h prog : List Static) : Prop where
  fields : ∀ n, TypeSafe.Ok (D n).fields
  recorded : ∀ A ∈ h, ∀ n, A.node = some n → TypeSafe.isTypeSafe (D n).toNode A.offset = true →
    A.len = A.ty.store ∧ ∃ f ∈ (D n).fields, f.off = A.offset ∧ (⟨A.ty.id, A.ty.store⟩ : TypeSafe.Ty) ∈ f.types
  fits : ∀ A ∈ h, A.offset + A.len < 2 ^ 32
  positive : ∀ A ∈ h, 0 < A.len
  seen : ∀ A ∈ prog, A ∈ h
  size : ∀ A ∈ prog, A.len = A.ty.store
  /-- Widths for which the bytewise operations are right (C08). -/
  width : ∀ A ∈ prog, A.ty.bits < 8 ∨ A.ty.bits % 8 = 0

/-- The stored values have the types of the accesses. -/
def Typed (m : Mode) {P : PtrRep} (prog : List Static) (tr : List (Event P)) : Prop :=
  ∀ e ∈ tr, ∃ A, prog[e.stmt]? = some A ∧ ∀ v, e.value = some v → HasTy v (bty m A.ty)

/-- Every access is of a type-safe field. -/
def AllTypeSafe (D : Nat → Node) (prog : List Static) : Prop :=
  ∀ A ∈ prog, ∃ n, A.node = some n ∧ TypeSafe.isTypeSafe (D n).toNode A.offset = true

/-- With `--no-byte-access-inference` in bit-precise mode no variable may be a scalar. -/
def NoScalars (m : Mode) (D : Nat → Node) (h : List Static) : Prop :=
  m.bitPrecise = true → m.noInference = true → ∀ A ∈ h, (describe m D A).singleton = false

/-- The modes covered: bit-precise, or integers throughout with all accesses type-safe. -/
def Covered (m : Mode) (D : Nat → Node) (prog : List Static) : Prop :=
  m.bitPrecise = true ∨ (m.bvPointers = false ∧ AllTypeSafe D prog)

/-- The values loaded are the bits loaded. -/
inductive Agrees (m : Mode) : List Val → List ((t : Ty) × BitVec t.bits) → Prop where
  | nil : Agrees m [] []
  | cons {t : Ty} {v : Val} {vs : List Val} {bs : List ((t : Ty) × BitVec t.bits)} :
      HasTy v (bty m t) → Agrees m vs bs → Agrees m (v :: vs) (⟨t, bitsOf t v⟩ :: bs)

end Smack.MemSplit
