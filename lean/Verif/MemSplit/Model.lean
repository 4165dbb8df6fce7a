/-
Loads and stores on memory split into regions: lib/smack/SmackRep.cpp:264-272 (declared types of the memory variables), 492-542
(load, store), Regions.cpp:22-58 (the attributes of an access), and the load and store functions of the prelude
(Prelude.cpp:186-247, 930-1000, 1266-1297).

Built on the models of the region table (`Regions`), of the type-safety test (`TypeSafe`), of the bytewise operations (`Bytes`) and
of the pointer conversions (`Gep`). Only integer and pointer accesses; pointers have 64 bits. Boogie's type check is part of the
model: an ill-typed statement has no execution (`none`).
-/
import Verif.Regions.Spec
import Verif.TypeSafe.Spec
import Verif.Bytes.Model
import Verif.Gep.Model

namespace Smack.MemSplit

open Smack.Regions (Region NodeInfo)
open Smack.Bytes (PtrRep)

/-- SmackOptions::BitPrecise, BitPrecisePointers, NoByteAccessInference. -/
structure Mode where
  bitPrecise : Bool
  bvPointers : Bool
  noInference : Bool
deriving DecidableEq, Repr

/-- The LLVM types of the accesses. Two `llvm::Type *` are equal iff they are the same type. -/
inductive Ty where
  | int (w : Nat)
  | ptr (pointee : Nat)
deriving DecidableEq, Repr

def Ty.bits : Ty → Nat
  | .int w => w
  | .ptr _ => 64

/-- The identity of the type as the number used in the region table. -/
def Ty.id : Ty → Nat
  | .int w => 2 * w
  | .ptr n => 2 * n + 1

def Ty.ofId (n : Nat) : Ty := if n % 2 = 0 then .int (n / 2) else .ptr (n / 2)

/-- DataLayout::getTypeStoreSize. -/
def Ty.store (t : Ty) : Nat := (t.bits + 7) / 8

/-- A sea-dsa node, with what `Region` asks of it. `numGlobals` is DSAWrapper::getNumGlobals (DSAWrapper.cpp:199-204). -/
structure Node extends TypeSafe.Node where
  heap : Bool
  alloca : Bool
  array : Bool
  numGlobals : Nat

/-- A lookup of the region table: the node (`none` for null constants and values without a cell), the offset, the pointed-to type
and the length. -/
structure Static where
  node : Option Nat
  offset : Nat
  ty : Ty
  len : Nat
deriving DecidableEq, Repr

/-- Regions.cpp:22-28. -/
def isSingleton (n : Node) (offset : Nat) : Bool :=
  !(n.heap || n.alloca) && n.numGlobals == 1 && !n.array && TypeSafe.isTypeSafe n.toNode offset && !n.memOpd

/-- Regions.cpp:34-37 and 55-57. -/
def info (D : Nat → Node) (n : Nat) : NodeInfo where
  incomplete := (D n).incomplete
  complicated := (D n).intToPtr || (D n).ptrToInt || (D n).external || (D n).unknown
  collapsed := (D n).offsetCollapsed

/-- Regions.cpp:39-58: the attributes of the region created for a lookup. The conjunction of `bytewise` with BitPrecise and the
treatment of a missing node are in `Regions.initRegion`. -/
def describe (m : Mode) (D : Nat → Node) (A : Static) : Regions.Access where
  node := A.node
  ty := A.ty.id
  offset := A.offset
  length := A.len
  singleton := match A.node with
    | none => false
    | some n => isSingleton (D n) A.offset
  allocated := match A.node with
    | none => true
    | some n => (D n).heap || (D n).alloca
  bytewise := m.noInference || (match A.node with
    | none => true
    | some n => !TypeSafe.isTypeSafe (D n).toNode A.offset) || decide (A.ty = .int 8)

/-- Boogie types; `i8`, `i32`, … are synonyms of `int`, and `ref` is a synonym of `i64` or `bv64`. -/
inductive BTy where
  | int
  | bv (w : Nat)
deriving DecidableEq, Repr

/-- SmackRep::type, SmackRep.cpp:216-244, for integers and pointers. -/
def bty (m : Mode) : Ty → BTy
  | .int w => if m.bitPrecise then .bv w else .int
  | .ptr _ => if m.bvPointers then .bv 64 else .int

/-- The type of a memory variable. -/
structure Decl where
  isMap : Bool
  elem : BTy
deriving DecidableEq, Repr

/-- SmackRep::memType, SmackRep.cpp:264-272. -/
def memType (m : Mode) (r : Region) : Decl where
  isMap := !r.singleton || (m.bitPrecise && m.noInference)
  elem := match r.type with
    | some id => bty m (Ty.ofId id)
    | none => bty m (.int 8)

/-- How a region is accessed: the variable itself, `$load.T`/`$store.T`, or `$load.bytes.T`/`$store.bytes.T`. -/
inductive Form where
  | scalar
  | elem
  | bytes
deriving DecidableEq, Repr

/-- SmackRep.cpp:506-518 and 530-542. -/
def form (r : Region) : Form := if r.singleton then .scalar else if r.bytewise then .bytes else .elem

/-- A generated load or store. -/
structure Stmt where
  region : Nat
  form : Form
  ty : Ty
deriving DecidableEq, Repr

/-- The translation of the accesses of a module in the order `s`, starting from the table `regs` (SmackRep.cpp:503-505, 527, 530-531:
look up, then read the attributes). The second component is the table at the end, from which the variables are declared
(Prelude.cpp:1119). -/
def translate (m : Mode) (D : Nat → Node) (regs : List Region) : List Static → List Stmt × List Region
  | [] => ([], regs)
  | A :: s =>
    let p := Regions.idx m.bitPrecise regs ((describe m D A).region (info D) m.bitPrecise)
    let rest := translate m D p.1 s
    match p.1[p.2]? with
    | some r => (⟨p.2, form r, A.ty⟩ :: rest.1, rest.2)
    | none => (⟨p.2, .scalar, A.ty⟩ :: rest.1, rest.2)

/-- With `--no-memory-splitting` sea-dsa is not run (Regions.cpp:122-144): `Region::DSA` stays null, all accesses get the null node
with offset 0 and unknown length (lines 44-47, 60-63), no access is bytewise by itself (52-54), and the table is empty when the
translation starts. -/
def describeNoSplit (A : Static) : Regions.Access where
  node := none
  ty := A.ty.id
  offset := 0
  length := 2 ^ 32 - 1
  singleton := false
  allocated := true
  bytewise := false

/-- `translate` in that case. -/
def translateNoSplit (m : Mode) (D : Nat → Node) (regs : List Region) : List Static → List Stmt × List Region
  | [] => ([], regs)
  | A :: s =>
    let p := Regions.idx m.bitPrecise regs ((describeNoSplit A).region (info D) m.bitPrecise)
    let rest := translateNoSplit m D p.1 s
    match p.1[p.2]? with
    | some r => (⟨p.2, form r, A.ty⟩ :: rest.1, rest.2)
    | none => (⟨p.2, .scalar, A.ty⟩ :: rest.1, rest.2)

/-- The table after the region pass over the lookups `h` (Regions.cpp:138-157, 240-303: the pass visits all instructions of the
module before the translation). -/
def table (m : Mode) (D : Nat → Node) (h : List Static) : List Region := Regions.collect (info D) m.bitPrecise (h.map (describe m D))

/-- Values. -/
inductive Val where
  | int (i : Int)
  | bv (w : Nat) (b : BitVec w)

def HasTy : Val → BTy → Prop
  | .int _, .int => True
  | .bv w _, .bv w' => w = w'
  | _, _ => False

instance (v : Val) (t : BTy) : Decidable (HasTy v t) := by
  unfold HasTy; cases v <;> cases t <;> infer_instance

/-- The value of a memory variable. -/
inductive Content (P : PtrRep) where
  | scalar (v : Val)
  | map (f : P.Ref → Val)

def Content.HasTy {P : PtrRep} : Content P → Decl → Prop
  | .scalar v, d => d.isMap = false ∧ MemSplit.HasTy v d.elem
  | .map f, d => d.isMap = true ∧ ∀ p, MemSplit.HasTy (f p) d.elem

/-- The representation of addresses. -/
def ptrRep (m : Mode) : PtrRep := if m.bvPointers then Bytes.bvPtr 64 else Bytes.intPtr

def asByte : Val → BitVec 8
  | .bv _ b => b.setWidth 8
  | .int _ => 0

def byteMem {P : PtrRep} (f : P.Ref → Val) : Bytes.Mem P := fun q => asByte (f q)

/-- `$i2p.bv64.ref` and `$p2i.ref.bv64` (generatePtrNumConvs). -/
def i2p (m : Mode) {w : Nat} (b : BitVec w) : Option Val :=
  if m.bvPointers then some (.bv w b) else (Gep.bv2int .bvInt b).map .int

def p2i : Val → BitVec 64
  | .bv _ b => b.setWidth 64
  | .int i => Gep.int2bv 64 i

/-- `$load.bytes.T`. -/
def loadBytes (m : Mode) {P : PtrRep} (t : Ty) (M : Bytes.Mem P) (p : P.Ref) : Option Val :=
  match t with
  | .int w => if (Bytes.load w M p).1 = w then some (.bv _ (Bytes.load w M p).2) else none
  | .ptr _ => i2p m (Bytes.load 64 M p).2

/-- `$store.bytes.T`. -/
noncomputable def storeBytes {P : PtrRep} (t : Ty) (M : Bytes.Mem P) (p : P.Ref) (v : Val) : Bytes.Mem P :=
  match t, v with
  | .int _, .bv _ b => Bytes.store M p b
  | .int _, .int _ => M
  | .ptr _, v => Bytes.store M p (p2i v)

/-- The value of a load, `none` if it does not type-check. -/
def load (m : Mode) {P : PtrRep} (decls : List Decl) (σ : Nat → Content P) (st : Stmt) (p : P.Ref) : Option Val :=
  match decls[st.region]?, st.form, σ st.region with
  | some ⟨false, t⟩, .scalar, .scalar v => if t = bty m st.ty then some v else none
  | some ⟨true, t⟩, .elem, .map f => if t = bty m st.ty then some (f p) else none
  | some ⟨true, t⟩, .bytes, .map f => if t = .bv 8 then loadBytes m st.ty (byteMem f) p else none
  | _, _, _ => none

open Classical in
/-- The new value of the memory variable of a store. -/
noncomputable def store (m : Mode) {P : PtrRep} (decls : List Decl) (σ : Nat → Content P) (st : Stmt) (p : P.Ref) (v : Val) :
    Option (Content P) :=
  if HasTy v (bty m st.ty) then
    match decls[st.region]?, st.form, σ st.region with
    | some ⟨false, t⟩, .scalar, .scalar _ => if t = bty m st.ty then some (.scalar v) else none
    | some ⟨true, t⟩, .elem, .map f =>
      if t = bty m st.ty then some (.map fun q => if q = p then v else f q) else none
    | some ⟨true, t⟩, .bytes, .map f =>
      if t = .bv 8 then some (.map fun q => .bv 8 (storeBytes st.ty (byteMem f) p v q)) else none
    | _, _, _ => none
  else none

/-- An executed access: the number of the statement, the address, and the value if it is a store. -/
structure Event (P : PtrRep) where
  stmt : Nat
  addr : P.Ref
  value : Option Val

/-- An execution; returns the values loaded. -/
noncomputable def run (m : Mode) {P : PtrRep} (stmts : List Stmt) (decls : List Decl) :
    (Nat → Content P) → List (Event P) → Option (List Val)
  | _, [] => some []
  | σ, e :: es => do
    let st ← stmts[e.stmt]?
    match e.value with
    | none =>
      let v ← load m decls σ st e.addr
      let vs ← run m stmts decls σ es
      pure (v :: vs)
    | some v =>
      let c ← store m decls σ st e.addr v
      run m stmts decls (fun r => if r = st.region then c else σ r) es

end Smack.MemSplit
