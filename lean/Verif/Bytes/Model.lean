/-
Bytewise memory operations of the bit-precise prelude: `$load.bytes.bvN`, `$store.bytes.bvN`
(lib/smack/Prelude.cpp:184-247 and 930-1000).
-/

namespace Smack.Bytes

/-- A pointer representation: the type `ref` with `$add.ref(p, literal)`. -/
structure PtrRep where
  Ref : Type
  addLit : Ref → Nat → Ref

/-- Pointers as mathematical integers (Prelude.cpp:1247-1261 `$add.ref = $add.iN`, unbounded `+`). -/
def intPtr : PtrRep where
  Ref := Int
  addLit p i := p + (i : Int)

/-- Pointers as bit-vectors (--pointer-encoding=bit-vector: `$add.ref = $add.bvN`, i.e. `bvadd`; the literal is
printed with the pointer width). -/
def bvPtr (w : Nat) : PtrRep where
  Ref := BitVec w
  addLit p i := p + BitVec.ofNat w i

/-- A Boogie map `[ref] bv8`. -/
def Mem (P : PtrRep) := P.Ref → BitVec 8

/-- The index expression of `mapSelExpr`/`mapUpdExpr` (Prelude.cpp:186-206): `p` for 0, `$add.ref(p, idx)` otherwise. -/
def addr {P : PtrRep} (p : P.Ref) (idx : Nat) : P.Ref := if idx = 0 then p else P.addLit p idx

/-- Map update `M[q := b]`; equality of references is decided classically. -/
noncomputable def upd {P : PtrRep} (M : Mem P) (q : P.Ref) (b : BitVec 8) : Mem P :=
  fun r => open Classical in if r = q then b else M r

/-- `loadBody` after the loop has run up to (excluding) `n` (Prelude.cpp:973-980): `M[p+(n-1)] ++ ... ++ M[p]`. -/
def loadBody {P : PtrRep} (M : Mem P) (p : P.Ref) : (n : Nat) → BitVec (8 * n)
  | 0 => 0#0
  | n + 1 => (M (addr p n) ++ loadBody M p n).cast (by omega)

/-- `storeBody` after the loop has run up to (excluding) `n` (Prelude.cpp:974-982); `i[upper:lower]` with
`lower = n << 3`, `upper = lower + 8` is `extractLsb' lower 8`. -/
noncomputable def storeBody {P : PtrRep} {w : Nat} (M : Mem P) (p : P.Ref) (v : BitVec w) : Nat → Mem P
  | 0 => M
  | n + 1 => upd (storeBody M p v n) (addr p n) (v.extractLsb' (n <<< 3) 8)

/-- `$load.bytes.bvN` (Prelude.cpp:950-990) for `N = size`. The result carries the bit width of the generated body. -/
def load {P : PtrRep} (size : Nat) (M : Mem P) (p : P.Ref) : (w : Nat) × BitVec w :=
  if size < 8 then ⟨size, (M (addr p 0)).setWidth size⟩
  else ⟨8 * (size >>> 3), loadBody M p (size >>> 3)⟩

/-- `$store.bytes.bvN` (Prelude.cpp:950-996). -/
noncomputable def store {P : PtrRep} {size : Nat} (M : Mem P) (p : P.Ref) (v : BitVec size) : Mem P :=
  if size < 8 then upd M (addr p 0) (v.setWidth 8)
  else storeBody M p v (size >>> 3)

/-- Number of bytes touched by a store of `size` bits. -/
def bytes (size : Nat) : Nat := if size < 8 then 1 else size / 8

end Smack.Bytes
