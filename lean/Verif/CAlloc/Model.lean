import Verif.Alloc.Model
import Verif.MemIntr.Model

/-
Model of `calloc` and `realloc` (share/smack/lib/stdlib.c:26-46) on top of the allocation procedures of the memory models
(Alloc) and the procedure generated for memset (MemIntr), with integer pointers. `mem` is one memory region (one entry per
address).
-/

namespace Smack.CAlloc

open Smack.Alloc Smack.MemIntr

structure HSt where
  st : St
  mem : Int → Int

/-- The product `num * size` of type size_t: `$mul.i64` is exact on integers (Prelude.cpp:483-494) and modulo 2^64 on
bit-vectors. -/
def product (bitPrecise : Bool) (num size : Nat) : Nat := if bitPrecise then num * size % 2 ^ 64 else num * size

/-- stdlib.c:26-37: null (the nondeterministic branch), or malloc followed by memset, inside an atomic section. -/
def calloc (c : Cfg) (I : Interp) (bitPrecise : Bool) (num size : Nat) (ret : Int) (h h' : HSt) : Prop :=
  (ret = 0 ∧ h' = h) ∨
  (mallocRel c I (product bitPrecise num size) ret h.st h'.st ∧
    memsetPost intRef none h.mem ret 0 (product bitPrecise num size : Int) h'.mem)

/-- stdlib.c:39-46: free followed by malloc. Nothing writes the memory. -/
def realloc (c : Cfg) (I : Interp) (ptr : Int) (size : Nat) (ret : Int) (h h' : HSt) : Prop :=
  freeOk c I h.st ptr ∧
  ∃ s1, freeRel c ptr h.st s1 ∧ mallocRel c I size ret s1 h'.st ∧ h'.mem = h.mem

end Smack.CAlloc
