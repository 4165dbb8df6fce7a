/-
Model of `strtok` and `strerror` (share/smack/lib/string.c:169-201), of the functions of share/smack/lib/stdlib.c other than calloc and realloc
(C55). Memory is as in `CString` (bytes; `none` must not be accessed); pointers in memory (`*endptr`) are kept in a memory of
their own. The values of `__VERIFIER_nondet_T` are arguments of the functions.
-/
import Verif.CString.Model

namespace Smack.StdLib

open CString (Mem Byte wr strlen strspn strpbrk)

/-- string.c:170-194. `olds` is the static variable; the result is the memory, the new `olds`, and the returned pointer. -/
def strtok (m : Mem) (olds str : Option Nat) (delim : Nat) : Option (Mem × Option Nat × Option Nat) :=
  match (match str with | some s => some s | none => olds) with
  | none => some (m, olds, none)
  | some s => do
    let k ← strspn m s delim
    let b ← m (s + k)
    if b = 0 then some (m, olds, none)
    else
      let r ← strpbrk m (s + k) delim
      match r with
      | none => some (m, none, some (s + k))
      | some e =>
        let m' ← wr m e 0
        some (m', some (e + 1), some (s + k))

/-- The end of a call: it returns, an assertion fails, or the execution is cut off. -/
inductive Res (α : Type) where
  | ret (a : α)
  | fail
  | block
deriving DecidableEq, Repr

/-- stdlib.c:48-56, 58-66, 68-76, 78-86 (strtol, strtoul, strtoull, strtod; they differ in the type of `v`). `nondet` is the value of
`__VERIFIER_nondet_unsigned_int`, `v` that of the last call. `pm` is the memory of pointers. -/
def strto {α : Type} (m : Mem) (pm : Nat → Option Nat) (nptr : Nat) (endptr : Option Nat) (nondet : BitVec 32) (v : α) :
    Option (Res ((Nat → Option Nat) × α)) :=
  match endptr with
  | none => some (.ret (pm, v))
  | some e => do
    let size ← strlen m nptr
    if nondet.toNat ≤ size then some (.ret (fun x => if x = e then some (nptr + nondet.toNat) else pm x, v)) else some .block

/-- stdlib.c:88-97. `buf` is the address of the literal `"xx"`; `nd` is the value of `__VERIFIER_nondet_int`. -/
def getenv (m : Mem) (buf : Nat) (nd : Int) (c0 c1 : Byte) : Option (Mem × Option Nat) :=
  if nd ≠ 0 then some (m, none)
  else do
    let m1 ← wr m buf c0
    let m2 ← wr m1 (buf + 1) c1
    some (m2, some buf)

/-- string.c:196-201. -/
def strerror (m : Mem) (buf : Nat) (c0 c1 : Byte) : Option (Mem × Nat) := do
  let m1 ← wr m buf c0
  let m2 ← wr m1 (buf + 1) c1
  some (m2, buf)

/-- stdlib.c:8-15 and 17-24 (exit, abort). `counter` is `$allocatedCounter`; what follows `assume false` is not executed. -/
def exit (memorySafety : Bool) (counter : Int) : Res Unit :=
  if memorySafety && counter != 0 then .fail else .block

end Smack.StdLib
