/-
Model of the string functions of share/smack/lib/string.c (8-192).

Memory is a map from addresses to bytes; `none` is an address that must not be accessed. A function returns `none` if it
accesses such an address or does not terminate (`partial_fixpoint`: the loops are the loops of the source, without a bound
on the number of iterations). Simplifications: addresses are natural numbers (no wrap-around of pointers and of `size_t`
counters, which cannot happen inside an object); `char` is signed, as on the targets SMACK uses; the null pointer is
`Option.none` in the returned value.
-/

namespace Smack.CString

abbrev Byte := BitVec 8
abbrev Mem := Nat → Option Byte

/-- A store; undefined outside the accessible addresses. -/
def wr (m : Mem) (a : Nat) (b : Byte) : Option Mem :=
  match m a with
  | none => none
  | some _ => some (fun x => if x = a then some b else m x)

/-- string.c:12-24. `nd` is the value of `__VERIFIER_nondet_int`; the inner `none` is an execution that is cut off by
`__VERIFIER_assume`. -/
def memcmp (m : Mem) (nd : Int) (s1 s2 : Nat) : Nat → Option (Option Int)
  | 0 => some (some 0)
  | n + 1 => do
    let a ← m s1
    let b ← m s2
    if a ≠ b then
      if a.toNat < b.toNat then some (if nd < 0 then some nd else none)
      else some (if nd > 0 then some nd else none)
    else memcmp m nd (s1 + 1) (s2 + 1) n

/-- string.c:31-32: `while ((*dest++ = *src++));` -/
def copyLoop (m : Mem) (d s : Nat) : Option Mem := do
  let b ← m s
  let m' ← wr m d b
  if b ≠ 0 then copyLoop m' (d + 1) (s + 1) else some m'
partial_fixpoint

/-- string.c:29-34. -/
def strcpy (m : Mem) (dest src : Nat) : Option (Mem × Nat) := do
  let m' ← copyLoop m dest src
  some (m', dest)

/-- string.c:39-40, the first loop from index `i`; the result is the memory and the last `i`. -/
def strncpyCopy (m : Mem) (dest src n i : Nat) : Option (Mem × Nat) :=
  if i < n then do
    let b ← m (src + i)
    if b ≠ 0 then
      let m' ← wr m (dest + i) b
      strncpyCopy m' dest src n (i + 1)
    else some (m, i)
  else some (m, i)
partial_fixpoint

/-- string.c:41-42. -/
def strncpyPad (m : Mem) (dest n i : Nat) : Option Mem :=
  if i < n then do
    let m' ← wr m (dest + i) 0
    strncpyPad m' dest n (i + 1)
  else some m
partial_fixpoint

/-- string.c:36-45. -/
def strncpy (m : Mem) (dest src n : Nat) : Option (Mem × Nat) := do
  let (m1, i) ← strncpyCopy m dest src n 0
  let m2 ← strncpyPad m1 dest n i
  some (m2, dest)

/-- string.c:48-51. -/
def strlenLoop (m : Mem) (s count : Nat) : Option Nat := do
  let b ← m (s + count)
  if b ≠ 0 then strlenLoop m s (count + 1) else some count
partial_fixpoint

/-- string.c:47-52. -/
def strlen (m : Mem) (s : Nat) : Option Nat := strlenLoop m s 0

/-- string.c:57-61, from index `n`. -/
def strcmpLoop (m : Mem) (s1 s2 n : Nat) : Option Int := do
  let a ← m (s1 + n)
  let b ← m (s2 + n)
  if a = b then
    if a = 0 then some 0 else strcmpLoop m s1 s2 (n + 1)
  else some (a.toInt - b.toInt)
partial_fixpoint

/-- string.c:56-62. -/
def strcmp (m : Mem) (s1 s2 : Nat) : Option Int := strcmpLoop m s1 s2 0

/-- string.c:64-73. -/
def strncmp (m : Mem) (s1 s2 : Nat) : Nat → Option Int
  | 0 => some 0
  | n + 1 => do
    let a ← m s1
    let b ← m s2
    if a ≠ b then some (a.toInt - b.toInt) else strncmp m (s1 + 1) (s2 + 1) n

/-- string.c:80-81 and 92-93: `while (*dest) dest++;` -/
def endLoop (m : Mem) (d : Nat) : Option Nat := do
  let b ← m d
  if b ≠ 0 then endLoop m (d + 1) else some d
partial_fixpoint

/-- string.c:77-86. -/
def strcat (m : Mem) (dest src : Nat) : Option (Mem × Nat) := do
  let d ← endLoop m dest
  let m' ← copyLoop m d src
  some (m', dest)

/-- string.c:94-95: `while (n--) *dest++ = *src++;` -/
def strncatLoop (m : Mem) (d s : Nat) : Nat → Option (Mem × Nat)
  | 0 => some (m, d)
  | n + 1 => do
    let b ← m s
    let m' ← wr m d b
    strncatLoop m' (d + 1) (s + 1) n

/-- string.c:88-99. -/
def strncat (m : Mem) (dest src n : Nat) : Option (Mem × Nat) := do
  let d ← endLoop m dest
  let (m1, d1) ← strncatLoop m d src n
  let m2 ← wr m1 d1 0
  some (m2, dest)

/-- string.c:103-112. The argument is an `int`; `*src` is promoted from signed char. -/
def strchr (m : Mem) (s : Nat) (c : Int) : Option (Option Nat) := do
  let b ← m s
  if b ≠ 0 then
    if b.toInt = c then some (some s) else strchr m (s + 1) c
  else some none
partial_fixpoint

/-- string.c:117-123. -/
def strrchrLoop (m : Mem) (s : Nat) (c : Int) (result : Option Nat) : Option (Option Nat) := do
  let b ← m s
  if b ≠ 0 then strrchrLoop m (s + 1) c (if b.toInt = c then some s else result) else some result
partial_fixpoint

/-- string.c:114-124. -/
def strrchr (m : Mem) (s : Nat) (c : Int) : Option (Option Nat) := strrchrLoop m s c none

/-- string.c:130-131 and 142-143: `for (p = s2; *p && *p != *s1; p++);`, the byte `*p` at the end. -/
def scanLoop (m : Mem) (p s1 : Nat) : Option Byte := do
  let b ← m p
  if b ≠ 0 then
    let a ← m s1
    if b ≠ a then scanLoop m (p + 1) s1 else some b
  else some b
partial_fixpoint

/-- string.c:129-135. -/
def strspnLoop (m : Mem) (s1 s2 n : Nat) : Option Nat := do
  let a ← m s1
  if a ≠ 0 then
    let p ← scanLoop m s2 s1
    if p = 0 then some n else strspnLoop m (s1 + 1) s2 (n + 1)
  else some n
partial_fixpoint

/-- string.c:126-136. -/
def strspn (m : Mem) (s1 s2 : Nat) : Option Nat := strspnLoop m s1 s2 0

/-- string.c:141-147. -/
def strcspnLoop (m : Mem) (s1 s2 n : Nat) : Option Nat := do
  let a ← m s1
  if a ≠ 0 then
    let p ← scanLoop m s2 s1
    if p ≠ 0 then some n else strcspnLoop m (s1 + 1) s2 (n + 1)
  else some n
partial_fixpoint

/-- string.c:138-148. -/
def strcspn (m : Mem) (s1 s2 : Nat) : Option Nat := strcspnLoop m s1 s2 0

/-- string.c:152-154, the inner loop: is `*c1` among the bytes at `c2`? -/
def pbrkInner (m : Mem) (c1 c2 : Nat) : Option Bool := do
  let b ← m c2
  if b ≠ 0 then
    let a ← m c1
    if a = b then some true else pbrkInner m c1 (c2 + 1)
  else some false
partial_fixpoint

/-- string.c:150-156. -/
def strpbrk (m : Mem) (c1 s2 : Nat) : Option (Option Nat) := do
  let a ← m c1
  if a ≠ 0 then
    let found ← pbrkInner m c1 s2
    if found then some (some c1) else strpbrk m (c1 + 1) s2
  else some none
partial_fixpoint

/-- string.c:161-162: `for (h = haystack, n = needle; *h && *n && (*h == *n); h++, n++);`, the last `n`. -/
def matchLoop (m : Mem) (h n : Nat) : Option Nat := do
  let a ← m h
  if a ≠ 0 then
    let b ← m n
    if b ≠ 0 ∧ a = b then matchLoop m (h + 1) (n + 1) else some n
  else some n
partial_fixpoint

/-- string.c:158-167. -/
def strstr (m : Mem) (h needle : Nat) : Option (Option Nat) := do
  let a ← m h
  if a ≠ 0 then
    let n ← matchLoop m h needle
    let b ← m n
    if b = 0 then some (some h) else strstr m (h + 1) needle
  else some none
partial_fixpoint

end Smack.CString
