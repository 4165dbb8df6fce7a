/-
The Rust library model: `Vec`, its iterator, `vec!`, `Box` and the allocation functions (share/smack/lib/smack.rs), as compiled with
`verifier = "smack"`.

Memory is a list of blocks (a block per allocation, never reused); that live blocks do not overlap is C18. The contents of a new block
are arbitrary. An access outside a live block is undefined behaviour. `malloc` does not fail (Alloc). The elements have a type `V` with
an encoding as `size` bytes. Unwinding, alignment and `Drop` of the elements (except which elements are dropped, in which order) are not
modelled. `self.len + 1`, `offset` are not checked for overflow.
-/

namespace Smack.RustVec

abbrev Byte := BitVec 8

/-- A Rust type: `mem::size_of`, and how `ptr::write` and `ptr::read` encode and decode a value. -/
structure Codec (V : Type) where
  size : Nat
  enc : V → List Byte
  dec : List Byte → Option V

structure Block where
  live : Bool
  size : Nat
  data : Nat → Byte

abbrev Heap := List Block

structure Ptr where
  blk : Nat
  off : Nat
deriving DecidableEq, Repr

/-- Outcomes: undefined behaviour; a violated assertion (`verifier_assert!` or a panic). -/
inductive Res (α : Type) where
  | ok (a : α) | ub | panic

/-- Computations on the heap. -/
def M (α : Type) := Heap → Res (α × Heap)

def M.bind {α β : Type} (m : M α) (f : α → M β) : M β := fun h =>
  match m h with
  | .ok (a, h') => f a h'
  | .ub => .ub
  | .panic => .panic

def M.pure {α : Type} (a : α) : M α := fun h => .ok (a, h)

instance : Monad M where
  pure := M.pure
  bind := M.bind

def undefined {α : Type} : M α := fun _ => .ub

def panic {α : Type} : M α := fun _ => .panic

section

/-- Contents of the blocks when allocated, and whether `__VERIFIER_memcpy` copies. It is declared in smack.rs:20 and defined nowhere, so
that the call has no effect; `copies = true` is the library with the missing definition. -/
structure Cfg where
  junk : Nat → Nat → Byte
  copies : Bool

variable {V : Type} (g : Cfg) (c : Codec V)

/-- C `malloc`. -/
def malloc (n : Nat) : M Ptr := fun h => .ok (⟨h.length, 0⟩, h ++ [⟨true, n, g.junk h.length⟩])

/-- C `free`. -/
def free (p : Ptr) : M Unit := fun h =>
  match h[p.blk]? with
  | some b => if b.live && p.off == 0 then .ok ((), h.set p.blk { b with live := false }) else .ub
  | none => .ub

/-- Accesses of no bytes are always allowed. -/
def readBytes (p : Ptr) (n : Nat) : M (List Byte) := fun h =>
  if n = 0 then .ok ([], h)
  else match h[p.blk]? with
    | some b => if b.live && p.off + n ≤ b.size then .ok ((List.range n).map (fun i => b.data (p.off + i)), h) else .ub
    | none => .ub

def writeBytes (p : Ptr) (l : List Byte) : M Unit := fun h =>
  if l = [] then .ok ((), h)
  else match h[p.blk]? with
    | some b =>
      if b.live && p.off + l.length ≤ b.size then
        .ok ((), h.set p.blk { b with data := fun i => if i < p.off then b.data i else (l[i - p.off]?).getD (b.data i) })
      else .ub
    | none => .ub

/-- `ptr::copy` (overlap allowed) of `n` bytes. -/
def copyBytes (src dst : Ptr) (n : Nat) : M Unit := do
  let l ← readBytes src n
  writeBytes dst l

/-- C `memset`. -/
def memset (p : Ptr) (v : Byte) (n : Nat) : M Unit := writeBytes p (List.replicate n v)

/-- `ptr::write`. -/
def write (p : Ptr) (x : V) : M Unit := writeBytes p (c.enc x)

/-- `ptr::read`. -/
def read (p : Ptr) : M V := do
  let l ← readBytes p c.size
  match c.dec l with
  | some x => pure x
  | none => undefined

/-- Multiplication of `usize`. Rust code is compiled with `-C opt-level=0` (frontend.py:366-383), where overflow panics. -/
def umul (a b : Nat) : M Nat := if a * b < 2 ^ 64 then pure (a * b) else panic

/-- `p.offset(i)`. -/
def Ptr.add (p : Ptr) (i : Nat) : Ptr := ⟨p.blk, p.off + i * c.size⟩

/-! ## Allocation functions -/

/-- smack.rs:172-176. -/
def primAlloc (size _align : Nat) : M Ptr := malloc g size

/-- smack.rs:178-184. -/
def primAllocZeroed (size _align : Nat) : M Ptr := do
  let p ← malloc g size
  memset p 0 size
  pure p

/-- smack.rs:186-190. -/
def primDealloc (p : Ptr) (_size _align : Nat) : M Unit := free p

/-- C `realloc` as in stdlib.c:39-46. -/
def crealloc (p : Ptr) (n : Nat) : M Ptr := do
  free p
  malloc g n

/-- smack.rs:192-202. -/
def primRealloc (p : Ptr) (_old _align new : Nat) : M Ptr := crealloc g p new

/-- smack.rs:152-155. -/
def stdAlloc (size align : Nat) : M Ptr := primAlloc g size align

/-- smack.rs:157-160. -/
def stdAllocZeroed (size align : Nat) : M Ptr := primAlloc g size align

/-- smack.rs:162-165. -/
def stdDealloc (p : Ptr) (size align : Nat) : M Unit := primDealloc p size align

/-- smack.rs:167-170. -/
def stdRealloc (p : Ptr) (size align new : Nat) : M Ptr := primRealloc g p size align new

/-- smack.rs:210-218. -/
def sizedRealloc (orig : Ptr) (origSize newSize : Nat) : M Ptr := do
  let result ← malloc g newSize
  (if g.copies then copyBytes orig result origSize else pure ())
  pure result

/-! ## Vec -/

/-- smack.rs:268-271, 311-314: `buf.ptr`, `buf.cap` and `len`. -/
structure Vec where
  ptr : Ptr
  cap : Nat
  len : Nat
deriving DecidableEq, Repr

/-- smack.rs:276-281, 327-332. -/
def Vec.new : M Vec := do
  let n ← umul 32 c.size
  let p ← malloc g n
  pure ⟨p, 32, 0⟩

/-- smack.rs:283-287, 335-340. -/
def Vec.withCapacity (cap : Nat) : M Vec := do
  let n ← umul cap c.size
  let p ← malloc g n
  pure ⟨p, cap, 0⟩

/-- smack.rs:289-300. -/
def Vec.grow (v : Vec) : M Vec := do
  let newCap ← umul 2 v.cap
  let old ← umul v.cap c.size
  let new ← umul newCap c.size
  let p ← sizedRealloc g v.ptr old new
  pure { v with ptr := p, cap := newCap }

/-- smack.rs:343-353. -/
def Vec.push (v : Vec) (x : V) : M Vec := do
  let v ← if v.len = v.cap then Vec.grow g c v else pure v
  write c (v.ptr.add c v.len) x
  pure { v with len := v.len + 1 }

/-- smack.rs:356-363. -/
def Vec.pop (v : Vec) : M (Option V × Vec) :=
  if v.len = 0 then pure (none, v)
  else do
    let v := { v with len := v.len - 1 }
    let x ← read c (v.ptr.add c v.len)
    pure (some x, v)

/-- One of the loops of `append` (smack.rs:370-373, 376-379): move `n` elements from the end of `src` to the end of `dst`;
`unwrap` of `None` panics. -/
def moveLoop : Nat → Vec → Vec → M (Vec × Vec)
  | 0, src, dst => pure (src, dst)
  | n + 1, src, dst => do
    let (o, src) ← Vec.pop c src
    match o with
    | none => panic
    | some x => do
      let dst ← Vec.push g c dst x
      moveLoop n src dst

/-- The loop of `Vec::drop` (smack.rs:446): `while let Some(_) = self.pop() {}`; every round with an element decreases the length,
so the number of rounds is at most the length. Result: the dropped elements. -/
def popLoop : Nat → Vec → M (List V × Vec)
  | 0, v => pure ([], v)
  | n + 1, v => do
    let (o, v) ← Vec.pop c v
    match o with
    | none => pure ([], v)
    | some x => do
      let (l, v) ← popLoop n v
      pure (x :: l, v)

/-- smack.rs:444-449 and `Drop for RawVec` 304-308. -/
def Vec.drop (v : Vec) : M (List V) := do
  let (l, v) ← popLoop c v.len v
  free v.ptr
  pure l

/-- smack.rs:366-380; `drain` is dropped at the end. -/
def Vec.append (v other : Vec) : M (Vec × Vec) := do
  let olen := other.len
  let drain ← Vec.new g c
  let (other, drain) ← moveLoop g c olen other drain
  let (drain, v) ← moveLoop g c olen drain v
  let _ ← Vec.drop c drain
  pure (v, other)

/-- smack.rs:383-400. -/
def Vec.insert (v : Vec) (index : Nat) (x : V) : M Vec :=
  if index ≤ v.len then do
    let v ← if v.cap = v.len then Vec.grow g c v else pure v
    (if index < v.len then copyBytes (v.ptr.add c index) (v.ptr.add c (index + 1)) ((v.len - index) * c.size) else pure ())
    write c (v.ptr.add c index) x
    pure { v with len := v.len + 1 }
  else panic

/-- smack.rs:403-415. -/
def Vec.remove (v : Vec) (index : Nat) : M (V × Vec) :=
  if index < v.len then do
    let v := { v with len := v.len - 1 }
    let x ← read c (v.ptr.add c index)
    copyBytes (v.ptr.add c (index + 1)) (v.ptr.add c index) ((v.len - index) * c.size)
    pure (x, v)
  else panic

/-- The elements `from`, …, `from + n - 1` of the slice at `p`. -/
def readSlice (p : Ptr) : Nat → Nat → M (List V)
  | _, 0 => pure []
  | i, n + 1 => do
    let x ← read c (p.add c i)
    let l ← readSlice p (i + 1) n
    pure (x :: l)

/-- smack.rs:452-457 `deref`, reading the whole slice. -/
def Vec.slice (v : Vec) : M (List V) := readSlice c v.ptr 0 v.len

/-- smack.rs:460-464 `deref_mut`, then an assignment to element `k` with Rust's bounds check. -/
def Vec.set (v : Vec) (k : Nat) (x : V) : M Unit :=
  if k < v.len then write c (v.ptr.add c k) x else panic

/-! ## Iterator -/

/-- smack.rs:467-470, 534-537. -/
structure Iter where
  buf : Ptr
  start : Ptr
  stop : Ptr
deriving DecidableEq, Repr

/-- smack.rs:418-429 with `RawValIter::new` (474-485). -/
def Vec.intoIter (v : Vec) : Iter :=
  ⟨v.ptr, v.ptr,
    if c.size = 0 then ⟨v.ptr.blk, v.ptr.off + v.len⟩
    else if v.len = 0 then v.ptr
    else v.ptr.add c v.len⟩

/-- smack.rs:491-505. -/
def Iter.next (it : Iter) : M (Option V × Iter) :=
  if it.start = it.stop then pure (none, it)
  else do
    let x ← read c it.start
    pure (some x, { it with start := if c.size = 0 then ⟨it.start.blk, it.start.off + 1⟩ else it.start.add c 1 })

/-- smack.rs:517-530; `offset(-1)` below the start of a block is undefined. -/
def Iter.nextBack (it : Iter) : M (Option V × Iter) :=
  if it.start = it.stop then pure (none, it)
  else if it.stop.off < max c.size 1 then undefined
  else do
    let stop : Ptr := ⟨it.stop.blk, it.stop.off - max c.size 1⟩
    let x ← read c stop
    pure (some x, { it with stop := stop })

/-- smack.rs:507-512. -/
def Iter.sizeHint (it : Iter) : Nat := (it.stop.off - it.start.off) / (if c.size = 0 then 1 else c.size)

/-- The loop of smack.rs:560; `n` bounds the number of rounds. -/
def nextLoop : Nat → Iter → M (List V × Iter)
  | 0, it => pure ([], it)
  | n + 1, it => do
    let (o, it) ← Iter.next c it
    match o with
    | none => pure ([], it)
    | some x => do
      let (l, it) ← nextLoop n it
      pure (x :: l, it)

/-- smack.rs:558-562, then `Drop for RawVec`. -/
def Iter.drop (it : Iter) : M (List V) := do
  let (l, it) ← nextLoop c (Iter.sizeHint c it) it
  free it.buf
  pure l

/-! ## `vec!` and `Box` -/

/-- smack.rs:577-585, `vec![x, y, …]`: the expressions are values here. -/
def pushAll : List V → Vec → M Vec
  | [], v => pure v
  | x :: l, v => do
    let v ← Vec.push g c v x
    pushAll l v

def Vec.ofList (l : List V) : M Vec := do
  let v ← Vec.new g c
  pushAll g c l v

/-- The loop of smack.rs:567-576, `vec![val; count]`. Both expressions may have effects, on a state `σ`: they are evaluated in every
round. -/
inductive RepeatLoop {σ : Type} (val : σ → V × σ) (count : σ → Nat × σ) : Nat → Vec → σ → Heap → Vec → σ → Heap → Prop
  | stop {i v s s' h n} : count s = (n, s') → ¬ i < n → RepeatLoop val count i v s h v s' h
  | step {i v s s1 s2 s' h h1 h' n x v1 v'} : count s = (n, s1) → i < n → val s1 = (x, s2) → Vec.push g c v x h = .ok (v1, h1) →
      RepeatLoop val count (i + 1) v1 s2 h1 v' s' h' → RepeatLoop val count i v s h v' s' h'

/-- smack.rs:596-603. `Box` has no `Drop`: a box going out of scope does nothing. -/
def Box.new (x : V) : M Ptr := do
  let p ← malloc g c.size
  write c (p.add c 0) x
  pure p

/-- smack.rs:607-612. -/
def Box.deref (p : Ptr) : M V := read c p

def Box.goOutOfScope (_ : Ptr) : M (List V) := pure []

/-! ## Programs -/

/-- Operations on the objects of a program, numbered in order of creation. -/
inductive Op (V : Type) where
  | new | withCapacity (cap : Nat) | ofList (l : List V)
  | push (i : Nat) (x : V) | pop (i : Nat) | append (i j : Nat) | insert (i k : Nat) (x : V) | remove (i k : Nat)
  | len (i : Nat) | slice (i : Nat) | set (i k : Nat) (x : V) | drop (i : Nat)
  | intoIter (i : Nat) | next (i : Nat) | nextBack (i : Nat) | sizeHint (i : Nat) | dropIter (i : Nat)

inductive Out (V : Type) where
  | unit | opt (o : Option V) | val (x : V) | num (n : Nat) | seq (l : List V)

inductive Obj where
  | gone | vec (v : Vec) | iter (it : Iter)

/-- One operation. Operations on an object that is not there do not compile; they are given no meaning. -/
def step (op : Op V) (w : List Obj) : M (Out V × List Obj) :=
  match op with
  | .new => do
    let v ← Vec.new g c
    pure (.unit, w ++ [.vec v])
  | .withCapacity cap => do
    let v ← Vec.withCapacity g c cap
    pure (.unit, w ++ [.vec v])
  | .ofList l => do
    let v ← Vec.ofList g c l
    pure (.unit, w ++ [.vec v])
  | .push i x =>
    match w[i]? with
    | some (.vec v) => do
      let v ← Vec.push g c v x
      pure (.unit, w.set i (.vec v))
    | _ => undefined
  | .pop i =>
    match w[i]? with
    | some (.vec v) => do
      let (o, v) ← Vec.pop c v
      pure (.opt o, w.set i (.vec v))
    | _ => undefined
  | .append i j =>
    match w[i]?, w[j]? with
    | some (.vec v), some (.vec u) => do
      let (v, u) ← Vec.append g c v u
      pure (.unit, (w.set i (.vec v)).set j (.vec u))
    | _, _ => undefined
  | .insert i k x =>
    match w[i]? with
    | some (.vec v) => do
      let v ← Vec.insert g c v k x
      pure (.unit, w.set i (.vec v))
    | _ => undefined
  | .remove i k =>
    match w[i]? with
    | some (.vec v) => do
      let (x, v) ← Vec.remove c v k
      pure (.val x, w.set i (.vec v))
    | _ => undefined
  | .len i =>
    match w[i]? with
    | some (.vec v) => pure (.num v.len, w)
    | _ => undefined
  | .slice i =>
    match w[i]? with
    | some (.vec v) => do
      let l ← Vec.slice c v
      pure (.seq l, w)
    | _ => undefined
  | .set i k x =>
    match w[i]? with
    | some (.vec v) => do
      Vec.set c v k x
      pure (.unit, w)
    | _ => undefined
  | .drop i =>
    match w[i]? with
    | some (.vec v) => do
      let l ← Vec.drop c v
      pure (.seq l, w.set i .gone)
    | _ => undefined
  | .intoIter i =>
    match w[i]? with
    | some (.vec v) => pure (.unit, w.set i (.iter (Vec.intoIter c v)))
    | _ => undefined
  | .next i =>
    match w[i]? with
    | some (.iter it) => do
      let (o, it) ← Iter.next c it
      pure (.opt o, w.set i (.iter it))
    | _ => undefined
  | .nextBack i =>
    match w[i]? with
    | some (.iter it) => do
      let (o, it) ← Iter.nextBack c it
      pure (.opt o, w.set i (.iter it))
    | _ => undefined
  | .sizeHint i =>
    match w[i]? with
    | some (.iter it) => pure (.num (Iter.sizeHint c it), w)
    | _ => undefined
  | .dropIter i =>
    match w[i]? with
    | some (.iter it) => do
      let l ← Iter.drop c it
      pure (.seq l, w.set i .gone)
    | _ => undefined

/-- A program: the outputs, the final objects. -/
def run : List (Op V) → List Obj → M (List (Out V) × List Obj)
  | [], w => pure ([], w)
  | op :: rest, w => do
    let (o, w) ← step g c op w
    let (os, w) ← run rest w
    pure (o :: os, w)

end

end Smack.RustVec
