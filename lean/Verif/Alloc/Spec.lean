/-
The abstract heap: which blocks are live after a sequence of events, and which programs are considered.
-/
import Verif.Alloc.Model

namespace Smack.Alloc

inductive Kind where
  | global | stack | heap
deriving DecidableEq, Repr

/-- A block of memory: the bytes `[start, start+size)`. -/
structure Block where
  start : Int
  size : Int
  kind : Kind
deriving DecidableEq, Repr

/-- No byte in common. -/
def Disjoint (a b : Block) : Prop := a.start + a.size ≤ b.start ∨ b.start + b.size ≤ a.start

/-- Effect of an event on the list of live blocks. Allocations of 0 bytes create no block. -/
def update (bs : List Block) : Ev → List Block
  | .galloc a n => ⟨a, n, .global⟩ :: bs
  | .stack n p => if 0 < n then ⟨p, n, .stack⟩ :: bs else bs
  | .malloc n p => if 0 < n then ⟨p, n, .heap⟩ :: bs else bs
  | .free p => bs.filter (fun b => decide (b.start ≠ p))
  | .leave p => bs.filter (fun b => !decide (b.start = p ∧ b.kind = .stack))

/-- The live blocks after a history. -/
def live (evs : List Ev) : List Block := evs.foldl update []

/-- The block an event creates. -/
def created : Ev → Option Block
  | .galloc a n => some ⟨a, n, .global⟩
  | .stack n p => if 0 < n then some ⟨p, n, .stack⟩ else none
  | .malloc n p => if 0 < n then some ⟨p, n, .heap⟩ else none
  | _ => none

/-- All blocks ever created, live or not. -/
def ever (evs : List Ev) : List Block := evs.filterMap created

/-- The blocks of global variables are non-empty, disjoint and at negative addresses (C16). -/
def GlobalsOk (evs : List Ev) : Prop :=
  ((ever evs).filter (fun b => decide (b.kind = .global))).Pairwise Disjoint ∧
  ∀ b ∈ ever evs, b.kind = .global → 0 < b.size ∧ b.start + b.size < 0

/-- Every `free` so far was applied to null or to the start of a block that was live at that time. -/
def LegalFrees (evs : List Ev) : Prop :=
  ∀ pre p post, evs = pre ++ .free p :: post → p = 0 ∨ ∃ b ∈ live pre, b.start = p

/-- The same, for heap blocks only: what the C standard allows. -/
def LegalHeapFrees (evs : List Ev) : Prop :=
  ∀ pre p post, evs = pre ++ .free p :: post → p = 0 ∨ ∃ b ∈ live pre, b.start = p ∧ b.kind = .heap

/-- `free(NULL)` does not occur. -/
def NoNullFree (evs : List Ev) : Prop := Ev.free 0 ∉ evs

/-- No function with stack storage has returned. -/
def NoLeave (evs : List Ev) : Prop := ∀ p, Ev.leave p ∉ evs

/-- `[p, p+n)` lies inside one live block. -/
def Inside (bs : List Block) (p n : Int) : Prop := ∃ b ∈ bs, b.start ≤ p ∧ p + n ≤ b.start + b.size

end Smack.Alloc
