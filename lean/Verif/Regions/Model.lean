/-
Memory regions: lib/smack/Regions.cpp, include/smack/Regions.h.
-/

namespace Smack.Regions

/-- Conversion to C++ `unsigned` (32 bits). -/
def u32 (n : Nat) : Nat := n % 2 ^ 32

/-- `class Region` (Regions.h:22-60). Nodes and types are abstract identities; `none` is `nullptr`. `offset` and
`length` are the values of the `unsigned` fields. The field `context` is dropped (never read by the code modelled here). -/
structure Region where
  representative : Option Nat
  type : Option Nat
  offset : Nat
  length : Nat
  singleton : Bool
  allocated : Bool
  bytewise : Bool
  incomplete : Bool
  complicated : Bool
  collapsed : Bool
deriving DecidableEq, Repr

/-- Regions.cpp:68-71 `isDisjoint`; the sums are `unsigned`. -/
def Region.isDisjoint (r : Region) (offset length : Nat) : Bool :=
  u32 (r.offset + r.length) ≤ offset || u32 (offset + length) ≤ r.offset

/-- Regions.cpp:73-86 `merge`. `bitPrecise` is SmackOptions::BitPrecise. `low` and `high` are `unsigned long` (64 bits)
computed from 32-bit operands; `high - low` is truncated to `unsigned`. -/
def Region.merge (bitPrecise : Bool) (r R : Region) : Region :=
  let collapse := r.type != R.type
  let low := min r.offset R.offset
  let high := max (u32 (r.offset + r.length)) (u32 (R.offset + R.length))
  let bytewise := bitPrecise && (r.bytewise || R.bytewise || collapse)
  { representative := r.representative
    type := if bytewise || collapse then none else r.type
    offset := u32 low
    length := u32 (high + 2 ^ 64 - low)
    singleton := r.singleton && R.singleton
    allocated := r.allocated || R.allocated
    bytewise := bytewise
    incomplete := r.incomplete || R.incomplete
    complicated := r.complicated || R.complicated
    collapsed := r.collapsed || R.collapsed }

/-- Regions.cpp:88-92 `overlaps`. -/
def Region.overlaps (r R : Region) : Bool :=
  (r.incomplete && R.incomplete) || (r.complicated && R.complicated) ||
  (r.representative == R.representative && (r.collapsed || !r.isDisjoint R.offset R.length))

/-- Regions.cpp:211-230: the `while` loop over the regions after `r`; `acc` is `regions[r]`, the list is the part of the
vector from `q` on. Returns the final `regions[r]` and the regions that were not erased. -/
def absorb (bp : Bool) (acc : Region) : List Region → Region × List Region
  | [] => (acc, [])
  | q :: rest =>
      if acc.overlaps q then absorb bp (acc.merge bp q) rest
      else let (a, kept) := absorb bp acc rest; (a, q :: kept)

/-- Regions.cpp:181-236 `Regions::idx(Region&)`: the first overlapping region absorbs `R` and then the later overlapping
regions; without one, `R` is appended. The `for` loop is written as a recursion over the vector; the returned number is
the index `r`. -/
def idx (bp : Bool) : List Region → Region → List Region × Nat
  | [], R => ([R], 0)
  | x :: xs, R =>
      if x.overlaps R then
        let (acc, rest) := absorb bp (x.merge bp R) xs
        (acc :: rest, 0)
      else
        let (ys, i) := idx bp xs R
        (x :: ys, i + 1)

/-- A history of lookups starting from a vector; returns the final vector. -/
def run (bp : Bool) (regs : List Region) (h : List Region) : List Region :=
  h.foldl (fun s R => (idx bp s R).1) regs

/-- What sea-dsa knows about a node, as used by `Region::init` (Regions.cpp:55-57). -/
structure NodeInfo where
  incomplete : Bool
  complicated : Bool
  collapsed : Bool

/-- Regions.cpp:39-58 `Region::init`: the region created for one access. `node` is the DSA node (`none` for a null constant
or when the analysis is off), `bytewise` is the conjunct of lines 52-54 other than BitPrecise, the remaining arguments are
the results of the DSA queries. The callers pass an `unsigned` length (lines 60-66, 250-303). -/
def initRegion (info : Nat → NodeInfo) (bitPrecise : Bool) (node : Option Nat) (ty offset length : Nat)
    (singleton allocated bytewise : Bool) : Region :=
  { representative := node
    type := some ty
    offset := u32 offset
    length := u32 length
    singleton := node.isSome && singleton
    allocated := node.isNone || allocated
    bytewise := bitPrecise && bytewise
    incomplete := match node with | none => true | some n => (info n).incomplete
    complicated := match node with | none => true | some n => (info n).complicated
    collapsed := match node with | none => true | some n => (info n).collapsed }

/-- Regions.cpp:250-259, 261-274: the length of a `memset`/`memcpy` access; `none` is a length that is not a constant. -/
def memLength : Option Nat → Nat
  | some n => u32 n
  | none => 2 ^ 32 - 1

end Smack.Regions
