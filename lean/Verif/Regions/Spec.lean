/-
When two accesses may touch the same memory, and what a correct region assignment is.
-/
import Verif.Regions.Model

namespace Smack.Regions

/-- An access as the points-to analysis describes it. -/
structure Access where
  node : Option Nat
  ty : Nat
  offset : Nat
  length : Nat
  singleton : Bool
  allocated : Bool
  bytewise : Bool

/-- Properties of a node; the null node counts as unknown in every respect. -/
def nodeIncomplete (info : Nat → NodeInfo) : Option Nat → Bool
  | none => true | some n => (info n).incomplete
def nodeComplicated (info : Nat → NodeInfo) : Option Nat → Bool
  | none => true | some n => (info n).complicated
def nodeCollapsed (info : Nat → NodeInfo) : Option Nat → Bool
  | none => true | some n => (info n).collapsed

/-- Two accesses may alias: both nodes incomplete, or both complicated, or the same node and either its offsets are
collapsed or the byte ranges `[offset, offset+length)` intersect. -/
def MayAlias (info : Nat → NodeInfo) (A B : Access) : Prop :=
  (nodeIncomplete info A.node = true ∧ nodeIncomplete info B.node = true) ∨
  (nodeComplicated info A.node = true ∧ nodeComplicated info B.node = true) ∨
  (A.node = B.node ∧ (nodeCollapsed info A.node = true ∨
     ∃ b, A.offset ≤ b ∧ b < A.offset + A.length ∧ B.offset ≤ b ∧ b < B.offset + B.length))

/-- The access fits in the 32-bit arithmetic of the implementation: its end does not wrap. -/
def Access.Fits (A : Access) : Prop := A.offset + A.length < 2 ^ 32

/-- The region object the pass creates for the access. -/
def Access.region (info : Nat → NodeInfo) (bp : Bool) (A : Access) : Region :=
  initRegion info bp A.node A.ty A.offset A.length A.singleton A.allocated A.bytewise

/-- The vector of regions after looking up the accesses in order, starting from the empty vector. -/
def collect (info : Nat → NodeInfo) (bp : Bool) (h : List Access) : List Region :=
  run bp [] (h.map (Access.region info bp))

/-- The index that a further lookup of `A` returns. -/
def lookup (info : Nat → NodeInfo) (bp : Bool) (regs : List Region) (A : Access) : Nat :=
  (idx bp regs (A.region info bp)).2

/-- A region without its element type. -/
def Region.untyped (r : Region) : Region := { r with type := none }

end Smack.Regions
