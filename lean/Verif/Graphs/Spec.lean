import Verif.Graphs.Model

namespace Smack.Graphs

/-- LLVM keeps operand and user lists consistent, within the module. -/
structure Graph.WF (g : Graph) : Prop where
  operand_user : ∀ i j, i < g.size → j < g.size → (j ∈ g.operands i ↔ i ∈ g.users j)
  operands_lt : ∀ i, i < g.size → ∀ j ∈ g.operands i, j < g.size
  users_lt : ∀ j, j < g.size → ∀ i ∈ g.users j, i < g.size

/-- A direct call of a function whose name starts with one of the three prefixes. -/
def VerifierCall (k : Kind) : Prop :=
  ∃ rest, k = .call (some ("__VERIFIER_".toList ++ rest)) ∨ k = .call (some ("__SMACK_".toList ++ rest)) ∨
    k = .call (some ("__CONTRACT_".toList ++ rest))

/-- Verifier code: verifier calls, and non-calls with at least one use all of whose users are verifier code. -/
inductive VCode (g : Graph) : Nat → Prop where
  | call {i} : i < g.size → VerifierCall (g.kind i) → VCode g i
  | flow {i} : i < g.size → isCallInst (g.kind i) = false → g.users i ≠ [] → (∀ u ∈ g.users i, VCode g u) → VCode g i

/-- `p` occurs in `s`. -/
def Occurs (p s : List Char) : Prop := ∃ a b, s = a ++ p ++ b

/-- A function the pass has to keep: entry points and SMACK's own functions. -/
def Protected (eps : List (List Char)) (f : Fn) : Prop :=
  f.name ∈ eps ∨ Occurs "__SMACK_".toList f.name ∨ Occurs "__VERIFIER_assume".toList f.name

/-- `g`'s body uses `f`. -/
def UsedBy (f g : Fn) : Prop := .body g.id ∈ f.uses

/-- Transitive use by a member of `ks`, through functions of `fs`. -/
inductive Reach (fs : List Fn) (ks : List Fn) : Fn → Prop where
  | base {f g} : g ∈ ks → f ∈ fs → UsedBy f g → Reach fs ks f
  | step {f g} : Reach fs ks g → f ∈ fs → UsedBy f g → Reach fs ks f

end Smack.Graphs
