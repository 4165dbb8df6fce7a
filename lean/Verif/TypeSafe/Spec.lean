import Verif.TypeSafe.Model

namespace Smack.TypeSafe

/-- Byte `x` belongs to an access to field `f`. -/
def Field.Covers (f : Field) (x : Nat) : Prop := ∃ t ∈ f.types, f.off ≤ x ∧ x < f.off + t.store

/-- The property: accessed at exactly one type, and no byte is shared with another accessed field. -/
def Safe (fs : List Field) (offset : Nat) : Prop :=
  ∃ f ∈ fs, f.off = offset ∧ (∃ t, f.types = [t]) ∧
    ∀ g ∈ fs, g.off ≠ offset → ∀ x, ¬ (f.Covers x ∧ g.Covers x)

/-- The node is one sea-dsa can describe precisely. -/
def Node.Precise (n : Node) : Prop :=
  n.offsetCollapsed = false ∧ n.external = false ∧ n.incomplete = false ∧ n.unknown = false ∧
  n.intToPtr = false ∧ n.ptrToInt = false ∧ n.memOpd = false

/-- Offsets in increasing order (a `std::set`), nothing beyond 4 GiB, non-empty type sets. -/
structure Ok (fs : List Field) : Prop where
  sorted : fs.Pairwise (fun f g => f.off < g.off)
  small : ∀ f ∈ fs, ∀ t ∈ f.types, f.off + t.store < 2^32
  nonempty : ∀ f ∈ fs, f.types ≠ []

end Smack.TypeSafe
