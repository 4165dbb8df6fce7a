/-
What `memcpy` and `memset` should do to a memory, byte by byte.
-/
namespace Smack.MemIntr.Spec

variable {R α : Type}

/-- `n` bytes are copied from `src` in `Msrc` to `dst` (`at p i` is the address of the i-th byte from `p`), nothing else changes. -/
def Copied (at_ : R → Nat → R) (Mdst Msrc : R → α) (dst src : R) (n : Nat) (Mret : R → α) : Prop :=
  (∀ i, i < n → Mret (at_ dst i) = Msrc (at_ src i)) ∧
  (∀ x, (∀ i, i < n → x ≠ at_ dst i) → Mret x = Mdst x)

/-- `n` bytes from `dst` are set to `val`, nothing else changes. -/
def Filled (at_ : R → Nat → R) (M : R → α) (dst : R) (val : α) (n : Nat) (Mret : R → α) : Prop :=
  (∀ i, i < n → Mret (at_ dst i) = val) ∧
  (∀ x, (∀ i, i < n → x ≠ at_ dst i) → Mret x = M x)

/-- Addresses as integers. -/
def intAt (p : Int) (i : Nat) : Int := p + i

/-- Addresses as machine words. -/
def bvAt {w : Nat} (p : BitVec w) (i : Nat) : BitVec w := p + BitVec.ofNat w i

end Smack.MemIntr.Spec
