/-
Lemmas about the allocator and the addresses of blocks.
-/
import Verif.E2EBv.Spec

namespace Smack.E2EBv

theorem slt_zero (n : BitVec 64) : (0#64).slt n = true ↔ 0 < n.toNat ∧ n.toNat < 2 ^ 63 := by
  simp only [BitVec.slt, BitVec.toInt_eq_toNat_cond, decide_eq_true_eq, BitVec.toNat_ofNat]
  have := n.isLt
  split <;> omega

theorem sle_zero (n : BitVec 64) : (0#64).sle n = true ↔ n.toNat < 2 ^ 63 := by
  simp only [BitVec.sle, BitVec.toInt_eq_toNat_cond, decide_eq_true_eq, BitVec.toNat_ofNat]
  have := n.isLt
  split <;> omega

theorem slt_top (c : BitVec 64) (h : c.toNat < 2 ^ 63) : c.slt mallocTop = true ↔ c.toNat < 2 ^ 63 - 1 := by
  simp only [BitVec.slt, BitVec.toInt_eq_toNat_cond, decide_eq_true_eq, mallocTop, BitVec.toNat_ofNat]
  split <;> omega

theorem sle_sub (p c n : BitVec 64) (hp : p.toNat < 2 ^ 63) (hc : c.toNat < 2 ^ 63) (hn : n.toNat < 2 ^ 63) :
    p.sle (c - n) = true ↔ p.toNat + n.toNat ≤ c.toNat := by
  simp only [BitVec.sle, BitVec.toInt_eq_toNat_cond, decide_eq_true_eq, BitVec.toNat_sub]
  have := p.isLt; have := c.isLt; have := n.isLt
  split <;> split <;> omega

/-- `$$alloc` in terms of numbers. -/
theorem allocBv_iff {n p c c' : BitVec 64} (hc : c.toNat < 2 ^ 63) : allocBv n p c c' ↔
    (n.toNat = 0 ∧ c' = c) ∨ (n.toNat ≠ 0 ∧ p = c ∧ p.toNat + n.toNat ≤ c'.toNat ∧ c'.toNat < 2 ^ 63 - 1) := by
  unfold allocBv
  rw [sle_zero]
  by_cases h0 : (0#64).slt n = true
  · rw [if_pos h0]
    have h1 := (slt_zero n).1 h0
    constructor
    · rintro ⟨_, rfl, h2, h3, h4⟩
      have h3' := (slt_zero c').1 h3
      have h4' := (slt_top c' h3'.2).1 h4
      exact .inr ⟨by omega, rfl, (sle_sub _ _ _ hc h3'.2 h1.2).1 h2, h4'⟩
    · rintro (⟨h2, _⟩ | ⟨_, rfl, h2, h3⟩)
      · omega
      · exact ⟨h1.2, rfl, (sle_sub _ _ _ hc (by omega) h1.2).2 h2, (slt_zero c').2 ⟨by omega, by omega⟩, (slt_top c' (by omega)).2 h3⟩
  · rw [if_neg h0]
    rw [slt_zero] at h0
    constructor
    · rintro ⟨h1, rfl⟩
      exact .inl ⟨by omega, rfl⟩
    · rintro (⟨h1, rfl⟩ | ⟨h1, _, h2, h3⟩)
      · exact ⟨by omega, rfl⟩
      · omega

theorem size_eq (size : Nat) {w : Nat} (k : BitVec w) : BitVec.ofNat 64 size * k.setWidth 64 = BitVec.ofNat 64 (size * k.toNat) := by
  apply BitVec.eq_of_toNat_eq
  simp [BitVec.toNat_mul, BitVec.toNat_setWidth, Nat.mul_mod]

/-! ## Histories -/

/-- The allocator moves from `c` to `c'` while this happens. -/
inductive Steps : BitVec 64 → List HEv → BitVec 64 → Prop where
  | nil (c) : Steps c [] c
  | free (c p h c') : Steps c h c' → Steps c (.free p :: h) c'
  | zero (c st p n h c') : n.toNat = 0 → Steps c h c' → Steps c (.alloc st p n :: h) c'
  | alloc (c st n h c₁ c') : n.toNat ≠ 0 → c.toNat + n.toNat ≤ c₁.toNat → c₁.toNat < 2 ^ 63 - 1 → Steps c₁ h c' → Steps c (.alloc st c n :: h) c'

theorem Steps.append {c c₁ c₂ : BitVec 64} {h h' : List HEv} (h1 : Steps c h c₁) (h2 : Steps c₁ h' c₂) : Steps c (h ++ h') c₂ := by
  induction h1 with
  | nil => exact h2
  | free c p h c' _ ih => exact .free _ _ _ _ (ih h2)
  | zero c st p n h c' h0 _ ih => exact .zero _ _ _ _ _ _ h0 (ih h2)
  | alloc c st n h c₁ c' h0 h1 h3 _ ih => exact .alloc _ _ _ _ _ _ h0 h1 h3 (ih h2)

theorem Steps.follows {c c' : BitVec 64} {h : List HEv} (h1 : Steps c h c') : Follows c h := by
  induction h1 with
  | nil => trivial
  | free c p h c' _ ih => exact ih
  | zero c st p n h c' h0 _ ih => simp only [Follows, if_pos h0]; exact ih
  | alloc c st n h c₁ c' h0 h1 h3 _ ih => simp only [Follows, if_neg h0]; exact ⟨trivial, c₁, h1, h3, ih⟩

theorem held_snoc {h : List HEv} {e : HEv} {st : Bool} {q k : BitVec 64} (hh : Held (h ++ [e]) st q k) :
    Held h st q k ∨ e = .alloc st q k := by
  obtain ⟨h₁, h₂, he, hf⟩ := hh
  rcases List.eq_nil_or_concat h₂ with rfl | ⟨h₂', x, rfl⟩
  · obtain ⟨_, h2⟩ := List.append_inj' he rfl
    exact .inr (by cases h2; rfl)
  · rw [List.concat_eq_append] at he hf
    rw [show h₁ ++ HEv.alloc st q k :: (h₂' ++ [x]) = (h₁ ++ HEv.alloc st q k :: h₂') ++ [x] by simp] at he
    obtain ⟨h1, h2⟩ := List.append_inj' he rfl
    exact .inl ⟨h₁, h₂', h1, fun hm => hf (List.mem_append_left _ hm)⟩

theorem below_free {c : BitVec 64} {h : List HEv} (hb : Below c h) (p : BitVec 64) : Below c (h ++ [.free p]) := by
  intro st q k hh
  rcases held_snoc hh with h1 | h1
  · exact hb st q k h1
  · cases h1

theorem below_zero {c : BitVec 64} {h : List HEv} (hb : Below c h) (st : Bool) (p n : BitVec 64) (hn : n.toNat = 0) : Below c (h ++ [.alloc st p n]) := by
  intro st' q k hh hq hk
  rcases held_snoc hh with h1 | h1
  · exact hb st' q k h1 hq hk
  · cases h1; exact absurd hn hk

theorem below_alloc {c c' : BitVec 64} {h : List HEv} (hb : Below c h) (st : Bool) (n : BitVec 64) (hc : c.toNat + n.toNat ≤ c'.toNat) :
    Below c' (h ++ [.alloc st c n]) := by
  intro st' q k hh hq hk
  rcases held_snoc hh with h1 | h1
  · rcases hb st' q k h1 hq hk with h2 | h2
    · exact .inl (by omega)
    · exact .inr h2
  · cases h1; exact .inl hc

/-- The block that the allocator gives out is new. -/
theorem new_block {c c' : BitVec 64} {h : List HEv} (hs : Start c h) (n : Nat) (h1 : c.toNat + n ≤ c'.toNat) (h2 : c'.toNat < 2 ^ 63 - 1) :
    NewBlock h c n := by
  obtain ⟨h3, h4, hb⟩ := hs
  refine ⟨by omega, by omega, fun st q k hh hq hk => ?_⟩
  rcases hb st q k hh hq hk with h5 | h5
  · exact .inr h5
  · exact .inl (by omega)

/-- What is left of the history, for an allocator that stands at `c`. -/
def Rest (H : List HEv) (c : BitVec 64) (h : List HEv) : Prop := ∃ r, H = h ++ r ∧ Follows c r

theorem rest_free {H h : List HEv} {c p : BitVec 64} (hr : Rest H c h) (hp : h ++ [.free p] <+: H) : Rest H c (h ++ [.free p]) := by
  obtain ⟨r, rfl, hf⟩ := hr
  obtain ⟨r', hr'⟩ := hp
  rw [List.append_assoc, List.append_cancel_left_eq] at hr'
  subst hr'
  exact ⟨r', by simp, hf⟩

theorem rest_alloc {H h : List HEv} {st : Bool} {c p n : BitVec 64} (hr : Rest H c h) (hp : h ++ [.alloc st p n] <+: H) :
    (n.toNat = 0 ∧ Rest H c (h ++ [.alloc st p n])) ∨
    (n.toNat ≠ 0 ∧ p = c ∧ ∃ c', p.toNat + n.toNat ≤ c'.toNat ∧ c'.toNat < 2 ^ 63 - 1 ∧ Rest H c' (h ++ [.alloc st p n])) := by
  obtain ⟨r, rfl, hf⟩ := hr
  obtain ⟨r', hr'⟩ := hp
  rw [List.append_assoc, List.append_cancel_left_eq] at hr'
  subst hr'
  simp only [List.singleton_append, Follows] at hf
  split at hf
  · next h0 => exact .inl ⟨h0, r', by simp, hf⟩
  · next h0 =>
    obtain ⟨h1, c', h2, h3, h4⟩ := hf
    exact .inr ⟨h0, h1, c', h2, h3, r', by simp, h4⟩

end Smack.E2EBv
