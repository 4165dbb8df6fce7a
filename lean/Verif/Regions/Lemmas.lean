import Verif.Regions.Spec

namespace Smack.Regions

/-- Consistency of a region with the node information. -/
structure Inv (info : Nat → NodeInfo) (r : Region) : Prop where
  inc : nodeIncomplete info r.representative = true → r.incomplete = true
  comp : nodeComplicated info r.representative = true → r.complicated = true
  coll : nodeCollapsed info r.representative = true → r.collapsed = true
  plain : nodeIncomplete info r.representative = false → nodeComplicated info r.representative = false →
    r.incomplete = false ∧ r.complicated = false ∧ r.collapsed = nodeCollapsed info r.representative
  fits : r.offset + r.length < 2 ^ 32

theorem u32_of_lt {n : Nat} (h : n < 2 ^ 32) : u32 n = n := Nat.mod_eq_of_lt h

theorem merge_range {bp : Bool} {x R : Region} (hx : x.offset + x.length < 2 ^ 32) (hR : R.offset + R.length < 2 ^ 32) :
    (x.merge bp R).offset = min x.offset R.offset ∧
    (x.merge bp R).offset + (x.merge bp R).length = max (x.offset + x.length) (R.offset + R.length) := by
  simp only [Region.merge, u32_of_lt hx, u32_of_lt hR]
  have h1 : u32 (min x.offset R.offset) = min x.offset R.offset := u32_of_lt (by omega)
  rw [h1]
  have h2 : u32 (max (x.offset + x.length) (R.offset + R.length) + 2 ^ 64 - min x.offset R.offset) =
      max (x.offset + x.length) (R.offset + R.length) - min x.offset R.offset := by
    unfold u32; omega
  rw [h2]
  omega

theorem isDisjoint_iff {r : Region} {o l : Nat} (hr : r.offset + r.length < 2 ^ 32) (ho : o + l < 2 ^ 32) :
    r.isDisjoint o l = true ↔ (r.offset + r.length ≤ o ∨ o + l ≤ r.offset) := by
  simp [Region.isDisjoint, u32_of_lt hr, u32_of_lt ho]

theorem overlaps_iff {info : Nat → NodeInfo} {r R : Region} (hr : Inv info r) (hR : Inv info R) :
    r.overlaps R = true ↔ (r.incomplete = true ∧ R.incomplete = true) ∨ (r.complicated = true ∧ R.complicated = true) ∨
      (r.representative = R.representative ∧
        (r.collapsed = true ∨ ¬ (r.offset + r.length ≤ R.offset ∨ R.offset + R.length ≤ r.offset))) := by
  have h := isDisjoint_iff (r := r) hr.fits hR.fits
  have h' : (!r.isDisjoint R.offset R.length) = true ↔
      ¬ (r.offset + r.length ≤ R.offset ∨ R.offset + R.length ≤ r.offset) := by
    rw [← h]; simp
  simp only [Region.overlaps, Bool.or_eq_true, Bool.and_eq_true, beq_iff_eq]
  rw [h', or_assoc]

theorem node_cases (info : Nat → NodeInfo) (n : Option Nat) :
    nodeIncomplete info n = true ∨ nodeComplicated info n = true ∨
    (nodeIncomplete info n = false ∧ nodeComplicated info n = false) := by
  cases nodeIncomplete info n <;> cases nodeComplicated info n <;> simp

theorem overlaps_symm {info : Nat → NodeInfo} {r R : Region} (hr : Inv info r) (hR : Inv info R)
    (h : r.overlaps R = true) : R.overlaps r = true := by
  rw [overlaps_iff hr hR] at h
  rw [overlaps_iff hR hr]
  rcases h with h | h | ⟨he, h⟩
  · exact Or.inl ⟨h.2, h.1⟩
  · exact Or.inr (Or.inl ⟨h.2, h.1⟩)
  · rcases node_cases info r.representative with hi | hc | ⟨hi, hc⟩
    · exact Or.inl ⟨hR.inc (he ▸ hi), hr.inc hi⟩
    · exact Or.inr (Or.inl ⟨hR.comp (he ▸ hc), hr.comp hc⟩)
    · have p1 := hr.plain hi hc
      have p2 := hR.plain (he ▸ hi) (he ▸ hc)
      refine Or.inr (Or.inr ⟨he.symm, ?_⟩)
      rcases h with h | h
      · left; rw [p2.2.2, ← he, ← p1.2.2]; exact h
      · right; omega

theorem merge_inv {info : Nat → NodeInfo} {bp : Bool} {x R : Region} (hx : Inv info x) (hR : Inv info R)
    (h : x.overlaps R = true) : Inv info (x.merge bp R) := by
  have hr := merge_range (bp := bp) hx.fits hR.fits
  refine ⟨?_, ?_, ?_, ?_, ?_⟩
  · intro hi; simp only [Region.merge] at hi ⊢; simp [hx.inc hi]
  · intro hi; simp only [Region.merge] at hi ⊢; simp [hx.comp hi]
  · intro hi; simp only [Region.merge] at hi ⊢; simp [hx.coll hi]
  · intro hi hc
    simp only [Region.merge] at hi hc ⊢
    have p1 := hx.plain hi hc
    rw [overlaps_iff hx hR] at h
    rcases h with h | h | ⟨he, _⟩
    · rw [p1.1] at h; simp at h
    · rw [p1.2.1] at h; simp at h
    · have p2 := hR.plain (he ▸ hi) (he ▸ hc)
      rw [p1.1, p1.2.1, p1.2.2, p2.1, p2.2.1, p2.2.2, ← he]
      simp
  · have := hx.fits; have := hR.fits
    omega

/-- The union of two overlapping regions does not reach a third one that neither of them reaches. -/
theorem merge_apart {info : Nat → NodeInfo} {bp : Bool} {p x R : Region} (hp : Inv info p) (hx : Inv info x)
    (hR : Inv info R) (hxR : x.overlaps R = true) (h1 : p.overlaps x = false) (h2 : p.overlaps R = false) :
    p.overlaps (x.merge bp R) = false := by
  have hm := merge_inv (bp := bp) hx hR hxR
  have hr := merge_range (bp := bp) hx.fits hR.fits
  rw [Bool.eq_false_iff] at h1 h2 ⊢
  intro h
  rw [Ne, overlaps_iff hp hx] at h1
  rw [Ne, overlaps_iff hp hR] at h2
  rw [overlaps_iff hp hm] at h
  rw [overlaps_iff hx hR] at hxR
  rcases h with ⟨ha, hb⟩ | ⟨ha, hb⟩ | ⟨he, h⟩
  · simp only [Region.merge, Bool.or_eq_true] at hb
    rcases hb with hb | hb
    · exact h1 (Or.inl ⟨ha, hb⟩)
    · exact h2 (Or.inl ⟨ha, hb⟩)
  · simp only [Region.merge, Bool.or_eq_true] at hb
    rcases hb with hb | hb
    · exact h1 (Or.inr (Or.inl ⟨ha, hb⟩))
    · exact h2 (Or.inr (Or.inl ⟨ha, hb⟩))
  · have he' : p.representative = x.representative := he
    rcases node_cases info p.representative with hi | hc | ⟨hi, hc⟩
    · exact h1 (Or.inl ⟨hp.inc hi, hx.inc (he' ▸ hi)⟩)
    · exact h1 (Or.inr (Or.inl ⟨hp.comp hc, hx.comp (he' ▸ hc)⟩))
    · have pp := hp.plain hi hc
      have px := hx.plain (he' ▸ hi) (he' ▸ hc)
      have hcp : ¬ p.collapsed = true := fun hcp => h1 (Or.inr (Or.inr ⟨he', Or.inl hcp⟩))
      have hcx : ¬ x.collapsed = true := by
        intro hcx; apply hcp; rw [pp.2.2, he', ← px.2.2]; exact hcx
      rcases hxR with hxR | hxR | ⟨hxe, hxR⟩
      · rw [px.1] at hxR; simp at hxR
      · rw [px.2.1] at hxR; simp at hxR
      · have h1' : p.offset + p.length ≤ x.offset ∨ x.offset + x.length ≤ p.offset :=
          Decidable.byContradiction fun hh => h1 (Or.inr (Or.inr ⟨he', Or.inr hh⟩))
        have h2' : p.offset + p.length ≤ R.offset ∨ R.offset + R.length ≤ p.offset :=
          Decidable.byContradiction fun hh => h2 (Or.inr (Or.inr ⟨he'.trans hxe, Or.inr hh⟩))
        have h3 := h.resolve_left hcp
        have h4 := hxR.resolve_left hcx
        omega

/-- Well-formed vectors: consistent regions that pairwise do not overlap. -/
structure Wf (info : Nat → NodeInfo) (regs : List Region) : Prop where
  inv : ∀ r ∈ regs, Inv info r
  apart : regs.Pairwise (fun a b => a.overlaps b = false)

theorem not_overlaps_symm {info : Nat → NodeInfo} {r R : Region} (hr : Inv info r) (hR : Inv info R)
    (h : r.overlaps R = false) : R.overlaps r = false := by
  rw [Bool.eq_false_iff] at h ⊢
  exact fun hh => h (overlaps_symm hR hr hh)

theorem absorb_spec {info : Nat → NodeInfo} {bp : Bool} (rest : List Region) : ∀ (acc : Region),
    Inv info acc → Wf info rest →
    Inv info (absorb bp acc rest).1 ∧ Wf info (absorb bp acc rest).2 ∧
    (∀ k ∈ (absorb bp acc rest).2, (absorb bp acc rest).1.overlaps k = false) ∧
    (∀ k ∈ (absorb bp acc rest).2, k ∈ rest) ∧
    (∀ p, Inv info p → p.overlaps acc = false → (∀ q ∈ rest, p.overlaps q = false) →
      p.overlaps (absorb bp acc rest).1 = false) := by
  induction rest with
  | nil =>
    intro acc ha hw
    simp only [absorb]
    exact ⟨ha, hw, by simp, by simp, fun p _ h _ => h⟩
  | cons q rest ih =>
    intro acc ha hw
    have hwr : Wf info rest := ⟨fun r hr => hw.inv r (by simp [hr]), (List.pairwise_cons.mp hw.apart).2⟩
    have hqr := (List.pairwise_cons.mp hw.apart).1
    have hq := hw.inv q (by simp)
    unfold absorb
    by_cases ho : acc.overlaps q = true
    · rw [if_pos ho]
      obtain ⟨h1, h2, h3, h4, h5⟩ := ih (acc.merge bp q) (merge_inv ha hq ho) hwr
      refine ⟨h1, h2, h3, fun k hk => by simp [h4 k hk], ?_⟩
      intro p hp hpa hpq
      exact h5 p hp (merge_apart hp ha hq ho hpa (hpq q (by simp))) (fun r hr => hpq r (by simp [hr]))
    · rw [if_neg ho]
      obtain ⟨h1, h2, h3, h4, h5⟩ := ih acc ha hwr
      have hqa : q.overlaps acc = false := not_overlaps_symm ha hq (Bool.eq_false_iff.mpr ho)
      have hqf : q.overlaps (absorb bp acc rest).1 = false := h5 q hq hqa hqr
      refine ⟨h1, ⟨?_, ?_⟩, ?_, ?_, ?_⟩
      · intro r hr
        rcases List.mem_cons.mp hr with rfl | hr
        · exact hq
        · exact h2.inv r hr
      · exact List.pairwise_cons.mpr ⟨fun r hr => hqr r (h4 r hr), h2.apart⟩
      · intro k hk
        rcases List.mem_cons.mp hk with rfl | hk
        · exact not_overlaps_symm hq h1 hqf
        · exact h3 k hk
      · intro k hk
        rcases List.mem_cons.mp hk with rfl | hk
        · simp
        · simp [h4 k hk]
      · intro p hp hpa hpq
        exact h5 p hp hpa (fun r hr => hpq r (by simp [hr]))

theorem idx_spec {info : Nat → NodeInfo} {bp : Bool} (regs : List Region) (R : Region) (hR : Inv info R) :
    Wf info regs → Wf info (idx bp regs R).1 ∧
    (∀ p, Inv info p → p.overlaps R = false → (∀ q ∈ regs, p.overlaps q = false) →
      ∀ q ∈ (idx bp regs R).1, p.overlaps q = false) := by
  induction regs with
  | nil =>
    intro _
    refine ⟨⟨by simpa [idx] using hR, by simp [idx]⟩, ?_⟩
    intro p hp h _ q hq
    simp [idx] at hq; subst hq; exact h
  | cons x xs ih =>
    intro hw
    have hwx : Wf info xs := ⟨fun r hr => hw.inv r (by simp [hr]), (List.pairwise_cons.mp hw.apart).2⟩
    have hx := hw.inv x (by simp)
    unfold idx
    by_cases ho : x.overlaps R = true
    · rw [if_pos ho]
      obtain ⟨h1, h2, h3, h4, h5⟩ := absorb_spec (bp := bp) xs (x.merge bp R) (merge_inv hx hR ho) hwx
      refine ⟨⟨?_, List.pairwise_cons.mpr ⟨h3, h2.apart⟩⟩, ?_⟩
      · intro r hr
        rcases List.mem_cons.mp hr with rfl | hr
        · exact h1
        · exact h2.inv r hr
      · intro p hp hpR hpq q hq
        rcases List.mem_cons.mp hq with rfl | hq
        · exact h5 p hp (merge_apart hp hx hR ho (hpq x (by simp)) hpR) (fun r hr => hpq r (by simp [hr]))
        · exact hpq q (by simp [h4 q hq])
    · rw [if_neg ho]
      obtain ⟨h1, h2⟩ := ih hwx
      have hxn : x.overlaps R = false := Bool.eq_false_iff.mpr ho
      refine ⟨⟨?_, List.pairwise_cons.mpr ⟨?_, h1.apart⟩⟩, ?_⟩
      · intro r hr
        rcases List.mem_cons.mp hr with rfl | hr
        · exact hx
        · exact h1.inv r hr
      · exact h2 x hx hxn (List.pairwise_cons.mp hw.apart).1
      · intro p hp hpR hpq q hq
        rcases List.mem_cons.mp hq with rfl | hq
        · exact hpq _ (by simp)
        · exact h2 p hp hpR (fun r hr => hpq r (by simp [hr])) q hq

/-- The region `r` accounts for the access region `A`. -/
structure Contains (info : Nat → NodeInfo) (bp : Bool) (r A : Region) : Prop where
  inc : A.incomplete = true → r.incomplete = true
  comp : A.complicated = true → r.complicated = true
  coll : A.collapsed = true → r.collapsed = true
  rep : nodeIncomplete info A.representative = false → nodeComplicated info A.representative = false →
    r.representative = A.representative
  lo : r.offset ≤ A.offset
  hi : A.offset + A.length ≤ r.offset + r.length
  sing : r.singleton = true → A.singleton = true
  alloc : A.allocated = true → r.allocated = true
  byte : bp = true → A.bytewise = true → r.bytewise = true
  type : bp = true → r.type ≠ A.type → r.bytewise = true
  bpb : r.bytewise = true → bp = true
  ty : r.type = none ∨ r.type = A.type

theorem contains_self {info : Nat → NodeInfo} {bp : Bool} (A : Region) (hb : A.bytewise = true → bp = true) :
    Contains info bp A A :=
  ⟨id, id, id, fun _ _ => rfl, Nat.le_refl _, Nat.le_refl _, id, id, fun _ => id, fun _ h => absurd rfl h, hb, .inr rfl⟩

theorem contains_merge_left {info : Nat → NodeInfo} {bp : Bool} {x R A : Region} (hx : Inv info x) (hR : Inv info R)
    (h : Contains info bp x A) : Contains info bp (x.merge bp R) A := by
  have hr := merge_range (bp := bp) hx.fits hR.fits
  refine ⟨?_, ?_, ?_, ?_, ?_, ?_, ?_, ?_, ?_, ?_, ?_, ?_⟩
  · intro hh; simp [Region.merge, h.inc hh]
  · intro hh; simp [Region.merge, h.comp hh]
  · intro hh; simp [Region.merge, h.coll hh]
  · exact h.rep
  · have := h.lo; omega
  · have := h.hi; omega
  · intro hh; simp [Region.merge] at hh; exact h.sing hh.1
  · intro hh; simp [Region.merge, h.alloc hh]
  · intro hb hh; simp [Region.merge, hb, h.byte hb hh]
  · intro hb hh
    simp only [Region.merge, hb, Bool.true_and] at hh ⊢
    by_cases ht : x.type = A.type
    · by_cases h2 : (x.bytewise || R.bytewise || x.type != R.type) = true
      · exact h2
      · rw [if_neg] at hh
        · exact absurd ht hh
        · simp at h2 ⊢; exact ⟨⟨h2.1.1, h2.1.2⟩, h2.2⟩
    · rw [h.type hb ht]; simp
  · intro hh; simp [Region.merge] at hh; exact hh.1
  · simp only [Region.merge]
    split
    · exact .inl rfl
    · exact h.ty

theorem contains_merge_right {info : Nat → NodeInfo} {bp : Bool} {x R A : Region} (hx : Inv info x) (hR : Inv info R)
    (ho : x.overlaps R = true) (h : Contains info bp R A) : Contains info bp (x.merge bp R) A := by
  have hr := merge_range (bp := bp) hx.fits hR.fits
  refine ⟨?_, ?_, ?_, ?_, ?_, ?_, ?_, ?_, ?_, ?_, ?_, ?_⟩
  · intro hh; simp [Region.merge, h.inc hh]
  · intro hh; simp [Region.merge, h.comp hh]
  · intro hh; simp [Region.merge, h.coll hh]
  · intro hi hc
    have he := h.rep hi hc
    have p := hR.plain (he ▸ hi) (he ▸ hc)
    rw [overlaps_iff hx hR] at ho
    rcases ho with ho | ho | ⟨ho, _⟩
    · rw [p.1] at ho; simp at ho
    · rw [p.2.1] at ho; simp at ho
    · exact ho.trans he
  · have := h.lo; omega
  · have := h.hi; omega
  · intro hh; simp [Region.merge] at hh; exact h.sing hh.2
  · intro hh; simp [Region.merge, h.alloc hh]
  · intro hb hh; simp [Region.merge, hb, h.byte hb hh]
  · intro hb hh
    simp only [Region.merge, hb, Bool.true_and] at hh ⊢
    by_cases h2 : (x.bytewise || R.bytewise || x.type != R.type) = true
    · exact h2
    · rw [if_neg] at hh
      · simp at h2
        exfalso
        by_cases ht : R.type = A.type
        · exact hh (h2.2.trans ht)
        · have := h.type hb ht; rw [h2.1.2] at this; simp at this
      · simp at h2 ⊢; exact ⟨⟨h2.1.1, h2.1.2⟩, h2.2⟩
  · intro hh; simp [Region.merge] at hh; exact hh.1
  · simp only [Region.merge]
    split
    · exact .inl rfl
    · rename_i hn
      simp at hn
      rw [hn.2]; exact h.ty

theorem absorb_contains {info : Nat → NodeInfo} {bp : Bool} (rest : List Region) : ∀ (acc A : Region),
    Inv info acc → Inv info A → Wf info rest →
    (Contains info bp acc A → Contains info bp (absorb bp acc rest).1 A) ∧
    (∀ q ∈ rest, Contains info bp q A →
      Contains info bp (absorb bp acc rest).1 A ∨ ∃ k ∈ (absorb bp acc rest).2, Contains info bp k A) := by
  induction rest with
  | nil => intro acc A _ _ _; simp [absorb]
  | cons q rest ih =>
    intro acc A ha hA hw
    have hwr : Wf info rest := ⟨fun r hr => hw.inv r (by simp [hr]), (List.pairwise_cons.mp hw.apart).2⟩
    have hq := hw.inv q (by simp)
    unfold absorb
    by_cases ho : acc.overlaps q = true
    · rw [if_pos ho]
      obtain ⟨h1, h2⟩ := ih (acc.merge bp q) A (merge_inv ha hq ho) hA hwr
      refine ⟨fun h => h1 (contains_merge_left ha hq h), ?_⟩
      intro r hr hc
      rcases List.mem_cons.mp hr with rfl | hr
      · exact Or.inl (h1 (contains_merge_right ha hq ho hc))
      · exact h2 r hr hc
    · rw [if_neg ho]
      obtain ⟨h1, h2⟩ := ih acc A ha hA hwr
      refine ⟨h1, ?_⟩
      intro r hr hc
      rcases List.mem_cons.mp hr with rfl | hr
      · exact Or.inr ⟨r, by simp, hc⟩
      · rcases h2 r hr hc with h | ⟨k, hk, hc⟩
        · exact Or.inl h
        · exact Or.inr ⟨k, by simp [hk], hc⟩

theorem idx_contains {info : Nat → NodeInfo} {bp : Bool} (regs : List Region) (R : Region) (hR : Inv info R)
    (hRb : R.bytewise = true → bp = true) :
    Wf info regs →
    (∃ r, (idx bp regs R).1[(idx bp regs R).2]? = some r ∧ Contains info bp r R) ∧
    (∀ A, Inv info A → (∃ r ∈ regs, Contains info bp r A) → ∃ r ∈ (idx bp regs R).1, Contains info bp r A) := by
  induction regs with
  | nil =>
    intro _
    refine ⟨⟨R, by simp [idx], contains_self R hRb⟩, ?_⟩
    rintro A _ ⟨r, hr, _⟩
    simp at hr
  | cons x xs ih =>
    intro hw
    have hwx : Wf info xs := ⟨fun r hr => hw.inv r (by simp [hr]), (List.pairwise_cons.mp hw.apart).2⟩
    have hx := hw.inv x (by simp)
    unfold idx
    by_cases ho : x.overlaps R = true
    · rw [if_pos ho]
      refine ⟨?_, ?_⟩
      · refine ⟨_, rfl, ?_⟩
        exact (absorb_contains xs _ R (merge_inv hx hR ho) hR hwx).1
          (contains_merge_right hx hR ho (contains_self R hRb))
      · rintro A hA ⟨r, hr, hc⟩
        obtain ⟨h1, h2⟩ := absorb_contains (bp := bp) xs _ A (merge_inv (bp := bp) hx hR ho) hA hwx
        rcases List.mem_cons.mp hr with rfl | hr
        · exact ⟨_, by simp, h1 (contains_merge_left hx hR hc)⟩
        · rcases h2 r hr hc with h | ⟨k, hk, hc⟩
          · exact ⟨_, by simp, h⟩
          · exact ⟨k, by simp [hk], hc⟩
    · rw [if_neg ho]
      obtain ⟨⟨r, hr, hc⟩, h2⟩ := ih hwx
      refine ⟨⟨r, by simpa using hr, hc⟩, ?_⟩
      rintro A hA ⟨r, hr, hc⟩
      rcases List.mem_cons.mp hr with rfl | hr
      · exact ⟨r, by simp, hc⟩
      · obtain ⟨r', hr', hc'⟩ := h2 A hA ⟨r, hr, hc⟩
        exact ⟨r', by simp [hr'], hc'⟩

/-- Same observable attributes and flags. The element type may change (to "bytes"). -/
structure Same (a b : Region) : Prop where
  rep : a.representative = b.representative
  off : a.offset = b.offset
  len : a.length = b.length
  sing : a.singleton = b.singleton
  alloc : a.allocated = b.allocated
  byte : a.bytewise = b.bytewise
  inc : a.incomplete = b.incomplete
  comp : a.complicated = b.complicated
  coll : a.collapsed = b.collapsed

theorem untyped_same {a b : Region} (h : Same a b) : a.untyped = b.untyped := by
  obtain ⟨h1, h2, h3, h4, h5, h6, h7, h8, h9⟩ := h
  cases a; cases b; simp_all [Region.untyped]

theorem same_overlaps {a b : Region} (h : Same a b) (q : Region) : a.overlaps q = b.overlaps q := by
  unfold Region.overlaps Region.isDisjoint
  rw [h.rep, h.off, h.len, h.inc, h.comp, h.coll]

theorem overlaps_same {a b : Region} (h : Same a b) (q : Region) : q.overlaps a = q.overlaps b := by
  unfold Region.overlaps Region.isDisjoint
  rw [h.rep, h.off, h.len, h.inc, h.comp]

/-- Merging an already contained access changes nothing observable. -/
theorem merge_same {info : Nat → NodeInfo} {bp : Bool} {r A : Region} (hr : Inv info r) (hA : Inv info A)
    (h : Contains info bp r A) : Same (r.merge bp A) r := by
  have hm := merge_range (bp := bp) hr.fits hA.fits
  have := h.lo; have := h.hi
  refine ⟨rfl, by omega, by omega, ?_, ?_, ?_, ?_, ?_, ?_⟩
  · have := h.sing
    simp only [Region.merge]
    cases h1 : r.singleton <;> simp_all
  · have := h.alloc
    simp only [Region.merge]
    cases h1 : A.allocated <;> simp_all
  · simp only [Region.merge]
    have h1 := h.byte; have h2 := h.type; have h3 := h.bpb
    cases hb : bp
    · cases hbw : r.bytewise
      · rfl
      · rw [hb] at h3; exact absurd (h3 hbw) (by simp)
    · cases hbw : r.bytewise
      · have hab : A.bytewise = false := by
          cases hab : A.bytewise
          · rfl
          · rw [h1 hb hab] at hbw; simp at hbw
        have hty : r.type = A.type := by
          apply Classical.byContradiction
          intro hn; rw [h2 hb hn] at hbw; simp at hbw
        simp [hab, hty]
      · simp
  · have := h.inc
    simp only [Region.merge]
    cases h1 : A.incomplete <;> simp_all
  · have := h.comp
    simp only [Region.merge]
    cases h1 : A.complicated <;> simp_all
  · have := h.coll
    simp only [Region.merge]
    cases h1 : A.collapsed <;> simp_all

theorem absorb_none {bp : Bool} {acc : Region} (rest : List Region) (h : ∀ q ∈ rest, acc.overlaps q = false) :
    absorb bp acc rest = (acc, rest) := by
  induction rest with
  | nil => rfl
  | cons q rest ih =>
    rw [absorb, h q (by simp)]
    rw [ih (fun r hr => h r (by simp [hr]))]
    rfl

theorem contains_overlaps {info : Nat → NodeInfo} {bp : Bool} {r A : Region} (hr : Inv info r) (hA : Inv info A)
    (h : Contains info bp r A) (hlen : 0 < A.length) : r.overlaps A = true := by
  rw [overlaps_iff hr hA]
  rcases node_cases info A.representative with hi | hc | ⟨hi, hc⟩
  · exact Or.inl ⟨h.inc (hA.inc hi), hA.inc hi⟩
  · exact Or.inr (Or.inl ⟨h.comp (hA.comp hc), hA.comp hc⟩)
  · refine Or.inr (Or.inr ⟨h.rep hi hc, Or.inr ?_⟩)
    have := h.lo; have := h.hi
    omega

theorem overlaps_contains {info : Nat → NodeInfo} {bp : Bool} {p r A : Region} (hp : Inv info p) (hr : Inv info r)
    (hA : Inv info A) (h : Contains info bp r A) (ho : p.overlaps A = true) : p.overlaps r = true := by
  rw [overlaps_iff hp hA] at ho
  rw [overlaps_iff hp hr]
  rcases ho with ho | ho | ⟨he, ho⟩
  · exact Or.inl ⟨ho.1, h.inc ho.2⟩
  · exact Or.inr (Or.inl ⟨ho.1, h.comp ho.2⟩)
  · rcases node_cases info A.representative with hi | hc | ⟨hi, hc⟩
    · exact Or.inl ⟨hp.inc (he ▸ hi), h.inc (hA.inc hi)⟩
    · exact Or.inr (Or.inl ⟨hp.comp (he ▸ hc), h.comp (hA.comp hc)⟩)
    · refine Or.inr (Or.inr ⟨he.trans (h.rep hi hc).symm, ?_⟩)
      rcases ho with ho | ho
      · exact Or.inl ho
      · right
        have := h.lo; have := h.hi
        omega

/-- Looking up a contained access: same vector up to the element type, and the index of its region. -/
theorem idx_stable {info : Nat → NodeInfo} {bp : Bool} (regs : List Region) (A : Region) (hA : Inv info A)
    (hlen : 0 < A.length) :
    Wf info regs → ∀ (i : Nat) (r : Region), regs[i]? = some r → Contains info bp r A →
    (idx bp regs A).2 = i ∧ (idx bp regs A).1.map Region.untyped = regs.map Region.untyped := by
  induction regs with
  | nil => intro _ i r h; simp at h
  | cons x xs ih =>
    intro hw i r hi hc
    have hwx : Wf info xs := ⟨fun r hr => hw.inv r (by simp [hr]), (List.pairwise_cons.mp hw.apart).2⟩
    have hx := hw.inv x (by simp)
    have hap := (List.pairwise_cons.mp hw.apart).1
    cases i with
    | zero =>
      simp at hi; subst hi
      have ho := contains_overlaps hx hA hc hlen
      have hs := merge_same (bp := bp) hx hA hc
      have hab := absorb_none (bp := bp) (acc := x.merge bp A) xs (fun q hq => by
        rw [same_overlaps hs]; exact hap q hq)
      unfold idx
      rw [if_pos ho, hab]
      exact ⟨rfl, by simp [untyped_same hs]⟩
    | succ i =>
      simp at hi
      have hr := hwx.inv r (List.mem_of_getElem? hi)
      have ho : ¬ x.overlaps A = true := by
        intro ho
        have := overlaps_contains hx hr hA hc ho
        rw [hap r (List.mem_of_getElem? hi)] at this
        simp at this
      obtain ⟨h1, h2⟩ := ih hwx i r hi hc
      unfold idx
      rw [if_neg ho]
      exact ⟨by simp [h1], by simp [h2]⟩

theorem region_inv (info : Nat → NodeInfo) (bp : Bool) (A : Access) (h : A.Fits) : Inv info (A.region info bp) := by
  have h1 : u32 A.offset = A.offset := u32_of_lt (by unfold Access.Fits at h; omega)
  have h2 : u32 A.length = A.length := u32_of_lt (by unfold Access.Fits at h; omega)
  refine ⟨?_, ?_, ?_, ?_, ?_⟩
  · simp only [Access.region, initRegion]; cases A.node <;> simp [nodeIncomplete]
  · simp only [Access.region, initRegion]; cases A.node <;> simp [nodeComplicated]
  · simp only [Access.region, initRegion]; cases A.node <;> simp [nodeCollapsed]
  · simp only [Access.region, initRegion]
    cases A.node
    · simp [nodeIncomplete]
    · simp [nodeIncomplete, nodeComplicated, nodeCollapsed]; intro h1 h2; exact ⟨h1, h2⟩
  · simp only [Access.region, initRegion]; rw [h1, h2]; exact h

theorem region_byte (info : Nat → NodeInfo) (bp : Bool) (A : Access) :
    (A.region info bp).bytewise = true → bp = true := by
  simp only [Access.region, initRegion, Bool.and_eq_true]; exact And.left

theorem region_range (info : Nat → NodeInfo) (bp : Bool) (A : Access) (h : A.Fits) :
    (A.region info bp).offset = A.offset ∧ (A.region info bp).length = A.length := by
  unfold Access.Fits at h
  exact ⟨u32_of_lt (by omega), u32_of_lt (by omega)⟩

/-- Invariant of collecting: well-formed, and every access looked up is contained in some region. -/
theorem run_spec (info : Nat → NodeInfo) (bp : Bool) (h : List Access) : (∀ A ∈ h, A.Fits) →
    ∀ regs, Wf info regs →
    Wf info (run bp regs (h.map (Access.region info bp))) ∧
    (∀ A, Inv info A → (∃ r ∈ regs, Contains info bp r A) →
      ∃ r ∈ run bp regs (h.map (Access.region info bp)), Contains info bp r A) ∧
    (∀ A ∈ h, ∃ r ∈ run bp regs (h.map (Access.region info bp)), Contains info bp r (A.region info bp)) := by
  induction h with
  | nil => intro _ regs hw; exact ⟨hw, fun A _ h => h, by simp⟩
  | cons B h ih =>
    intro hf regs hw
    have hB := region_inv info bp B (hf B (by simp))
    have h1 := (idx_spec (bp := bp) regs _ hB hw).1
    have h2 := idx_contains (bp := bp) regs _ hB (region_byte info bp B) hw
    obtain ⟨i1, i2, i3⟩ := ih (fun A hA => hf A (by simp [hA])) _ h1
    refine ⟨i1, fun A hA hc => i2 A hA (h2.2 A hA hc), ?_⟩
    intro A hA
    rcases List.mem_cons.mp hA with rfl | hA
    · obtain ⟨r, hr, hc⟩ := h2.1
      exact i2 _ hB ⟨r, List.mem_of_getElem? hr, hc⟩
    · exact i3 A hA

theorem wf_nil (info : Nat → NodeInfo) : Wf info [] := ⟨by simp, by simp⟩

theorem collect_spec (info : Nat → NodeInfo) (bp : Bool) (h : List Access) (hf : ∀ A ∈ h, A.Fits) :
    Wf info (collect info bp h) ∧ ∀ A ∈ h, ∃ r ∈ collect info bp h, Contains info bp r (A.region info bp) := by
  obtain ⟨h1, _, h3⟩ := run_spec info bp h hf [] (wf_nil info)
  exact ⟨h1, h3⟩

theorem lookup_spec (info : Nat → NodeInfo) (bp : Bool) (regs : List Region) (hw : Wf info regs) (A : Access)
    (hf : A.Fits) (hlen : 0 < A.length) (r : Region) (hr : r ∈ regs) (hc : Contains info bp r (A.region info bp)) :
    regs[lookup info bp regs A]? = some r ∧
    (idx bp regs (A.region info bp)).1.map Region.untyped = regs.map Region.untyped := by
  obtain ⟨i, hi⟩ := List.getElem?_of_mem hr
  have hl : 0 < (A.region info bp).length := by rw [(region_range info bp A hf).2]; exact hlen
  obtain ⟨h1, h2⟩ := idx_stable (bp := bp) regs _ (region_inv info bp A hf) hl hw i r hi hc
  exact ⟨by unfold lookup; rw [h1]; exact hi, h2⟩

theorem collect_append (info : Nat → NodeInfo) (bp : Bool) (h s : List Access) :
    collect info bp (h ++ s) = run bp (collect info bp h) (s.map (Access.region info bp)) := by
  simp [collect, run]

/-- The index and the vector do not depend on the element types. -/
theorem untyped_eq_overlaps {a b : Region} (h : a.untyped = b.untyped) (q : Region) : a.overlaps q = b.overlaps q := by
  cases a; cases b; simp only [Region.untyped, Region.mk.injEq] at h
  simp only [Region.overlaps, Region.isDisjoint]
  simp [h]

theorem idx_untyped_index (bp : Bool) (R : Region) (r1 : List Region) : ∀ r2,
    r1.map Region.untyped = r2.map Region.untyped → (idx bp r1 R).2 = (idx bp r2 R).2 := by
  induction r1 with
  | nil => intro r2 h; cases r2 <;> simp_all [idx]
  | cons a r1 ih =>
    intro r2 h
    cases r2 with
    | nil => simp at h
    | cons b r2 =>
      simp only [List.map_cons, List.cons.injEq] at h
      unfold idx
      rw [untyped_eq_overlaps h.1]
      by_cases ho : b.overlaps R = true
      · rw [if_pos ho, if_pos ho]
      · rw [if_neg ho, if_neg ho]
        simp [ih r2 h.2]

theorem rerun_untyped (info : Nat → NodeInfo) (bp : Bool) (s : List Access) : ∀ h : List Access,
    (∀ A ∈ h, A.Fits) → (∀ A ∈ h, 0 < A.length) → (∀ A ∈ s, A ∈ h) →
    (collect info bp (h ++ s)).map Region.untyped = (collect info bp h).map Region.untyped := by
  induction s with
  | nil => intro h _ _ _; simp
  | cons A s ih =>
    intro h hf hl hs
    have hA := hs A (by simp)
    have h1 : (collect info bp (h ++ [A])).map Region.untyped = (collect info bp h).map Region.untyped := by
      obtain ⟨hw, hc⟩ := collect_spec info bp h hf
      obtain ⟨r, hr, hcr⟩ := hc A hA
      rw [collect_append]
      exact (lookup_spec info bp _ hw A (hf A hA) (hl A hA) r hr hcr).2
    have hm : ∀ B ∈ h ++ [A], B ∈ h := by
      intro B hB
      rcases List.mem_append.mp hB with hB | hB
      · exact hB
      · rw [List.mem_singleton.mp hB]; exact hA
    have h2 := ih (h ++ [A]) (fun B hB => hf B (hm B hB)) (fun B hB => hl B (hm B hB))
      (fun B hB => by simp [hs B (by simp [hB])])
    rw [← h1, ← h2]; simp

end Smack.Regions
