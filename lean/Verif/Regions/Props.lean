/-
C09, C10, C11.
-/
import Verif.Regions.Lemmas

namespace Smack.Regions

/-! ### C09 -/

/-- C09 (accesses whose end does not exceed 32 bits): after any sequence of lookups no two regions overlap: two different
regions are never both incomplete or both complicated, and if they belong to one node then neither is collapsed and their
byte ranges are disjoint. -/
theorem c09_regions_disjoint_partial (info : Nat → NodeInfo) (bp : Bool) (h : List Access) (hf : ∀ A ∈ h, A.Fits)
    (i j : Nat) (hij : i ≠ j) (a b : Region) (ha : (collect info bp h)[i]? = some a)
    (hb : (collect info bp h)[j]? = some b) :
    ¬ (a.incomplete = true ∧ b.incomplete = true) ∧ ¬ (a.complicated = true ∧ b.complicated = true) ∧
    (a.representative = b.representative → a.collapsed = false ∧ b.collapsed = false ∧
      (a.offset + a.length ≤ b.offset ∨ b.offset + b.length ≤ a.offset)) := by
  obtain ⟨hw, _⟩ := collect_spec info bp h hf
  have hia := hw.inv a (List.mem_of_getElem? ha)
  have hib := hw.inv b (List.mem_of_getElem? hb)
  have hn : a.overlaps b = false := by
    obtain ⟨hi, rfl⟩ := List.getElem?_eq_some_iff.mp ha
    obtain ⟨hj, rfl⟩ := List.getElem?_eq_some_iff.mp hb
    have hp := List.pairwise_iff_getElem.mp hw.apart
    rcases Nat.lt_or_gt_of_ne hij with hlt | hlt
    · exact hp i j hi hj hlt
    · exact not_overlaps_symm hib hia (hp j i hj hi hlt)
  have hn2 := not_overlaps_symm hia hib hn
  rw [Bool.eq_false_iff, Ne, overlaps_iff hia hib] at hn
  rw [Bool.eq_false_iff, Ne, overlaps_iff hib hia] at hn2
  refine ⟨fun hh => hn (Or.inl hh), fun hh => hn (Or.inr (Or.inl hh)), ?_⟩
  intro he
  refine ⟨?_, ?_, ?_⟩
  · rw [Bool.eq_false_iff]; exact fun hh => hn (Or.inr (Or.inr ⟨he, Or.inl hh⟩))
  · rw [Bool.eq_false_iff]; exact fun hh => hn2 (Or.inr (Or.inr ⟨he.symm, Or.inl hh⟩))
  · exact Decidable.byContradiction fun hh => hn (Or.inr (Or.inr ⟨he, Or.inr hh⟩))

/-- C09: two accesses that may alias use the same region, even when the two lookups happen at different times of the
translation (after `s₁` and after `s₂` further lookups of known accesses). -/
theorem c09_alias_same_region_partial (info : Nat → NodeInfo) (bp : Bool) (h s₁ s₂ : List Access)
    (hf : ∀ A ∈ h, A.Fits) (hlen : ∀ A ∈ h, 0 < A.length) (hs₁ : ∀ A ∈ s₁, A ∈ h) (hs₂ : ∀ A ∈ s₂, A ∈ h)
    (A B : Access) (hA : A ∈ h) (hB : B ∈ h) (hal : MayAlias info A B) :
    lookup info bp (collect info bp (h ++ s₁)) A = lookup info bp (collect info bp (h ++ s₂)) B := by
  unfold lookup
  rw [idx_untyped_index bp _ _ _ (rerun_untyped info bp s₁ h hf hlen hs₁),
    idx_untyped_index bp _ _ _ (rerun_untyped info bp s₂ h hf hlen hs₂)]
  obtain ⟨hw, hc⟩ := collect_spec info bp h hf
  obtain ⟨a, ha, hca⟩ := hc A hA
  obtain ⟨b, hb, hcb⟩ := hc B hB
  have la := (lookup_spec info bp _ hw A (hf A hA) (hlen A hA) a ha hca).1
  have lb := (lookup_spec info bp _ hw B (hf B hB) (hlen B hB) b hb hcb).1
  have iA := region_inv info bp A (hf A hA)
  have iB := region_inv info bp B (hf B hB)
  have rA := region_range info bp A (hf A hA)
  have rB := region_range info bp B (hf B hB)
  apply Decidable.byContradiction
  intro hne
  obtain ⟨d1, d2, d3⟩ := c09_regions_disjoint_partial info bp h hf _ _ hne a b la lb
  have incl : ∀ X : Access, X.Fits → nodeIncomplete info X.node = true → (X.region info bp).incomplete = true :=
    fun X hX hh => (region_inv info bp X hX).inc hh
  have compl : ∀ X : Access, X.Fits → nodeComplicated info X.node = true → (X.region info bp).complicated = true :=
    fun X hX hh => (region_inv info bp X hX).comp hh
  rcases hal with ⟨x, y⟩ | ⟨x, y⟩ | ⟨he, x⟩
  · exact d1 ⟨hca.inc (incl A (hf A hA) x), hcb.inc (incl B (hf B hB) y)⟩
  · exact d2 ⟨hca.comp (compl A (hf A hA) x), hcb.comp (compl B (hf B hB) y)⟩
  · rcases node_cases info A.node with hi | hcm | ⟨hi, hcm⟩
    · exact d1 ⟨hca.inc (incl A (hf A hA) hi), hcb.inc (incl B (hf B hB) (he ▸ hi))⟩
    · exact d2 ⟨hca.comp (compl A (hf A hA) hcm), hcb.comp (compl B (hf B hB) (he ▸ hcm))⟩
    · have ea : a.representative = A.node := hca.rep hi hcm
      have eb : b.representative = B.node := hcb.rep (show nodeIncomplete info B.node = false from he ▸ hi)
        (show nodeComplicated info B.node = false from he ▸ hcm)
      obtain ⟨c1, _, c3⟩ := d3 (by rw [ea, eb, he])
      rcases x with x | ⟨k, k1, k2, k3, k4⟩
      · have := hca.coll (iA.coll x)
        rw [c1] at this; simp at this
      · have := hca.lo; have := hca.hi; have := hcb.lo; have := hcb.hi
        omega

/-- C09: the region returned by a lookup contains the access: its byte range includes the access's, it carries the access's
flags, and if the node is neither incomplete nor complicated it is a region of that node. -/
theorem c09_lookup_contains (info : Nat → NodeInfo) (bp : Bool) (h : List Access) (hf : ∀ A ∈ h, A.Fits)
    (A : Access) (hA : A.Fits) :
    ∃ r, (collect info bp (h ++ [A]))[lookup info bp (collect info bp h) A]? = some r ∧
      r.offset ≤ A.offset ∧ A.offset + A.length ≤ r.offset + r.length ∧
      (nodeIncomplete info A.node = true → r.incomplete = true) ∧
      (nodeComplicated info A.node = true → r.complicated = true) ∧
      (nodeCollapsed info A.node = true → r.collapsed = true) ∧
      (nodeIncomplete info A.node = false → nodeComplicated info A.node = false → r.representative = A.node) := by
  obtain ⟨hw, _⟩ := collect_spec info bp h hf
  have iA := region_inv info bp A hA
  have rA := region_range info bp A hA
  obtain ⟨r, hr, hc⟩ := (idx_contains (bp := bp) _ _ iA (region_byte info bp A) hw).1
  refine ⟨r, by rw [collect_append]; exact hr, ?_, ?_, fun x => hc.inc (iA.inc x), fun x => hc.comp (iA.comp x),
    fun x => hc.coll (iA.coll x), hc.rep⟩
  · rw [← rA.1]; exact hc.lo
  · rw [← rA.1, ← rA.2]; exact hc.hi

instance (A : Access) : Decidable A.Fits := inferInstanceAs (Decidable (_ < _))

/-- No node is incomplete, complicated or collapsed. -/
def plainInfo : Nat → NodeInfo := fun _ => ⟨false, false, false⟩

/-- An access without special attributes. -/
def acc (n o l : Nat) : Access := ⟨some n, 0, o, l, false, true, false⟩

example : (∀ A ∈ [acc 0 0 4, acc 0 8 4, acc 0 2 8, acc 1 0 4], A.Fits) ∧
    collect plainInfo true [acc 0 0 4, acc 0 8 4, acc 0 2 8, acc 1 0 4] =
      [⟨some 0, some 0, 0, 12, false, true, false, false, false, false⟩,
       ⟨some 1, some 0, 0, 4, false, true, false, false, false, false⟩] := by decide

/-- C09 fails for accesses of unknown length that do not start at offset 0 of their node (their recorded length is 2^32 - 1, and
the end wraps around): an access of unknown length at any offset `o > 0` and any access to the same node behind it are put in
different regions, although they may alias. -/
theorem c09_unknown_length_fails (n o p l : Nat) (ho : 0 < o) (hop : o ≤ p) (hl : 0 < l) (hp : p + l < 2 ^ 32) :
    let A := acc n o (memLength none)
    let B := acc n p l
    MayAlias plainInfo A B ∧
    lookup plainInfo true (collect plainInfo true [A, B]) A ≠
      lookup plainInfo true (collect plainInfo true [A, B]) B := by
  have e1 : u32 o = o := u32_of_lt (by omega)
  have e2 : u32 p = p := u32_of_lt (by omega)
  have e3 : u32 l = l := u32_of_lt (by omega)
  have e4 : u32 (2 ^ 32 - 1) = 2 ^ 32 - 1 := by decide
  have e5 : u32 (o + (2 ^ 32 - 1)) = o - 1 := by unfold u32; omega
  have e6 : u32 (p + l) = p + l := u32_of_lt hp
  refine ⟨Or.inr (Or.inr ⟨rfl, Or.inr ⟨p, ?_⟩⟩), ?_⟩
  · simp only [acc, memLength]; omega
  · have nAB : ((acc n o (memLength none)).region plainInfo true).overlaps ((acc n p l).region plainInfo true) = false := by
      simp only [Region.overlaps, Region.isDisjoint, Access.region, initRegion, acc, plainInfo, memLength, e1, e2, e3, e4, e5, e6]
      simp; omega
    have bBB : ((acc n p l).region plainInfo true).overlaps ((acc n p l).region plainInfo true) = true := by
      simp only [Region.overlaps, Region.isDisjoint, Access.region, initRegion, acc, plainInfo, e2, e3, e6]
      simp; omega
    have hA : ((acc n o (memLength none)).region plainInfo true).overlaps
        ((acc n o (memLength none)).region plainInfo true) = false := by
      simp only [Region.overlaps, Region.isDisjoint, Access.region, initRegion, acc, plainInfo, memLength, e1, e4, e5]
      simp
    have hc : collect plainInfo true [acc n o (memLength none), acc n p l] =
        [(acc n o (memLength none)).region plainInfo true, (acc n p l).region plainInfo true] := by
      simp [collect, run, idx, nAB]
    rw [hc]
    unfold lookup
    have hBA' : ((acc n p l).region plainInfo true).overlaps
        ((acc n o (memLength none)).region plainInfo true) = false := by
      simp only [Region.overlaps, Region.isDisjoint, Access.region, initRegion, acc, plainInfo, memLength, e1, e2, e3, e4,
        e5, e6]
      simp; omega
    simp [idx, nAB, bBB, hA, hBA']

/-! ### C10 -/

/-- C10 (accesses that fit and have at least one byte): once every access has been looked up, any further lookups of known
accesses, in any order and number, leave the number of regions and all their attributes (other than the element type)
unchanged, and an access keeps its index. -/
theorem c10_lookup_stable_partial (info : Nat → NodeInfo) (bp : Bool) (h s : List Access)
    (hf : ∀ A ∈ h, A.Fits) (hlen : ∀ A ∈ h, 0 < A.length) (hs : ∀ A ∈ s, A ∈ h) :
    (collect info bp (h ++ s)).length = (collect info bp h).length ∧
    (collect info bp (h ++ s)).map Region.untyped = (collect info bp h).map Region.untyped ∧
    ∀ A, lookup info bp (collect info bp (h ++ s)) A = lookup info bp (collect info bp h) A := by
  have hu := rerun_untyped info bp s h hf hlen hs
  refine ⟨?_, hu, fun A => idx_untyped_index bp _ _ _ hu⟩
  have := congrArg List.length hu
  simpa using this

/-- C10: the index of a known access is a valid index of the table of regions as it was after the first pass. -/
theorem c10_index_valid_partial (info : Nat → NodeInfo) (bp : Bool) (h s : List Access)
    (hf : ∀ A ∈ h, A.Fits) (hlen : ∀ A ∈ h, 0 < A.length) (hs : ∀ A ∈ s, A ∈ h) (A : Access) (hA : A ∈ h) :
    lookup info bp (collect info bp (h ++ s)) A < (collect info bp h).length := by
  rw [(c10_lookup_stable_partial info bp h s hf hlen hs).2.2 A]
  obtain ⟨hw, hc⟩ := collect_spec info bp h hf
  obtain ⟨a, ha, hca⟩ := hc A hA
  exact (List.getElem?_eq_some_iff.mp (lookup_spec info bp _ hw A (hf A hA) (hlen A hA) a ha hca).1).1

example : (∀ A ∈ [acc 0 0 4, acc 0 8 4, acc 0 2 8, acc 1 0 4], A.Fits ∧ 0 < A.length) := by decide

/-- C10 fails for accesses of length 0 (for instance a `memset` of 0 bytes) to a node without special flags: each lookup adds
another region. -/
theorem c10_zero_length_fails (bp : Bool) (n o k : Nat) (ho : o < 2 ^ 32) :
    (collect plainInfo bp (List.replicate k (acc n o 0))).length = k := by
  have key : ((acc n o 0).region plainInfo bp).overlaps ((acc n o 0).region plainInfo bp) = false := by
    simp only [Region.overlaps, Region.isDisjoint, Access.region, initRegion, acc, plainInfo, u32_of_lt ho, Nat.add_zero,
      show u32 0 = 0 from rfl]
    simp
  have step : ∀ j, idx bp (List.replicate j ((acc n o 0).region plainInfo bp)) ((acc n o 0).region plainInfo bp) =
      (List.replicate (j + 1) ((acc n o 0).region plainInfo bp), j) := by
    intro j
    induction j with
    | zero => rfl
    | succ j ih =>
      rw [List.replicate_succ, idx, key, ih]
      simp [List.replicate_succ]
  have hrun : ∀ k, collect plainInfo bp (List.replicate k (acc n o 0)) =
      List.replicate k ((acc n o 0).region plainInfo bp) := by
    intro k
    induction k with
    | zero => rfl
    | succ k ih =>
      rw [List.replicate_succ', collect_append, ih]
      simp [run, step]
  rw [hrun]; simp

/-! ### C11 -/

/-- C11 (accesses that fit): the byte range of every access looked up is included in the range of a region, and that region is
the one the access is given when looked up again. -/
theorem c11_range_covers_partial (info : Nat → NodeInfo) (bp : Bool) (h : List Access) (hf : ∀ A ∈ h, A.Fits)
    (A : Access) (hA : A ∈ h) :
    ∃ r ∈ collect info bp h, r.offset ≤ A.offset ∧ A.offset + A.length ≤ r.offset + r.length ∧
      (0 < A.length → (collect info bp h)[lookup info bp (collect info bp h) A]? = some r) := by
  obtain ⟨hw, hc⟩ := collect_spec info bp h hf
  obtain ⟨a, ha, hca⟩ := hc A hA
  have rA := region_range info bp A (hf A hA)
  refine ⟨a, ha, by rw [← rA.1]; exact hca.lo, by rw [← rA.1, ← rA.2]; exact hca.hi, ?_⟩
  exact fun hl => (lookup_spec info bp _ hw A (hf A hA) hl a ha hca).1

/-- C11: a region is treated as a single scalar only if every access in it is, and byte-wise if any access in it is byte-wise
or two of its accesses have different element types. -/
theorem c11_attributes (info : Nat → NodeInfo) (bp : Bool) (h : List Access) (hf : ∀ A ∈ h, A.Fits)
    (A : Access) (hA : A ∈ h) :
    ∃ r ∈ collect info bp h, r.offset ≤ A.offset ∧ A.offset + A.length ≤ r.offset + r.length ∧
      (r.singleton = true → A.singleton = true) ∧ (A.allocated = true → r.allocated = true) ∧
      (bp = true → A.bytewise = true → r.bytewise = true) ∧
      (bp = true → r.type ≠ some A.ty → r.bytewise = true) := by
  obtain ⟨hw, hc⟩ := collect_spec info bp h hf
  obtain ⟨a, ha, hca⟩ := hc A hA
  have rA := region_range info bp A (hf A hA)
  refine ⟨a, ha, by rw [← rA.1]; exact hca.lo, by rw [← rA.1, ← rA.2]; exact hca.hi, ?_, ?_, ?_, hca.type⟩
  · intro hh; have := hca.sing hh; simp [Access.region, initRegion] at this; exact this.2
  · intro hh; exact hca.alloc (by simp [Access.region, initRegion, hh])
  · intro hb hh; exact hca.byte hb (by simp [Access.region, initRegion, hh, hb])

/-- C11 fails for unknown lengths at a nonzero offset: an access of 8 bytes at offset 0 merged with one of unknown length at
offset 4 yields the region of bytes 0 to 7. -/
theorem c11_unknown_length_fails :
    (collect plainInfo true [acc 0 0 8, acc 0 4 (memLength none)]).map (fun r => (r.offset, r.length)) = [(0, 8)] ∧
    ¬ ((acc 0 4 (memLength none)).offset + (acc 0 4 (memLength none)).length ≤ 0 + 8) := by
  decide

end Smack.Regions
