import Verif.TypeSafe.Spec

/-
C44: classification of fields.
-/

namespace Smack.TypeSafe

theorem foldl_max_ge (ts : List Ty) (l : Nat) :
    l ≤ ts.foldl (fun l t => if u32 t.store > l then u32 t.store else l) l := by
  induction ts generalizing l with
  | nil => exact Nat.le_refl _
  | cons t ts ih =>
    rw [List.foldl_cons]
    split
    · exact Nat.le_trans (by omega) (ih _)
    · exact ih l

theorem foldl_max_mem (ts : List Ty) (l : Nat) :
    (∀ t ∈ ts, u32 t.store ≤ ts.foldl (fun l t => if u32 t.store > l then u32 t.store else l) l) ∧
    (ts.foldl (fun l t => if u32 t.store > l then u32 t.store else l) l = l ∨
      ∃ t ∈ ts, ts.foldl (fun l t => if u32 t.store > l then u32 t.store else l) l = u32 t.store) := by
  induction ts generalizing l with
  | nil => exact ⟨by simp, Or.inl rfl⟩
  | cons t ts ih =>
    rw [List.foldl_cons]
    obtain ⟨h1, h2⟩ := ih (if u32 t.store > l then u32 t.store else l)
    constructor
    · intro t' ht'
      rcases List.mem_cons.1 ht' with h | h
      · subst h
        refine Nat.le_trans ?_ (foldl_max_ge ts _)
        split <;> omega
      · exact h1 t' h
    · rcases h2 with h2 | ⟨t', ht', h2⟩
      · by_cases hc : u32 t.store > l
        · rw [if_pos hc] at h2 ⊢
          exact Or.inr ⟨t, List.mem_cons_self, h2⟩
        · rw [if_neg hc] at h2 ⊢
          exact Or.inl h2
      · exact Or.inr ⟨t', List.mem_cons_of_mem _ ht', h2⟩

/-- No access reaches beyond the length computed for the field, and some access reaches it. -/
theorem fieldLength_spec {fs : List Field} (hok : Ok fs) {f : Field} (hf : f ∈ fs) :
    f.off + fieldLength f.types < 2^32 ∧ (∀ t ∈ f.types, t.store ≤ fieldLength f.types) ∧
    (∃ t ∈ f.types, t.store = fieldLength f.types) := by
  have hu : ∀ t ∈ f.types, u32 t.store = t.store := by
    intro t ht
    have := hok.small f hf t ht
    unfold u32; omega
  obtain ⟨h1, h2⟩ := foldl_max_mem f.types 0
  have h3 : ∃ t ∈ f.types, t.store = fieldLength f.types := by
    rcases h2 with h2 | ⟨t, ht, h2⟩
    · cases ht : f.types with
      | nil => exact absurd ht (hok.nonempty f hf)
      | cons t ts =>
        refine ⟨t, List.mem_cons_self, ?_⟩
        rw [← ht]
        have hm : t ∈ f.types := by rw [ht]; exact List.mem_cons_self
        have := h1 t hm
        rw [hu t hm, h2] at this
        show t.store = f.types.foldl _ 0
        rw [h2]; omega
    · exact ⟨t, ht, by rw [← hu t ht]; exact h2.symm⟩
  obtain ⟨t, ht, he⟩ := h3
  refine ⟨?_, ?_, t, ht, he⟩
  · rw [← he]; exact hok.small f hf t ht
  · intro t' ht'
    have := h1 t' ht'
    rw [hu t' ht'] at this
    exact this

theorem markOverlaps_spec (off len : Nat) (hs : off + len < 2^32) (gs : List Field)
    (hsort : gs.Pairwise (fun f g => f.off < g.off)) (m : FieldMap) (x : Nat) :
    markOverlaps off len gs m x =
      if (x = off ∧ ∃ g ∈ gs, g.off < off + len) ∨ (∃ g ∈ gs, g.off = x ∧ x < off + len) then some false else m x := by
  have hu : u32 (off + len) = off + len := by unfold u32; omega
  induction gs generalizing m with
  | nil => simp [markOverlaps]
  | cons g gs ih =>
    rw [markOverlaps, hu]
    obtain ⟨hg, hsort'⟩ := List.pairwise_cons.1 hsort
    by_cases hc : off + len > g.off
    · rw [if_pos hc, ih hsort']
      by_cases h1 : (x = off ∧ ∃ g ∈ gs, g.off < off + len) ∨ (∃ g ∈ gs, g.off = x ∧ x < off + len)
      · rw [if_pos h1, if_pos]
        rcases h1 with ⟨hx, g', hg', h⟩ | ⟨g', hg', h⟩
        · exact Or.inl ⟨hx, g', List.mem_cons_of_mem _ hg', h⟩
        · exact Or.inr ⟨g', List.mem_cons_of_mem _ hg', h⟩
      · rw [if_neg h1]
        unfold FieldMap.set
        by_cases hx : x = g.off
        · rw [if_pos hx, if_pos (Or.inr ⟨g, List.mem_cons_self, hx.symm, by omega⟩)]
        · rw [if_neg hx]
          by_cases hx' : x = off
          · rw [if_pos hx', if_pos (Or.inl ⟨hx', g, List.mem_cons_self, hc⟩)]
          · rw [if_neg hx', if_neg]
            rintro (⟨h, _⟩ | ⟨g', hg', h, h'⟩)
            · exact hx' h
            · rcases List.mem_cons.1 hg' with he | he
              · subst he; exact hx h.symm
              · exact h1 (Or.inr ⟨g', he, h, h'⟩)
    · rw [if_neg hc, if_neg]
      have hlate : ∀ g' ∈ g :: gs, off + len ≤ g'.off := by
        intro g' hg'
        rcases List.mem_cons.1 hg' with he | he
        · subst he; omega
        · have := hg g' he; omega
      rintro (⟨_, g', hg', h⟩ | ⟨g', hg', h, h'⟩)
      · have := hlate g' hg'; omega
      · have := hlate g' hg'; omega

/-- The classification in terms of lengths. -/
def Clear (fs : List Field) (f : Field) : Prop :=
  f.types.length = 1 ∧ (∀ g ∈ fs, f.off < g.off → f.off + fieldLength f.types ≤ g.off) ∧
  (∀ g ∈ fs, g.off < f.off → g.off + fieldLength g.types ≤ f.off)

theorem classify_below (fs : List Field) (hok : Ok fs) (m : FieldMap) (x : Nat) (hx : ∀ g ∈ fs, x ≠ g.off) :
    classify fs m x = m x := by
  induction fs generalizing m with
  | nil => rfl
  | cons f rest ih =>
    have hok' : Ok rest := ⟨(List.pairwise_cons.1 hok.sorted).2, fun g hg => hok.small g (List.mem_cons_of_mem _ hg),
      fun g hg => hok.nonempty g (List.mem_cons_of_mem _ hg)⟩
    have hlen := (fieldLength_spec hok (List.mem_cons_self (a := f) (l := rest))).1
    have hxf : x ≠ f.off := hx f List.mem_cons_self
    rw [classify]
    rw [ih hok' _ (fun g hg => hx g (List.mem_cons_of_mem _ hg))]
    have hmark : ∀ m1 : FieldMap, markOverlaps f.off (fieldLength f.types) rest m1 x = m1 x := by
      intro m1
      rw [markOverlaps_spec _ _ hlen _ hok'.sorted, if_neg]
      rintro (⟨h, _⟩ | ⟨g, hg, h, _⟩)
      · exact hxf h
      · exact hx g (List.mem_cons_of_mem _ hg) h.symm
    have hset : ∀ (m : FieldMap) b, m.set f.off b x = m x := by
      intro m b; unfold FieldMap.set; rw [if_neg hxf]
    split
    · split
      · rw [hset, hmark, hset]
      · rw [hmark, hset]
    · split
      · rw [hset, hmark]
      · rw [hmark]

theorem classify_spec (fs : List Field) (hok : Ok fs) (m : FieldMap) (hm : ∀ f ∈ fs, m f.off ≠ some true)
    (f : Field) (hf : f ∈ fs) : classify fs m f.off = some true ↔ m f.off = none ∧ Clear fs f := by
  induction fs generalizing m with
  | nil => simp at hf
  | cons h rest ih =>
    obtain ⟨hlt, hsort'⟩ := List.pairwise_cons.1 hok.sorted
    have hok' : Ok rest := ⟨hsort', fun g hg => hok.small g (List.mem_cons_of_mem _ hg),
      fun g hg => hok.nonempty g (List.mem_cons_of_mem _ hg)⟩
    have hlen := (fieldLength_spec hok (List.mem_cons_self (a := h) (l := rest))).1
    have hne : h.types ≠ [] := hok.nonempty h List.mem_cons_self
    rw [classify]
    generalize hm1 : (if h.types.length > 1 then m.set h.off false else m) = m1
    have h1 : ∀ x, m1 x = if x = h.off ∧ h.types.length > 1 then some false else m x := by
      intro x
      rw [← hm1]
      by_cases hc : h.types.length > 1
      · rw [if_pos hc]
        unfold FieldMap.set
        by_cases hx : x = h.off
        · rw [if_pos hx, if_pos ⟨hx, hc⟩]
        · rw [if_neg hx, if_neg (fun h => hx h.1)]
      · rw [if_neg hc, if_neg (fun h => hc h.2)]
    generalize hm2 : markOverlaps h.off (fieldLength h.types) rest m1 = m2
    have h2 : ∀ x, m2 x = if (x = h.off ∧ ∃ g ∈ rest, g.off < h.off + fieldLength h.types) ∨
        (∃ g ∈ rest, g.off = x ∧ x < h.off + fieldLength h.types) then some false else m1 x := by
      intro x; rw [← hm2]; exact markOverlaps_spec _ _ hlen _ hsort' _ _
    generalize hm3 : (if (m2 h.off).isNone then m2.set h.off true else m2) = m3
    have h3 : ∀ x, x ≠ h.off → m3 x = m2 x := by
      intro x hx
      rw [← hm3]
      split
      · unfold FieldMap.set; rw [if_neg hx]
      · rfl
    have h3' : m3 h.off = if (m2 h.off).isNone then some true else m2 h.off := by
      rw [← hm3]
      split
      · unfold FieldMap.set; rw [if_pos rfl]
      · rfl
    have hrest : ∀ g ∈ rest, m3 g.off = if g.off < h.off + fieldLength h.types then some false else m g.off := by
      intro g hg
      have hgt := hlt g hg
      rw [h3 _ (by omega), h2, h1, if_neg (show ¬ (g.off = h.off ∧ _) by omega)]
      by_cases hc : g.off < h.off + fieldLength h.types
      · rw [if_pos hc, if_pos (Or.inr ⟨g, hg, rfl, hc⟩)]
      · rw [if_neg hc, if_neg]
        rintro (⟨he, _⟩ | ⟨_, _, _, he⟩)
        · omega
        · omega
    rcases List.mem_cons.1 hf with he | hfr
    · subst he
      rw [classify_below rest hok' m3 f.off (fun g hg => by have := hlt g hg; omega), h3']
      have hmf := hm f List.mem_cons_self
      have hm2v : m2 f.off = if (∃ g ∈ rest, g.off < f.off + fieldLength f.types) then some false
          else if f.types.length > 1 then some false else m f.off := by
        rw [h2, h1]
        by_cases hc : ∃ g ∈ rest, g.off < f.off + fieldLength f.types
        · rw [if_pos hc, if_pos (Or.inl ⟨rfl, hc⟩)]
        · rw [if_neg hc, if_neg]
          · simp
          · rintro (⟨_, he⟩ | ⟨g, hg, _, _⟩)
            · exact hc he
            · have := hlt g hg
              exact hc ⟨g, hg, by omega⟩
      have hlen1 : f.types.length = 1 ↔ ¬ f.types.length > 1 := by
        have := List.length_pos_iff.2 hne
        omega
      have hclear : Clear (f :: rest) f ↔ f.types.length = 1 ∧ ¬ ∃ g ∈ rest, g.off < f.off + fieldLength f.types := by
        constructor
        · rintro ⟨hl, ha, _⟩
          refine ⟨hl, ?_⟩
          rintro ⟨g, hg, hgo⟩
          have := ha g (List.mem_cons_of_mem _ hg) (hlt g hg)
          omega
        · rintro ⟨hl, ha⟩
          refine ⟨hl, ?_, ?_⟩
          · intro g hg hgo
            rcases List.mem_cons.1 hg with he | he
            · subst he; omega
            · exact Nat.le_of_not_lt fun hc => ha ⟨g, he, hc⟩
          · intro g hg hgo
            rcases List.mem_cons.1 hg with he | he
            · subst he; omega
            · have := hlt g he; omega
      rw [hclear, hlen1, hm2v]
      by_cases hc : ∃ g ∈ rest, g.off < f.off + fieldLength f.types
      · rw [if_pos hc]; simp [hc]
      · rw [if_neg hc]
        by_cases hl : f.types.length > 1
        · rw [if_pos hl]; simp [hl]
        · rw [if_neg hl]
          cases hv : m f.off with
          | none => simp [hl]; simpa using hc
          | some b =>
            cases b with
            | true => exact absurd hv hmf
            | false => simp
    · have hgt := hlt f hfr
      rw [ih hok' m3 (by
        intro g hg
        rw [hrest g hg]
        split
        · simp
        · exact hm g (List.mem_cons_of_mem _ hg)) hfr]
      rw [hrest f hfr]
      have hclear : Clear (h :: rest) f ↔ Clear rest f ∧ h.off + fieldLength h.types ≤ f.off := by
        constructor
        · rintro ⟨hl, ha, hb⟩
          exact ⟨⟨hl, fun g hg => ha g (List.mem_cons_of_mem _ hg), fun g hg => hb g (List.mem_cons_of_mem _ hg)⟩,
            hb h List.mem_cons_self hgt⟩
        · rintro ⟨⟨hl, ha, hb⟩, hh⟩
          refine ⟨hl, ?_, ?_⟩
          · intro g hg hgo
            rcases List.mem_cons.1 hg with he | he
            · subst he; omega
            · exact ha g he hgo
          · intro g hg hgo
            rcases List.mem_cons.1 hg with he | he
            · subst he; exact hh
            · exact hb g he hgo
      rw [hclear]
      by_cases hc : f.off < h.off + fieldLength h.types
      · rw [if_pos hc]
        constructor
        · rintro ⟨h, _⟩; cases h
        · rintro ⟨_, _, h⟩; omega
      · rw [if_neg hc]
        constructor
        · rintro ⟨ha, hb⟩; exact ⟨ha, hb, by omega⟩
        · rintro ⟨ha, hb, _⟩; exact ⟨ha, hb⟩

theorem isTypeSafe_iff (n : Node) (hok : Ok n.fields) (offset : Nat) :
    isTypeSafe n offset = true ↔ n.Precise ∧ ∃ f ∈ n.fields, f.off = offset ∧ Clear n.fields f := by
  unfold isTypeSafe
  have hp : (n.offsetCollapsed || n.external || n.incomplete || n.unknown || n.intToPtr || n.ptrToInt || n.memOpd) = false
      ↔ n.Precise := by
    simp [Node.Precise, and_assoc]
  by_cases hc : (n.offsetCollapsed || n.external || n.incomplete || n.unknown || n.intToPtr || n.ptrToInt || n.memOpd) = true
  · rw [if_pos hc]
    constructor
    · intro h; cases h
    · rintro ⟨h, _⟩
      rw [hp.2 h] at hc; cases hc
  · rw [if_neg hc]
    have hpr := hp.1 (by simpa using hc)
    by_cases hm : ∃ f ∈ n.fields, f.off = offset
    · obtain ⟨f, hf, he⟩ := hm
      subst he
      have hs := classify_spec n.fields hok (fun _ => none) (by simp) f hf
      constructor
      · intro h
        refine ⟨hpr, f, hf, rfl, (hs.1 ?_).2⟩
        cases hv : classify n.fields (fun _ => none) f.off with
        | none => rw [hv] at h; cases h
        | some b => rw [hv] at h; simp at h; rw [h]
      · rintro ⟨_, g, hg, he, hcl⟩
        have hgf : Clear n.fields f := by
          have : g = f := by
            rcases List.getElem_of_mem hf with ⟨i, hi, hfi⟩
            rcases List.getElem_of_mem hg with ⟨j, hj, hgj⟩
            rcases Nat.lt_trichotomy i j with h | h | h
            · have := List.pairwise_iff_getElem.1 hok.sorted i j hi hj h
              rw [hfi, hgj] at this; omega
            · subst h; rw [← hfi, ← hgj]
            · have := List.pairwise_iff_getElem.1 hok.sorted j i hj hi h
              rw [hfi, hgj] at this; omega
          rw [← this]; exact hcl
        rw [hs.2 ⟨rfl, hgf⟩]
    · rw [classify_below n.fields hok _ offset (fun g hg h => hm ⟨g, hg, h.symm⟩)]
      constructor
      · intro h; cases h
      · rintro ⟨_, f, hf, he, _⟩; exact absurd ⟨f, hf, he⟩ hm

/-- C44, first half, for all nodes: what is classified type-safe is accessed at one type and shares no byte with
another accessed field. -/
theorem c44_sound_partial (n : Node) (hok : Ok n.fields) (offset : Nat) (h : isTypeSafe n offset = true) :
    n.Precise ∧ Safe n.fields offset := by
  obtain ⟨hp, f, hf, he, hl, ha, hb⟩ := (isTypeSafe_iff n hok offset).1 h
  refine ⟨hp, f, hf, he, List.length_eq_one_iff.1 hl, ?_⟩
  intro g hg hne x ⟨⟨t, ht, h1, h2⟩, ⟨t', ht', h3, h4⟩⟩
  have hlf := (fieldLength_spec hok hf).2.1 t ht
  have hlg := (fieldLength_spec hok hg).2.1 t' ht'
  rcases Nat.lt_or_gt_of_ne (show f.off ≠ g.off from fun h => hne (by omega)) with hlt | hlt
  · have := ha g hg hlt; omega
  · have := hb g hg hlt; omega

/-- C44, second half: such fields of a precise node are classified type-safe, if no accessed type is empty. -/
theorem c44_complete_partial (n : Node) (hok : Ok n.fields) (hpos : ∀ f ∈ n.fields, ∀ t ∈ f.types, 0 < t.store)
    (offset : Nat) (hp : n.Precise) (h : Safe n.fields offset) : isTypeSafe n offset = true := by
  obtain ⟨f, hf, he, ⟨t, ht⟩, hd⟩ := h
  refine (isTypeSafe_iff n hok offset).2 ⟨hp, f, hf, he, by rw [ht]; rfl, ?_, ?_⟩
  · intro g hg hgo
    obtain ⟨_, _, tf, htf, hef⟩ := fieldLength_spec hok hf
    obtain ⟨tg, htg⟩ := List.exists_mem_of_ne_nil _ (hok.nonempty g hg)
    have hpg := hpos g hg tg htg
    apply Nat.le_of_not_lt
    intro hc
    exact hd g hg (by omega) g.off ⟨⟨tf, htf, by omega, by omega⟩, ⟨tg, htg, by omega, by omega⟩⟩
  · intro g hg hgo
    obtain ⟨_, _, tg, htg, heg⟩ := fieldLength_spec hok hg
    obtain ⟨tf, htf⟩ := List.exists_mem_of_ne_nil _ (hok.nonempty f hf)
    have hpf := hpos f hf tf htf
    apply Nat.le_of_not_lt
    intro hc
    exact hd g hg (by omega) f.off ⟨⟨tf, htf, by omega, by omega⟩, ⟨tg, htg, by omega, by omega⟩⟩

/-- The hypothesis on offsets cannot be dropped: the `unsigned` sum wraps and an overlapping field is called
type-safe. -/
theorem c44_wrap_fails : ∃ n : Node, n.fields.Pairwise (fun f g => f.off < g.off) ∧ isTypeSafe n (2^32 - 8) = true ∧
    ¬ Safe n.fields (2^32 - 8) := by
  refine ⟨⟨false, false, false, false, false, false, false,
    [⟨2^32 - 8, [⟨0, 8⟩]⟩, ⟨2^32 - 4, [⟨1, 4⟩]⟩]⟩, by decide, by decide, ?_⟩
  rintro ⟨f, hf, he, _, hd⟩
  rcases List.mem_cons.1 hf with h | h
  · subst h
    exact hd ⟨2^32 - 4, [⟨1, 4⟩]⟩ (by simp) (by decide) (2^32 - 4)
      ⟨⟨⟨0, 8⟩, by simp, by decide, by decide⟩, ⟨⟨1, 4⟩, by simp, by decide, by decide⟩⟩
  · rw [List.mem_singleton] at h
    subst h
    exact absurd he (by decide)

/-- Nor can the hypothesis on empty types in the second half: an empty field inside another one shares no byte with it,
but both are called unsafe. -/
theorem c44_empty_fails : ∃ n : Node, Ok n.fields ∧ n.Precise ∧ Safe n.fields 0 ∧ isTypeSafe n 0 = false := by
  refine ⟨⟨false, false, false, false, false, false, false, [⟨0, [⟨0, 8⟩]⟩, ⟨4, [⟨1, 0⟩]⟩]⟩,
    ⟨by decide, by decide, by decide⟩, ⟨rfl, rfl, rfl, rfl, rfl, rfl, rfl⟩, ?_, by decide⟩
  refine ⟨⟨0, [⟨0, 8⟩]⟩, by simp, rfl, ⟨_, rfl⟩, ?_⟩
  intro g hg hne x ⟨_, t, ht, h3, h4⟩
  simp at hg
  rcases hg with h | h
  · subst h; exact hne rfl
  · subst h
    simp at ht
    subst ht
    simp at h3 h4
    omega

/-! A node with a safe field, two overlapping ones and a field accessed at two types. -/
abbrev exNode : Node := ⟨false, false, false, false, false, false, false,
  [⟨0, [⟨0, 4⟩]⟩, ⟨8, [⟨1, 8⟩]⟩, ⟨12, [⟨0, 4⟩]⟩, ⟨16, [⟨0, 4⟩, ⟨2, 4⟩]⟩, ⟨20, [⟨0, 4⟩]⟩]⟩

example : Ok exNode.fields ∧ exNode.Precise ∧ (∀ f ∈ exNode.fields, ∀ t ∈ f.types, 0 < t.store) :=
  ⟨⟨by decide, by decide, by decide⟩, ⟨rfl, rfl, rfl, rfl, rfl, rfl, rfl⟩, by decide⟩
example : [0, 8, 12, 16, 20, 24].map (isTypeSafe exNode) = [true, false, false, false, true, false] := by decide

end Smack.TypeSafe
