import Verif.Alloc.Spec

namespace Smack.Alloc

theorem snoc_ind {α : Type} {P : List α → Prop} (nil : P []) (snoc : ∀ l a, P l → P (l ++ [a])) : ∀ l, P l := by
  intro l
  have : ∀ r : List α, P r.reverse := by
    intro r
    induction r with
    | nil => exact nil
    | cons a r ih => rw [List.reverse_cons]; exact snoc _ _ ih
  have h := this l.reverse
  rwa [List.reverse_reverse] at h

@[simp] theorem live_nil : live [] = [] := rfl
theorem live_snoc (evs : List Ev) (e : Ev) : live (evs ++ [e]) = update (live evs) e := by
  simp [live]
@[simp] theorem ever_nil : ever [] = [] := rfl
theorem ever_snoc (evs : List Ev) (e : Ev) : ever (evs ++ [e]) = ever evs ++ (created e).toList := by
  simp [ever, List.filterMap_append]
  cases h : created e <;> simp [h]

theorem legal_snoc {evs : List Ev} {e : Ev} (h : LegalFrees (evs ++ [e])) :
    LegalFrees evs ∧ ∀ p, e = .free p → p = 0 ∨ ∃ b ∈ live evs, b.start = p := by
  refine ⟨fun pre p post he => h pre p (post ++ [e]) (by rw [he]; simp), ?_⟩
  intro p hp
  exact h evs p [] (by rw [hp])

theorem legalHeap_snoc {evs : List Ev} {e : Ev} (h : LegalHeapFrees (evs ++ [e])) :
    LegalHeapFrees evs ∧ ∀ p, e = .free p → p = 0 ∨ ∃ b ∈ live evs, b.start = p ∧ b.kind = .heap := by
  refine ⟨fun pre p post he => h pre p (post ++ [e]) (by rw [he]; simp), ?_⟩
  intro p hp
  exact h evs p [] (by rw [hp])

theorem globals_snoc {evs : List Ev} {e : Ev} (h : GlobalsOk (evs ++ [e])) :
    GlobalsOk evs ∧ ∀ a n, e = .galloc a n → 0 < n ∧ a + n < 0 ∧
      ∀ b ∈ ever evs, b.kind = .global → Disjoint b ⟨a, n, .global⟩ := by
  obtain ⟨h1, h2⟩ := h
  rw [ever_snoc] at h1 h2
  rw [List.filter_append, List.pairwise_append] at h1
  refine ⟨⟨h1.1, fun b hb => h2 b (by simp [hb])⟩, ?_⟩
  rintro a n rfl
  have h3 := h2 ⟨a, n, .global⟩ (by simp [created]) rfl
  refine ⟨h3.1, h3.2, fun b hb hk => ?_⟩
  exact h1.2.2 b (by simp [hb, hk]) ⟨a, n, .global⟩ (by simp [created])

theorem nonull_snoc {evs : List Ev} {e : Ev} (h : NoNullFree (evs ++ [e])) : NoNullFree evs ∧ e ≠ .free 0 := by
  unfold NoNullFree at *
  simp at h
  exact ⟨h.1, fun he => h.2 he.symm⟩

theorem noleave_snoc {evs : List Ev} {e : Ev} (h : NoLeave (evs ++ [e])) : NoLeave evs ∧ ∀ p, e ≠ .leave p := by
  unfold NoLeave at *
  refine ⟨fun p hp => h p (by simp [hp]), fun p he => h p (by simp [he])⟩

theorem live_sub_ever (evs : List Ev) : ∀ b ∈ live evs, b ∈ ever evs := by
  revert evs
  apply snoc_ind
  · simp
  · intro evs e ih b hb
    rw [live_snoc] at hb
    rw [ever_snoc, List.mem_append]
    cases e with
    | galloc a n =>
      simp only [update, List.mem_cons] at hb
      rcases hb with rfl | hb
      · right; simp [created]
      · exact .inl (ih b hb)
    | stack n p =>
      simp only [update] at hb
      split at hb
      · rcases List.mem_cons.1 hb with rfl | hb
        · right; simp [created, *]
        · exact .inl (ih b hb)
      · exact .inl (ih b hb)
    | malloc n p =>
      simp only [update] at hb
      split at hb
      · rcases List.mem_cons.1 hb with rfl | hb
        · right; simp [created, *]
        · exact .inl (ih b hb)
      · exact .inl (ih b hb)
    | free p => exact .inl (ih b (List.mem_filter.1 hb).1)
    | leave p => exact .inl (ih b (List.mem_filter.1 hb).1)

/-- What all allocation procedures have in common. -/
theorem alloc_common {c : Cfg} {I : Interp} {n p : Int} {s s' : St} (h : allocRel c I n p s s') :
    0 ≤ n ∧ s'.counter = s.counter ∧
    (c.model ≠ .reuse → (0 < n → p = s.curr ∧ p + n ≤ s'.curr ∧ s'.curr < I.top) ∧ (n = 0 → s'.curr = s.curr) ∧
      s'.size = s.size) ∧
    (c.model = .reuse → (0 < n → 0 < p ∧ p + n < I.top) ∧ (n = 0 → p = 0) ∧ s.alloc p = false ∧
      (∀ q, s.alloc q = true → p + n < q ∨ q + s.size q < p) ∧ s'.alloc p = true ∧ s'.size p = n ∧ s'.curr = s.curr ∧
      (∀ q, q ≠ p → s'.size q = s.size q) ∧ (∀ q, q ≠ p → s'.alloc q = s.alloc q)) := by
  obtain ⟨m, sf⟩ := c
  have reuse : ∀ s' : St, s.alloc p = false → (∀ q, s.alloc q = true → p + n < q ∨ q + s'.size q < p) →
      (∀ q, q ≠ p → s'.size q = s.size q) → (∀ q, s.alloc q = true → p + n < q ∨ q + s.size q < p) := by
    intro s' h1 h2 h3 q hq
    have := h2 q hq
    by_cases hqp : q = p
    · subst hqp; simp [h1] at hq
    · rwa [h3 q hqp] at this
  cases m <;> cases sf <;> simp only [allocRel, allocImpls, allocImplsSafe, allocReuse, allocReuseSafe, allocNoReuse,
    allocNoReuseSafe] at h
  · obtain ⟨h0, h⟩ := h
    split at h
    · obtain ⟨h1, h2, h3, h4, h5, h6⟩ := h
      refine ⟨h0, h6, fun _ => ⟨fun _ => ⟨h1, by omega, h3.2⟩, fun hn => by omega, h5⟩, by simp⟩
    · subst h
      exact ⟨h0, rfl, fun _ => ⟨fun _ => by omega, fun _ => rfl, rfl⟩, by simp⟩
  · obtain ⟨h0, h⟩ := h
    split at h
    · obtain ⟨h1, h2, h3, h4, h5, h6, h7, h8⟩ := h
      refine ⟨h0, h8, fun _ => ⟨fun _ => ⟨h1, by omega, h3.2⟩, fun hn => by omega, h7⟩, by simp⟩
    · subst h
      exact ⟨h0, rfl, fun _ => ⟨fun _ => by omega, fun _ => rfl, rfl⟩, by simp⟩
  · obtain ⟨h0, h1, h2, h3, h4, h5, h6, h7, h8, h9, h10⟩ := h
    refine ⟨h0, h10, by simp, fun _ => ⟨fun hn => ?_, h2, h3, reuse s' h3 h4 h7, h5, h6, h9, h7, h8⟩⟩
    have := h1 hn; omega
  · obtain ⟨h0, h1, h2, h3, h4, h5, h6, h7, h8, h11, h9, h10⟩ := h
    refine ⟨h0, h10, by simp, fun _ => ⟨fun hn => ?_, h2, h3, reuse s' h3 h4 h7, h5, h6, h9, h7, h8⟩⟩
    have := h1 hn; omega
  · obtain ⟨h0, h1, h2, h3, h4, h5, h6⟩ := h
    refine ⟨h0, h6, fun _ => ⟨fun hn => ?_, fun hn => (h3 hn).1.symm, h5⟩, by simp⟩
    have := h1 hn; omega
  · obtain ⟨h0, h1, h2, h3, h4, h5, h6, h7, h8, h9, h10⟩ := h
    refine ⟨h0, h10, fun _ => ⟨fun hn => ?_, fun hn => (h6 hn).1.symm, h9⟩, by simp⟩
    have := h1 hn; omega

/-- What allocation adds with memory safety. -/
theorem alloc_safe {c : Cfg} (hc : c.safety = true) {I : Interp} {n p : Int} {s s' : St} (h : allocRel c I n p s s') :
    (0 < n → s'.alloc p = true ∧ sizeOf c I s' p = n ∧ ∀ q, inRange p n q → I.base q = p) ∧
    (∀ q, q ≠ p → s'.alloc q = s.alloc q ∧ sizeOf c I s' q = sizeOf c I s q) ∧
    (n = 0 → c.model ≠ .reuse → s'.alloc p = s.alloc p) := by
  obtain ⟨m, sf⟩ := c
  subst hc
  cases m <;> simp only [allocRel, allocImplsSafe, allocReuseSafe, allocNoReuseSafe] at h
  · obtain ⟨h0, h⟩ := h
    split at h
    · obtain ⟨h1, h2, h3, h4, h5, h6, h7, h8⟩ := h
      refine ⟨fun _ => ⟨by simp [h6], h4, h5⟩, fun q hq => ⟨by simp [h6, hq], rfl⟩, fun hn => by omega⟩
    · subst h
      exact ⟨fun _ => by omega, fun q _ => ⟨rfl, rfl⟩, fun _ _ => rfl⟩
  · obtain ⟨h0, h1, h2, h3, h4, h5, h6, h7, h8, h9, h10⟩ := h
    exact ⟨fun _ => ⟨h5, h6, h9⟩, fun q hq => ⟨h8 q hq, h7 q hq⟩, by simp⟩
  · obtain ⟨h0, h1, h2, h3, h4, h5, h6, h7, h8, h9, h10⟩ := h
    exact ⟨fun hn => ⟨h5 hn, h3 hn, h4 hn⟩, fun q hq => ⟨h8 q hq, rfl⟩, fun hn _ => h7 hn⟩

/-- `malloc` is `alloc` except for the counter. -/
theorem malloc_alloc {c : Cfg} {I : Interp} {n p : Int} {s s' : St} (h : mallocRel c I n p s s') :
    ∃ k, allocRel c I n p { s with counter := k } s' ∧
      (k = if c.safety && decide (n ≠ 0) then s.counter + 1 else s.counter) := by
  unfold mallocRel at h
  split at h
  · rename_i hh; exact ⟨_, h, (if_pos hh).symm⟩
  · rename_i hh; exact ⟨s.counter, h, (if_neg hh).symm⟩

end Smack.Alloc
