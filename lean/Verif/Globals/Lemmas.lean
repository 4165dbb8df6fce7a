import Verif.Globals.Spec

namespace Smack.Globals

theorem defined_iff (g : Global) : Defined g ↔ external g = false := by
  unfold Defined external
  cases g.isVariable <;> cases g.hasInitializer <;> simp

theorem u32_of_lt {n : Nat} (h : n < 2 ^ 32) : u32 n = n := Nat.mod_eq_of_lt h

theorem size_small {g : Global} (h : Small g) : 0 < size g ∧ size g + 1024 < 2 ^ 32 := by
  obtain ⟨h1, h2, h3⟩ := h
  unfold size bytes at *
  rw [u32_of_lt (n := g.prefAlign) (by omega)]
  simp only
  cases hv : g.isVariable <;> cases hi : g.hasInitializer <;> cases hs : g.sized <;> simp [hv, hs] at h1 ⊢ <;> try omega
  rw [u32_of_lt (by omega)]
  split <;> omega

theorem bytes_le_size {g : Global} (h : Small g) (hd : Defined g) : bytes g ≤ size g := by
  obtain ⟨h1, h2, h3⟩ := h
  unfold Defined at hd
  unfold size bytes at *
  cases hv : g.isVariable <;> cases hi : g.hasInitializer <;> cases hs : g.sized <;> simp [hv, hs, hi] at h1 hd ⊢
  rw [u32_of_lt (by omega)]
  split <;> omega

/-- Offsets handed out after `st` lie below the offsets of `st`. -/
theorem offsets_below (st : State) (gs : List Global) (hs : ∀ g ∈ gs, Small g) (g : Global) (o : Int)
    (h : (g, o) ∈ gs.zip (offsets st gs)) :
    (external g = false → o + size g + 1024 ≤ st.globalsOffset) ∧
    (external g = true → o + size g ≤ st.externsOffset) := by
  induction gs generalizing st with
  | nil => simp at h
  | cons x xs ih =>
    simp only [offsets, List.zip_cons_cons, List.mem_cons] at h
    have hx := size_small (hs x (by simp))
    rcases h with h | h
    · obtain ⟨rfl, rfl⟩ := Prod.mk.inj h
      unfold offsetOf step
      cases he : external g <;> simp
      rw [u32_of_lt hx.2]; omega
    · have := ih (step st x) (fun g hg => hs g (by simp [hg])) h
      unfold step at this
      cases he : external x <;> simp [he] at this
      · rw [u32_of_lt hx.2] at this
        exact ⟨fun h => by have := this.1 h; omega, fun h => this.2 h⟩
      · exact ⟨fun h => this.1 h, fun h => by have := this.2 h; omega⟩

theorem final_le (st : State) (gs : List Global) (hs : ∀ g ∈ gs, Small g) :
    (gs.foldl step st).globalsOffset ≤ st.globalsOffset ∧ (gs.foldl step st).externsOffset ≤ st.externsOffset := by
  induction gs generalizing st with
  | nil => simp
  | cons x xs ih =>
    have := ih (step st x) (fun g hg => hs g (by simp [hg]))
    have hx := size_small (hs x (by simp))
    simp only [List.foldl_cons]
    have h2 : (step st x).globalsOffset ≤ st.globalsOffset ∧ (step st x).externsOffset ≤ st.externsOffset := by
      unfold step
      cases external x <;> simp <;> omega
    omega

/-- Offsets lie above the final offsets. -/
theorem offsets_above (st : State) (gs : List Global) (hs : ∀ g ∈ gs, Small g) (g : Global) (o : Int)
    (h : (g, o) ∈ gs.zip (offsets st gs)) :
    (external g = false → (gs.foldl step st).globalsOffset ≤ o) ∧
    (external g = true → (gs.foldl step st).externsOffset ≤ o) := by
  induction gs generalizing st with
  | nil => simp at h
  | cons x xs ih =>
    simp only [offsets, List.zip_cons_cons, List.mem_cons] at h
    have hf := final_le (step st x) xs (fun g hg => hs g (by simp [hg]))
    simp only [List.foldl_cons]
    rcases h with h | h
    · obtain ⟨rfl, rfl⟩ := Prod.mk.inj h
      unfold offsetOf
      constructor <;> intro he <;> simp [he] <;> omega
    · exact ih (step st x) (fun g hg => hs g (by simp [hg])) h

theorem offsets_length (st : State) (gs : List Global) : (offsets st gs).length = gs.length := by
  induction gs generalizing st with
  | nil => rfl
  | cons x xs ih => simp [offsets, ih]

theorem offsets_pairwise (st : State) (gs : List Global) (hs : ∀ g ∈ gs, Small g) :
    (gs.zip (offsets st gs)).Pairwise fun a b =>
      (external a.1 = false → external b.1 = false → b.2 + (size b.1 : Int) + 1024 ≤ a.2) ∧
      (external a.1 = true → external b.1 = true → b.2 + (size b.1 : Int) ≤ a.2) := by
  induction gs generalizing st with
  | nil => simp
  | cons x xs ih =>
    simp only [offsets, List.zip_cons_cons, List.pairwise_cons]
    refine ⟨?_, ih (step st x) (fun g hg => hs g (by simp [hg]))⟩
    intro b hb
    have := offsets_below (step st x) xs (fun g hg => hs g (by simp [hg])) b.1 b.2 hb
    unfold offsetOf
    constructor <;> intro ha hb' <;> simp [ha]
    · exact this.1 hb'
    · exact this.2 hb'

theorem addresses_length (gs : List Global) : (addresses gs).length = gs.length := by
  simp [addresses, offsets_length]

theorem addresses_get (gs : List Global) (i : Nat) (h : i < gs.length) :
    (addresses gs)[i]'(by rw [addresses_length]; exact h) =
      if external gs[i] then globalsBottom gs + (offsets init gs)[i]'(by rw [offsets_length]; exact h)
      else (offsets init gs)[i]'(by rw [offsets_length]; exact h) := by
  simp [addresses]

theorem zip_mem (gs : List Global) (i : Nat) (h : i < gs.length) :
    (gs[i], (offsets init gs)[i]'(by rw [offsets_length]; exact h)) ∈ gs.zip (offsets init gs) := by
  rw [List.mem_iff_getElem]
  exact ⟨i, by simp [offsets_length, h], by simp⟩

end Smack.Globals
