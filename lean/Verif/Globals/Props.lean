/-
C16.
-/
import Verif.Globals.Lemmas

namespace Smack.Globals

/-- Addresses by position. -/
theorem c16_every_global_placed (gs : List Global) : (addresses gs).length = gs.length := addresses_length gs

/-- C16, defined globals: the byte ranges of two different defined globals are at least the padding (1024 bytes) apart. -/
theorem c16_defined_disjoint (gs : List Global) (hs : ∀ g ∈ gs, Small g) (i j : Nat) (hij : i ≠ j)
    (hi : i < gs.length) (hj : j < gs.length) (di : Defined gs[i]) (dj : Defined gs[j]) (a b : Int)
    (ha : (addresses gs)[i]? = some a) (hb : (addresses gs)[j]? = some b) :
    Apart 1024 a (bytes gs[i]) b (bytes gs[j]) := by
  rw [List.getElem?_eq_getElem (by rw [addresses_length]; exact hi), addresses_get gs i hi] at ha
  rw [List.getElem?_eq_getElem (by rw [addresses_length]; exact hj), addresses_get gs j hj] at hb
  have ei := (defined_iff _).1 di
  have ej := (defined_iff _).1 dj
  simp only [ei, ej, Option.some.injEq, Bool.false_eq_true, if_false] at ha hb
  have bi := bytes_le_size (hs _ (List.getElem_mem hi)) di
  have bj := bytes_le_size (hs _ (List.getElem_mem hj)) dj
  have hp := List.pairwise_iff_getElem.1 (offsets_pairwise init gs hs)
  have li : i < (gs.zip (offsets init gs)).length := by simp [offsets_length, hi]
  have lj : j < (gs.zip (offsets init gs)).length := by simp [offsets_length, hj]
  unfold Apart
  rcases Nat.lt_or_gt_of_ne hij with h | h
  · have := (hp i j li lj h).1 (by simpa using ei) (by simpa using ej)
    simp only [List.getElem_zip] at this
    right; omega
  · have := (hp j i lj li h).1 (by simpa using ej) (by simpa using ei)
    simp only [List.getElem_zip] at this
    left; omega

/-- C16, defined globals: the whole range and the padding behind it is below address 0, so in particular not null. -/
theorem c16_defined_negative (gs : List Global) (hs : ∀ g ∈ gs, Small g) (i : Nat) (hi : i < gs.length)
    (di : Defined gs[i]) (a : Int) (ha : (addresses gs)[i]? = some a) : a + bytes gs[i] + 1024 ≤ 0 ∧ globalsBottom gs ≤ a := by
  rw [List.getElem?_eq_getElem (by rw [addresses_length]; exact hi), addresses_get gs i hi] at ha
  have ei := (defined_iff _).1 di
  simp only [ei, Option.some.injEq, Bool.false_eq_true, if_false] at ha
  have bi := bytes_le_size (hs _ (List.getElem_mem hi)) di
  have h1 := (offsets_below init gs hs _ _ (zip_mem gs i hi)).1 ei
  have h2 := (offsets_above init gs hs _ _ (zip_mem gs i hi)).1 ei
  have : init.globalsOffset = 0 := rfl
  unfold globalsBottom final
  omega

/-- C16, declared globals: they lie at least 32768 bytes below every defined one (measured with the size assigned to
them). -/
theorem c16_externs_below (gs : List Global) (hs : ∀ g ∈ gs, Small g) (i j : Nat)
    (hi : i < gs.length) (hj : j < gs.length) (di : ¬ Defined gs[i]) (dj : Defined gs[j]) (a b : Int)
    (ha : (addresses gs)[i]? = some a) (hb : (addresses gs)[j]? = some b) : a + size gs[i] + 32768 ≤ b := by
  have h3 := (c16_defined_negative gs hs j hj dj b hb).2
  rw [List.getElem?_eq_getElem (by rw [addresses_length]; exact hi), addresses_get gs i hi] at ha
  have ei : external gs[i] = true := by
    rw [defined_iff] at di; simpa using di
  simp only [ei, Option.some.injEq, if_true] at ha
  have h1 := (offsets_below init gs hs _ _ (zip_mem gs i hi)).2 ei
  have : init.externsOffset = -32768 := rfl
  omega

/-- C16, declared globals: the ranges assigned to two different declared globals are disjoint. The range is the one
`globalDecl` assigns, which is the preferred alignment of a pointer and *not* the size of the variable
(see `c16_extern_size_fails`). -/
theorem c16_externs_disjoint_partial (gs : List Global) (hs : ∀ g ∈ gs, Small g) (i j : Nat) (hij : i ≠ j)
    (hi : i < gs.length) (hj : j < gs.length) (di : ¬ Defined gs[i]) (dj : ¬ Defined gs[j]) (a b : Int)
    (ha : (addresses gs)[i]? = some a) (hb : (addresses gs)[j]? = some b) :
    Apart 0 a gs[i].prefAlign b gs[j].prefAlign ∧
    (bytes gs[i] ≤ gs[i].prefAlign → bytes gs[j] ≤ gs[j].prefAlign → Apart 0 a (bytes gs[i]) b (bytes gs[j])) := by
  rw [List.getElem?_eq_getElem (by rw [addresses_length]; exact hi), addresses_get gs i hi] at ha
  rw [List.getElem?_eq_getElem (by rw [addresses_length]; exact hj), addresses_get gs j hj] at hb
  have ei : external gs[i] = true := by rw [defined_iff] at di; simpa using di
  have ej : external gs[j] = true := by rw [defined_iff] at dj; simpa using dj
  simp only [ei, ej, Option.some.injEq, if_true] at ha hb
  have sz : ∀ g, Small g → external g = true → size g = g.prefAlign := by
    intro g hsm he
    obtain ⟨_, _, h3⟩ := hsm
    unfold external at he
    have : (g.isVariable && g.hasInitializer) = false := by
      cases hv : g.isVariable <;> cases hh : g.hasInitializer <;> simp [hv, hh] at he ⊢
    unfold size
    rw [this]
    simp
    exact u32_of_lt (by omega)
  have si := sz _ (hs _ (List.getElem_mem hi)) ei
  have sj := sz _ (hs _ (List.getElem_mem hj)) ej
  have hp := List.pairwise_iff_getElem.1 (offsets_pairwise init gs hs)
  have li : i < (gs.zip (offsets init gs)).length := by simp [offsets_length, hi]
  have lj : j < (gs.zip (offsets init gs)).length := by simp [offsets_length, hj]
  have key : Apart 0 a gs[i].prefAlign b gs[j].prefAlign := by
    unfold Apart
    rcases Nat.lt_or_gt_of_ne hij with h | h
    · have := (hp i j li lj h).2 (by simpa using ei) (by simpa using ej)
      simp only [List.getElem_zip] at this
      right; omega
    · have := (hp j i lj li h).2 (by simpa using ej) (by simpa using ei)
      simp only [List.getElem_zip] at this
      left; omega
  refine ⟨key, fun h1 h2 => ?_⟩
  unfold Apart at key ⊢
  omega

/-- C16: no global of the module is classified as external memory, and every address classified so is below all of
them. -/
theorem c16_isExternal (gs : List Global) (hs : ∀ g ∈ gs, Small g) (i : Nat) (hi : i < gs.length) (a p : Int)
    (ha : (addresses gs)[i]? = some a) : isExternal gs a = false ∧ (isExternal gs p = true → p < a) := by
  have hle : externsBottom gs ≤ a := by
    by_cases di : Defined gs[i]
    · have h1 := (c16_defined_negative gs hs i hi di a ha).2
      have h2 := (final_le init gs hs).2
      have : init.externsOffset = -32768 := rfl
      unfold externsBottom final
      omega
    · rw [List.getElem?_eq_getElem (by rw [addresses_length]; exact hi), addresses_get gs i hi] at ha
      have ei : external gs[i] = true := by rw [defined_iff] at di; simpa using di
      simp only [ei, Option.some.injEq, if_true] at ha
      have h1 := (offsets_above init gs hs _ _ (zip_mem gs i hi)).2 ei
      unfold externsBottom final
      omega
  simp only [isExternal, decide_eq_false_iff_not, decide_eq_true_eq]
  omega

/-- C16 together with the allocation instrumentation: the block registered for a defined variable starts at its address and
covers it. -/
theorem c16_registered_block (gs : List Global) (hs : ∀ g ∈ gs, Small g) (i : Nat) (hi : i < gs.length)
    (hf : gs[i].isFunction = false) (di : Defined gs[i]) (a : Int) (ha : (addresses gs)[i]? = some a) :
    ∃ n, (a, n) ∈ globalAllocations gs ∧ bytes gs[i] ≤ n := by
  refine ⟨size gs[i], ?_, bytes_le_size (hs _ (List.getElem_mem hi)) di⟩
  unfold globalAllocations
  rw [List.mem_map]
  refine ⟨(gs[i], a), ?_, rfl⟩
  rw [List.mem_filter]
  refine ⟨?_, by simp [hf]⟩
  rw [List.mem_iff_getElem]
  rw [List.getElem?_eq_some_iff] at ha
  obtain ⟨h, ha⟩ := ha
  exact ⟨i, by simp [addresses_length, hi], by simp [ha]⟩

/-- An `extern` variable of `n` bytes, and a definition of `n` bytes, on a 64-bit target. -/
def declared (n : Nat) : Global := ⟨true, false, false, true, n, 8⟩
def defined (n : Nat) : Global := ⟨true, false, true, true, n, 8⟩

example : addresses [defined 4, declared 8, defined 100, declared 4] = [-1028, -2152 - 32768 - 8, -2152, -2152 - 32768 - 16] ∧
    (∀ g ∈ [defined 4, declared 8, defined 100, declared 4], Small g) := by
  refine ⟨by decide, ?_⟩
  simp [Small, bytes, defined, declared]

/-- C16 fails for declared globals larger than a pointer: `extern int a[4], b[4]` are given overlapping storage, since
only the pointer alignment is reserved for each. -/
theorem c16_extern_size_fails (n : Nat) (hn : 8 < n) (a b : Int)
    (ha : (addresses [declared n, declared n])[0]? = some a) (hb : (addresses [declared n, declared n])[1]? = some b) :
    ¬ Apart 0 a (bytes (declared n)) b (bytes (declared n)) := by
  have h : addresses [declared n, declared n] = [-32776, -32784] := rfl
  rw [h] at ha hb
  simp at ha hb
  unfold Apart
  have : bytes (declared n) = n := rfl
  omega

/-- C16 needs the bound of `Small`: a definition of 2^32 - 1024 bytes is placed at the address of its predecessor
(`unsigned` wrap-around of size plus padding). -/
theorem c16_wrap_fails : ∃ g h : Global, Defined g ∧ Defined h ∧ (addresses [g, h])[0]? = (addresses [g, h])[1]? :=
  ⟨defined 4, defined (2 ^ 32 - 1024), by simp [Defined, defined], by simp [Defined, defined], by decide⟩

end Smack.Globals
