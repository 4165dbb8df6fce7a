/-
The steps and the graph.
-/
import Verif.Witness.Text

namespace Smack.Witness

open Smack.Driver Smack.Witness.Spec

abbrev word : List Char := "ASSERTION".toList

/-! ### Values -/

theorem reformat_drop (fp : List Char → Option (Nat × List Char)) : ∀ (k : Nat) (s : List Char), reformatFrom fp k s = reformatFrom fp 0 (s.drop k)
  | 0, s => by simp
  | k + 1, [] => by simp [reformatFrom]
  | k + 1, c :: s => by rw [reformatFrom, List.drop_succ_cons]; exact reformat_drop fp k s

theorem reformat_rw {fp : List Char → Option (Nat × List Char)} (hfp : FpOk fp) : ∀ (n : Nat) (s : List Char), s.length ≤ n →
    Rw word s (reformatFrom fp 0 s)
  | _, [], _ => by rw [reformatFrom]; exact .nil
  | n + 1, c :: s, hn => by
    have hs : s.length ≤ n := by simpa using hn
    have hk : ∀ k, Rw word (s.drop k) (reformatFrom fp k s) := fun k => by
      rw [reformat_drop]
      exact reformat_rw hfp n _ (by simp; omega)
    have hrep : ∀ (k : Nat) (r : List Char), 'N' ∉ r → (∃ c, r.getLast? = some c ∧ c ∉ word) → Rw word (c :: s) (r ++ reformatFrom fp k s) := by
      intro k r h1 h2
      have := Rw.repl (c :: s.take k) r (s.drop k) _ h1 h2 (hk k)
      rwa [List.cons_append, List.take_append_drop] at this
    have hkeep : Rw word (c :: s) (c :: reformatFrom fp 0 s) := .keep c s _ (by simpa using hk 0)
    rw [reformatFrom]
    cases hb : bvHere (c :: s) with
    | some p =>
      obtain ⟨d, rest⟩ := p
      refine hrep _ _ ?_ ⟨'L', ?_, by decide⟩
      · have hd : ∀ c ∈ d, isDig c = true := by
          unfold bvHere at hb
          split at hb
          · rename_i x xs r he _
            split at hb
            · cases hb
            · simp only [Option.some.injEq, Prod.mk.injEq] at hb
              intro c hc
              rw [← hb.1] at hc
              rw [← he] at hc
              exact List.all_eq_true.1 (List.all_takeWhile) c hc
          · cases hb
        intro hm
        rcases List.mem_append.1 hm with hm | hm
        · exact absurd (hd _ hm) (by decide)
        · exact absurd hm (by decide)
      · rw [List.getLast?_append]; rfl
    | none =>
      simp only
      split
      · cases hf : fp (c :: s) with
        | none => exact hkeep
        | some p =>
          obtain ⟨k, r⟩ := p
          exact hrep k r (hfp _ _ _ hf).1 (hfp _ _ _ hf).2
      · exact hkeep

theorem transform_word {fp : List Char → Option (Nat × List Char)} (hfp : FpOk fp) {t : List Char} (h : Occurs word (transform (reformat fp) t)) :
    Occurs word t := by
  unfold transform at h
  split at h
  · split at h
    · rename_i l r ts he
      rw [show strip l ++ " = ".toList ++ reformat fp (strip r) = (strip l ++ [' ']) ++ '=' :: (' ' :: reformat fp (strip r)) by simp] at h
      rcases occurs_sep (by decide) h with h | h
      · rw [show strip l ++ [' '] = strip l ++ ' ' :: [] from rfl] at h
        rcases occurs_sep (by decide) h with h | h
        · exact occurs_trans (occurs_strip h) (splitOn_occurs (by rw [he]; exact List.mem_cons_self))
        · exact absurd h (not_occurs_of_char 'A' (by decide) (by simp))
      · rw [show ' ' :: reformat fp (strip r) = [] ++ ' ' :: reformat fp (strip r) from rfl] at h
        rcases occurs_sep (by decide) h with h | h
        · exact absurd h (not_occurs_of_char 'A' (by decide) (by simp))
        · have h1 := rw_occurs (reformat_rw hfp _ _ (Nat.le_refl _)) (by decide) h
          exact occurs_trans (occurs_strip (occurs_strip h1)) (splitOn_occurs (by rw [he]; simp))
    · exact h
  · exact h

/-- No step mentions the assertion. -/
theorem traces_word {fp : List Char → Option (Nat × List Char)} (hfp : FpOk fp) {rs : List Raw} {t : Step} (h : t ∈ traces fp rs) :
    ¬ Occurs word t.description := by
  unfold traces entries at h
  simp only [List.mem_flatMap, List.mem_filterMap] at h
  obtain ⟨r, _, u, _, h⟩ := h
  split at h
  · cases h
  · rename_i hs
    simp only [Option.some.injEq] at h
    subst h
    intro ho
    have h1 := transform_word hfp ho
    have h2 := (hasSub_iff _ _).2 h1
    apply hs
    unfold skipped
    rw [show hasSub "ASSERTION".toList u = true from h2]
    simp

/-! ### The graph -/

/-- The nodes form a path. -/
structure Path (st : St) : Prop where
  nodes : st.nodes = List.range (st.edges.length + 1)
  last : st.last = st.edges.length
  edges : ∀ (n : Nat) e, st.edges[n]? = some e → e.source = n ∧ e.target = n + 1
  violation : st.violation = []

theorem path_input {st st' : St} {t : Step} (h : Path st) (h' : addInput st t = some st') : Path st' := by
  unfold addInput at h'
  simp only at h'
  split at h'
  · split at h'
    · simp only [Option.some.injEq] at h'
      subst h'
      have hl : st.nodes.length = st.edges.length + 1 := by rw [h.nodes, List.length_range]
      refine ⟨?_, ?_, ?_, h.violation⟩
      · simp only [addStep, List.length_append, List.length_singleton]
        rw [hl, h.nodes, ← List.range_succ]
      · simp only [addStep, List.length_append, List.length_singleton]
        exact hl
      · intro n e he
        simp only [addStep] at he
        rw [List.getElem?_append] at he
        split at he
        · exact h.edges n e he
        · rename_i hn
          have h0 : n - st.edges.length = 0 := by
            rcases Nat.eq_zero_or_pos (n - st.edges.length) with h0 | h0
            · exact h0
            · rw [List.getElem?_eq_none (by simp; omega)] at he; cases he
          rw [h0] at he
          simp only [List.getElem?_cons_zero, Option.some.injEq] at he
          subst he
          refine ⟨?_, ?_⟩
          · show st.last = n
            rw [h.last]; omega
          · show st.nodes.length = n + 1
            omega
    · cases h'
  · simp only [Option.some.injEq] at h'
    subst h'
    exact h

theorem path_stack {st : St} (h : Path st) (s : List (List Char)) : Path { st with stack := s } := ⟨h.nodes, h.last, h.edges, h.violation⟩

theorem path_call {st st' : St} {d : List Char} (h : Path st) (h' : addCall st d = some st') : Path st' := by
  unfold addCall at h'
  simp only at h'
  repeat' split at h'
  all_goals first | (simp only [Option.some.injEq] at h'; subst h'; first | exact h | exact path_stack h _) | cases h'

theorem path_walk {fail : Option (List Char × Nat × Nat)} : ∀ {ts : List Step} {st st' : St}, (∀ t ∈ ts, ¬ Occurs word t.description) →
    Path st → walk fail ts st = some st' → Path st'
  | [], st, st', _, h, h' => by simp only [walk, Option.some.injEq] at h'; exact h' ▸ h
  | t :: ts, st, st', hw, h, h' => by
    have hno : hasSub "ASSERTION FAILS".toList t.description = false :=
      hasSub_false fun ho => hw t List.mem_cons_self (occurs_trans ⟨[], " FAILS".toList, by decide⟩ ho)
    have hw' : ∀ t ∈ ts, ¬ Occurs word t.description := fun t ht => hw t (List.mem_cons_of_mem _ ht)
    rw [walk.eq_def] at h'
    simp only [hno, Bool.false_eq_true, if_false] at h'
    split at h'
    · exact path_walk hw' h h'
    · cases hi : addInput st t with
      | none => rw [hi] at h'; cases h'
      | some st1 =>
        rw [hi] at h'
        simp only at h'
        cases hc : addCall st1 t.description with
        | none => rw [hc] at h'; cases h'
        | some st2 =>
          rw [hc] at h'
          exact path_walk hw' (path_call (path_input h hi) hc) h'

theorem path_start : Path start := ⟨rfl, rfl, by intro n e h; simp [start] at h, rfl⟩

end Smack.Witness
