/-
C103: the harness of a replay.
-/
import Verif.Witness.Replay
import Verif.Harness.Spec

namespace Smack.Harness

open Smack.Witness Smack.Witness.Spec Smack.Harness.Spec

/-! ### Definitions -/

theorem self_mem_stub (d : Dict) (f : Name) : f ∈ defines (stubPart d f) := by
  unfold stubPart
  split <;> simp [defines]

theorem mem_stub {d : Dict} {f n : Name} (h : n ∈ defines (stubPart d f)) : n = f ∨ n = f ++ "$table".toList ∨ n = f ++ "$idx".toList := by
  unfold stubPart at h
  split at h
  · simp only [defines, List.mem_cons, List.not_mem_nil, or_false] at h
    rcases h with h | h | h
    · exact .inr (.inl h)
    · exact .inr (.inr h)
    · exact .inl h
  · simp only [defines, List.mem_cons, List.not_mem_nil, or_false] at h
    exact .inl h

/-- The program's own part of a name: what stands before the first dollar sign. -/
theorem stem {d : Dict} {f n : Name} (hf : '$' ∉ f) (h : n ∈ defines (stubPart d f)) : n.takeWhile (· != '$') = f := by
  have hall : ∀ c ∈ f, (c != '$') = true := fun c hc => by
    simp only [bne_iff_ne, ne_eq]
    exact fun he => hf (he ▸ hc)
  have hs : f.takeWhile (· != '$') = f := by simpa using List.takeWhile_append_of_pos (l₂ := []) hall
  rcases mem_stub h with rfl | rfl | rfl
  · exact hs
  · rw [List.takeWhile_append_of_pos hall]; simp
  · rw [List.takeWhile_append_of_pos hall]; simp

theorem nodup_stub {d : Dict} {f : Name} : (defines (stubPart d f)).Nodup := by
  unfold stubPart
  split
  · simp [defines]
  · simp [defines]

theorem stubs_nodup (d : Dict) : ∀ (order : List Name), order.Nodup → (∀ f ∈ order, '$' ∉ f) → (defined (order.map (stubPart d))).Nodup
  | [], _, _ => by simp [defined]
  | f :: fs, hn, hd => by
    have hn' := List.nodup_cons.1 hn
    have ih := stubs_nodup d fs hn'.2 fun g hg => hd g (List.mem_cons_of_mem _ hg)
    have hf := hd f List.mem_cons_self
    show (defines (stubPart d f) ++ defined (fs.map (stubPart d))).Nodup
    refine List.nodup_append.2 ⟨nodup_stub, ih, fun a ha b hb he => ?_⟩
    obtain ⟨p, hp, hbp⟩ := List.mem_flatMap.1 hb
    obtain ⟨g, hg, rfl⟩ := List.mem_map.1 hp
    have h1 := stem hf ha
    have h2 := stem (hd g (List.mem_cons_of_mem _ hg)) hbp
    rw [he, h2] at h1
    exact hn'.1 (h1 ▸ hg)

theorem defined_harness (st : Values) (order : List Name) :
    defined (harness st order) = special ++ defined (order.map (stubPart st.returns)) ++
      st.arguments.flatMap fun _ => ["_smack_replay_main".toList, "smack_replay_main".toList] := by
  unfold harness defined
  rw [List.cons_append, List.flatMap_cons, List.flatMap_append, List.append_assoc]
  congr 2
  rw [List.flatMap_map]
  rfl

theorem stem_special {n : Name} (h : n ∈ special) : n.takeWhile (· != '$') = n := by
  simp only [special, List.mem_cons, List.not_mem_nil, or_false] at h
  rcases h with rfl | rfl <;> decide

/-- The compiler accepts the harness of a trace with at most one entry point: no name is defined twice, however often the linker names a
missing function. -/
theorem c103_accepted {missing order : List Name} (ho : Iteration missing order) (hm : ∀ f ∈ missing, Ordinary f) (st : Values)
    (h1 : st.arguments.length ≤ 1) : Accepted (harness st order) := by
  have hmem : ∀ f ∈ order, Ordinary f := fun f hf => hm f ((ho.2 f).1 hf).1
  unfold Accepted
  rw [defined_harness]
  have hstubs := stubs_nodup st.returns order ho.1 fun f hf => (hmem f hf).1
  have hstem : ∀ n ∈ defined (order.map (stubPart st.returns)), n.takeWhile (· != '$') ∈ order := fun n hn => by
    obtain ⟨p, hp, hnp⟩ := List.mem_flatMap.1 hn
    obtain ⟨g, hg, rfl⟩ := List.mem_map.1 hp
    rw [stem (hmem g hg).1 hnp]
    exact hg
  have hwrap : ∀ n ∈ st.arguments.flatMap (fun _ => ["_smack_replay_main".toList, "smack_replay_main".toList]),
      n = "_smack_replay_main".toList ∨ n = "smack_replay_main".toList := fun n hn => by
    obtain ⟨_, _, hn⟩ := List.mem_flatMap.1 hn
    simpa only [List.mem_cons, List.not_mem_nil, or_false] using hn
  refine List.nodup_append.2 ⟨List.nodup_append.2 ⟨by decide, hstubs, fun a ha b hb he => ?_⟩, ?_, fun a ha b hb he => ?_⟩
  · have h := hstem b hb
    rw [← he, stem_special ha] at h
    exact ((ho.2 a).1 h).2 ha
  · match hargs : st.arguments, h1 with
    | [], _ => simp
    | [p], _ =>
      show (["_smack_replay_main".toList, "smack_replay_main".toList] ++ []).Nodup
      decide
    | _ :: _ :: _, h1 => rw [List.length_cons, List.length_cons] at h1; omega
  · rw [he] at ha
    rcases List.mem_append.1 ha with ha | ha
    · rcases hwrap b hb with rfl | rfl
      · exact absurd ha (by decide)
      · exact absurd ha (by decide)
    · have h := hstem b ha
      rcases hwrap b hb with rfl | rfl
      · rw [show ("_smack_replay_main".toList).takeWhile (· != '$') = "_smack_replay_main".toList by decide] at h
        exact (hmem _ h).2.1 rfl
      · rw [show ("smack_replay_main".toList).takeWhile (· != '$') = "smack_replay_main".toList by decide] at h
        exact (hmem _ h).2.2 rfl

/-- Every missing function is defined, so that the program and the harness can be linked; no other functions are defined than these, the two
that check and assume, and the wrappers. -/
theorem c103_linked {missing order : List Name} (ho : Iteration missing order) (st : Values) :
    (∀ f ∈ missing, f ∈ defined (harness st order)) ∧
    ∀ n ∈ defined (harness st order), '$' ∉ n → n ∈ missing ∨ n ∈ special ∨ n = "_smack_replay_main".toList ∨ n = "smack_replay_main".toList := by
  rw [defined_harness]
  constructor
  · intro f hf
    by_cases hs : f ∈ special
    · exact List.mem_append_left _ (List.mem_append_left _ hs)
    · refine List.mem_append_left _ (List.mem_append_right _ (List.mem_flatMap.2 ⟨_, List.mem_map.2 ⟨f, (ho.2 f).2 ⟨hf, hs⟩, rfl⟩, self_mem_stub _ f⟩))
  · intro n hn hd
    rcases List.mem_append.1 hn with hn | hn
    · rcases List.mem_append.1 hn with hn | hn
      · exact .inr (.inl hn)
      · obtain ⟨p, hp, hnp⟩ := List.mem_flatMap.1 hn
        obtain ⟨g, hg, rfl⟩ := List.mem_map.1 hp
        rcases mem_stub hnp with rfl | rfl | rfl
        · exact .inl ((ho.2 n).1 hg).1
        · exact absurd (List.mem_append_right _ (by decide)) hd
        · exact absurd (List.mem_append_right _ (by decide)) hd
    · obtain ⟨_, _, hn⟩ := List.mem_flatMap.1 hn
      simp only [List.mem_cons, List.not_mem_nil, or_false] at hn
      exact .inr (.inr hn)

/-- With several entry points in the trace the harness is never accepted: the wrappers are defined for each of them. -/
theorem c103_entries_fails (st : Values) (order : List Name) (h : 2 ≤ st.arguments.length) : ¬ Accepted (harness st order) := by
  unfold Accepted
  rw [defined_harness]
  intro hn
  have hn := (List.nodup_append.1 hn).2.1
  match hargs : st.arguments, h with
  | p :: q :: r, _ =>
    rw [hargs, List.flatMap_cons, List.flatMap_cons] at hn
    exact (List.nodup_append.1 hn).2.2 "_smack_replay_main".toList (by simp) "_smack_replay_main".toList (by simp) rfl
  | [], h => simp at h
  | [_], h => simp at h

/-- A missing function that is itself called like a wrapper is defined twice. -/
theorem c103_wrapper_fails {missing order : List Name} (ho : Iteration missing order) (hm : "smack_replay_main".toList ∈ missing) (st : Values)
    (h : st.arguments ≠ []) : ¬ Accepted (harness st order) := by
  unfold Accepted
  rw [defined_harness]
  intro hn
  have hmem : "smack_replay_main".toList ∈ order := (ho.2 _).2 ⟨hm, by decide⟩
  obtain ⟨p, hp⟩ := List.exists_mem_of_ne_nil _ h
  exact (List.nodup_append.1 hn).2.2 "smack_replay_main".toList
    (List.mem_append_right _ (List.mem_flatMap.2 ⟨_, List.mem_map.2 ⟨_, hmem, rfl⟩, self_mem_stub _ _⟩))
    "smack_replay_main".toList (List.mem_flatMap.2 ⟨p, hp, by simp⟩) rfl

/-! ### Calls -/

/-- A call of a stub. -/
theorem call_stubs (d : Dict) (args : List Part) (i : Idx) (f : Name) : ∀ (order : List Name), f ∈ order →
    call (order.map (stubPart d) ++ args) i f = call [stubPart d f] i f
  | [], h => by cases h
  | g :: gs, h => by
    by_cases hg : g = f
    · subst hg
      rw [List.map_cons, List.cons_append]
      unfold stubPart
      split <;> simp [call]
    · have hf : f ∈ gs := (List.mem_cons.1 h).resolve_left fun he => hg he.symm
      have ih := call_stubs d args i f gs hf
      rw [List.map_cons, List.cons_append, ← ih]
      generalize gs.map (stubPart d) ++ args = rest
      unfold stubPart
      split <;> simp [call, hg]

theorem call_harness {st : Values} {order : List Name} {f : Name} (hf : f ∈ order) (i : Idx) :
    call (harness st order) i f = call [stubPart st.returns f] i f := by
  unfold harness
  rw [List.cons_append, call, call_stubs _ _ _ _ _ hf]

/-- A call gives the result for the index of the function and leaves the indices of the others. -/
theorem call_kth {st : Values} {order : List Name} {f : Name} {vs : List (List Char)} (hf : f ∈ order) (i : Idx)
    (hv : stub st f = if vs = [] then none else some vs) :
    ∃ i', call (harness st order) i f = some (kth vs (i f), i') ∧ (vs ≠ [] → i' f = i f + 1) ∧ ∀ g, g ≠ f → i' g = i g := by
  rw [call_harness hf]
  unfold stub at hv
  unfold stubPart
  by_cases hz : vs = []
  · rw [if_pos hz] at hv
    rw [hv]
    exact ⟨i, by simp [call, kth, hz], fun h => absurd hz h, fun _ _ => rfl⟩
  · rw [if_neg hz] at hv
    rw [hv]
    refine ⟨fun h => if h = f then i h + 1 else i h, ?_, fun _ => by simp, fun g hg => by simp [hg]⟩
    simp only [call, if_true, kth, if_neg hz]
    by_cases hk : i f < vs.length
    · rw [dif_pos hk, List.getElem?_eq_getElem hk]
    · rw [dif_neg hk, List.getElem?_eq_none (by omega)]

theorem calls_kth {st : Values} {order : List Name} (vals : Name → List (List Char))
    (hv : ∀ f, stub st f = if vals f = [] then none else some (vals f)) : ∀ (fs before : List Name) (i : Idx),
    (∀ f ∈ fs, f ∈ order) → (∀ f, vals f ≠ [] → i f = before.count f) →
    ∃ rs, calls (harness st order) i fs = some rs ∧ rs.length = fs.length ∧
      ∀ pre f post, fs = pre ++ f :: post → rs[pre.length]? = some (kth (vals f) ((before ++ pre).count f))
  | [], before, i, _, _ => ⟨[], rfl, rfl, fun pre f post h => by simp at h⟩
  | f :: fs, before, i, ho, hi => by
    obtain ⟨i', h1, h2, h3⟩ := call_kth (ho f List.mem_cons_self) i (hv f)
    obtain ⟨rs, h4, h5, h6⟩ := calls_kth vals hv fs (before ++ [f]) i' (fun g hg => ho g (List.mem_cons_of_mem _ hg)) (by
      intro g hg
      rw [List.count_append, List.count_singleton]
      by_cases he : g = f
      · subst he
        rw [h2 hg, hi g hg]; simp
      · have : (f == g) = false := by simpa using fun h : f = g => he h.symm
        rw [h3 g he, hi g hg, this]; simp)
    refine ⟨kth (vals f) (i f) :: rs, by rw [calls, h1]; simp only [h4, Option.map_some], by simp [h5], fun pre g post h => ?_⟩
    cases pre with
    | nil =>
      injection h with h _
      subst h
      simp only [List.length_nil, List.getElem?_cons_zero, List.append_nil]
      by_cases hz : vals f = []
      · simp [kth, hz]
      · rw [hi f hz]
    | cons a pre =>
      injection h with ha h
      subst ha
      have := h6 pre g post h
      simpa using this

/-- **The replay gives the program what the trace gave it.** In any sequence of calls of missing functions, also with calls of different
functions in turn, the `k`-th call of a function returns its `k`-th result in the verifier's output; calls of functions without results in
the output return nothing. The program reads behind the table exactly when it calls a function more often than the trace did. -/
theorem c103_calls {ls : List TLine} (hwf : ∀ l ∈ ls, l.Wf) (he : Entered (ls.filterMap TLine.rec?)) {missing order : List Name}
    (ho : Iteration missing order) {fs : List Name} (hfs : ∀ f ∈ fs, f ∈ missing ∧ f ∉ special) :
    ∃ st rs, extractValues (ls.map TLine.text) = some st ∧ calls (harness st order) (fun _ => 0) fs = some rs ∧ rs.length = fs.length ∧
      ∀ pre f post, fs = pre ++ f :: post → rs[pre.length]? = some (kth (results f (ls.filterMap TLine.rec?)) (pre.count f)) := by
  obtain ⟨st, h1, h2⟩ := holds_fold ls [] ⟨[], []⟩ holds_nil hwf he
  rw [List.nil_append] at h2
  obtain ⟨rs, h3, h4, h5⟩ := calls_kth (order := order) (fun f => results f (ls.filterMap TLine.rec?)) h2.returns fs [] (fun _ => 0)
    (fun f hf => (ho.2 f).2 (hfs f hf)) (fun _ _ => by simp)
  exact ⟨st, rs, h1, h3, h4, fun pre f post h => by simpa using h5 pre f post h⟩

/-! ### Examples -/

/-- The linker names `f` twice. -/
example : Iteration [['f'], ['g'], ['f'], "__VERIFIER_assert".toList] [['g'], ['f']] := by
  refine ⟨by decide, fun x => ⟨fun h => ?_, fun h => ?_⟩⟩
  · rcases List.mem_cons.1 h with rfl | h
    · decide
    · rw [List.mem_singleton.1 h]; decide
  · obtain ⟨h1, h2⟩ := h
    simp only [List.mem_cons, List.not_mem_nil, or_false] at h1 ⊢
    rcases h1 with rfl | rfl | rfl | rfl
    · simp
    · simp
    · simp
    · exact absurd (by decide) h2

example : Ordinary ['f'] := by refine ⟨by decide, by decide, by decide⟩

/-- Calls in turn. -/
example : calls (harness ⟨[], [(['f'], [['5'], ['7']])]⟩ [['g'], ['f']]) (fun _ => 0) [['f'], ['g'], ['f'], ['f']] =
    some [.value ['5'], .none, .value ['7'], .outside] := by decide

/-- Two entry points. -/
example : 2 ≤ (Values.arguments ⟨[(['m'], []), (['n'], [['1']])], []⟩).length := by decide

/-- One entry point. -/
example : (Values.arguments ⟨[(['m'], [['1']])], []⟩).length ≤ 1 := by decide

end Smack.Harness
