import Verif.Extern.Lemmas
/-!
# C99: static entry points become visible and nothing else changes
-/
namespace Smack.Extern

open Spec

theorem expose_id {m : Module} {e : Str} (h : ∀ g ∈ m.funs, g.name = e → g.linkage = .external) :
    (view m).1.map (expose e) = (view m).1 := by
  show (m.funs.map (viewFun m)).map (expose e) = m.funs.map (viewFun m)
  rw [List.map_map]
  refine List.map_congr_left fun g hg => ?_
  show expose e (viewFun m g) = viewFun m g
  unfold expose
  split
  · rename_i hn
    have := h g hg hn
    unfold viewFun
    rw [this]
  · rfl

theorem step_spec {m : Module} (hw : WF m) (e : Str) : WF (step m e).1 ∧ view (step m e).1 = ((view m).1.map (expose e), (view m).2) ∧
    ((step m e).2 = true ↔ ∃ v ∈ (view m).1, v.name = e ∧ v.linkage ≠ .external) := by
  have hex : (∃ v ∈ (view m).1, v.name = e ∧ v.linkage ≠ .external) ↔ ∃ g ∈ m.funs, g.name = e ∧ g.linkage ≠ .external := by
    constructor
    · rintro ⟨v, hv, h1, h2⟩
      obtain ⟨g, hg, rfl⟩ := List.mem_map.mp hv
      exact ⟨g, hg, h1, h2⟩
    · rintro ⟨g, hg, h⟩
      exact ⟨_, List.mem_map_of_mem hg, h⟩
  rw [hex]
  cases hf : m.funs.find? (fun g => g.name = e) with
  | none =>
    have hn : ∀ g ∈ m.funs, g.name ≠ e := fun g hg => by simpa using List.find?_eq_none.mp hf g hg
    have hs : step m e = (m, false) := by unfold step; rw [hf]
    rw [hs, expose_id fun g hg h => absurd h (hn g hg)]
    exact ⟨hw, rfl, by simp, fun ⟨g, hg, h, _⟩ => absurd h (hn g hg)⟩
  | some f =>
    have hm := List.mem_of_find?_eq_some hf
    have hn : f.name = e := by simpa using List.find?_some hf
    by_cases hl : f.linkage = .external
    · have huniq : ∀ g ∈ m.funs, g.name = e → g.linkage = .external := fun g hg h => by
        rw [nodup_inj hw.names hg hm (h.trans hn.symm)]; exact hl
      have hs : step m e = (m, false) := by unfold step; rw [hf]; simp [hl]
      rw [hs, expose_id huniq]
      exact ⟨hw, rfl, by simp, fun ⟨g, hg, h, h'⟩ => absurd (huniq g hg h) h'⟩
    · rw [step_closed hw hf hl, view_closed hw hm, hn]
      exact ⟨wf_closed hw f, rfl, fun _ => ⟨f, hm, hn, hl⟩, fun _ => rfl⟩

theorem run_spec {m : Module} (hw : WF m) (es : List Str) : WF (run es m).1 ∧
    view (run es m).1 = ((view m).1.map fun v => if v.name ∈ es then { v with linkage := .external } else v, (view m).2) ∧
    ((run es m).2 = true ↔ ∃ v ∈ (view m).1, v.name ∈ es ∧ v.linkage ≠ .external) := by
  induction es generalizing m with
  | nil => exact ⟨hw, by simp [run], by simp [run]⟩
  | cons e es ih =>
    obtain ⟨h1, h2, h3⟩ := step_spec hw e
    obtain ⟨i1, i2, i3⟩ := ih h1
    refine ⟨i1, ?_, ?_⟩
    · show view (run es (step m e).1).1 = _
      rw [i2, h2]
      refine Prod.ext ?_ rfl
      show List.map _ (List.map _ _) = _
      rw [List.map_map]
      refine List.map_congr_left fun v _ => ?_
      simp only [Function.comp, expose, List.mem_cons]
      by_cases a : v.name = e <;> by_cases b : v.name ∈ es <;> simp_all
    · show ((step m e).2 || (run es (step m e).1).2) = true ↔ _
      rw [Bool.or_eq_true, h3, i3, h2]
      constructor
      · rintro (⟨v, hv, a, b⟩ | ⟨v, hv, a, b⟩)
        · exact ⟨v, hv, by simp [a], b⟩
        · obtain ⟨w, hw', rfl⟩ := List.mem_map.mp hv
          by_cases hn : w.name = e
          · simp [expose, hn] at b
          · simp only [expose, if_neg hn] at a b
            exact ⟨w, hw', List.mem_cons_of_mem _ a, b⟩
      · rintro ⟨v, hv, a, b⟩
        by_cases hn : v.name = e
        · exact Or.inl ⟨v, hv, hn, b⟩
        · refine Or.inr ⟨v, List.mem_map.mpr ⟨v, hv, by simp [expose, hn]⟩, (List.mem_cons.mp a).resolve_left hn, b⟩

/-- After the tool, the module has the same functions with the same names, arguments, attributes and code in the same order, and
those that are entry points have external linkage; references mean the functions of the same names as before. -/
theorem c99_view (m : Module) (hw : WF m) (es : List Str) :
    view (run es m).1 = ((view m).1.map fun v => if v.name ∈ es then { v with linkage := .external } else v, (view m).2) := (run_spec hw es).2.1

/-- Names stay unique and references stay within the module. -/
theorem c99_wellformed (m : Module) (hw : WF m) (es : List Str) : WF (run es m).1 := (run_spec hw es).1

/-- The tool reports a change exactly if an entry point was not visible. -/
theorem c99_changed (m : Module) (hw : WF m) (es : List Str) :
    (run es m).2 = true ↔ ∃ v ∈ (view m).1, v.name ∈ es ∧ v.linkage ≠ .external := (run_spec hw es).2.2

/-- A second run changes nothing. -/
theorem c99_idempotent (m : Module) (hw : WF m) (es : List Str) : view (run es (run es m).1).1 = view (run es m).1 ∧ (run es (run es m).1).2 = false := by
  have h1 := c99_view m hw es
  have hw' := c99_wellformed m hw es
  refine ⟨?_, ?_⟩
  · rw [c99_view _ hw', h1]
    refine Prod.ext ?_ rfl
    show List.map _ (List.map _ _) = _
    rw [List.map_map]
    refine List.map_congr_left fun v _ => ?_
    simp only [Function.comp]
    by_cases h : v.name ∈ es <;> simp [h]
  · rw [← Bool.not_eq_true, c99_changed _ hw', h1]
    rintro ⟨v, hv, a, b⟩
    obtain ⟨w, _, rfl⟩ := List.mem_map.mp hv
    by_cases h : w.name ∈ es
    · simp [h] at b
    · simp [h] at a

/-- Modules that could be linked cannot be linked afterwards, if both have a static (or weak) definition with the name of an entry
point. -/
theorem c99_link_fails (m n : Module) (hm : WF m) (hn : WF n) (es : List Str) (v w : View) (hv : v ∈ (view m).1) (hw : w ∈ (view n).1)
    (he : v.name ∈ es) (hvw : v.name = w.name) (hbv : v.body ≠ none) (hbw : w.body ≠ none) : ¬ CanLink (run es m).1 (run es n).1 := by
  intro h
  refine h { v with linkage := .external } ?_ { w with linkage := .external } ?_ ⟨rfl, hbv⟩ ⟨rfl, hbw⟩ hvw
  · rw [c99_view m hm]
    exact List.mem_map.mpr ⟨v, hv, by simp [he]⟩
  · rw [c99_view n hn]
    exact List.mem_map.mpr ⟨w, hw, by simp [← hvw, he]⟩

/-- A static recursive function, one that calls it, and a table of functions. -/
def sample : Module :=
  { funs := [⟨0, ['f'], .internal, [['x']], 7, some [.code 1, .ref 0, .ref 1]⟩, ⟨1, ['g'], .external, [], 0, none⟩, ⟨2, ['h'], .internal, [], 0, some [.ref 0]⟩]
    globals := [.ref 0, .ref 2] }

example : WF sample where
  ids := by decide
  names := by decide
  bodies := by
    intro f hf b hb i hi
    simp only [sample, List.mem_cons, List.not_mem_nil, or_false] at hf
    rcases hf with rfl | rfl | rfl
    · cases hb
      simp only [List.mem_cons, Item.ref.injEq, List.not_mem_nil, or_false, reduceCtorEq, false_or] at hi
      rcases hi with rfl | rfl
      · exact ⟨_, List.mem_cons_self .., rfl⟩
      · exact ⟨_, List.mem_cons_of_mem _ (List.mem_cons_self ..), rfl⟩
    · cases hb
    · cases hb
      simp only [List.mem_cons, Item.ref.injEq, List.not_mem_nil, or_false] at hi
      subst hi
      exact ⟨_, List.mem_cons_self .., rfl⟩
  globals := by
    intro i hi
    simp only [sample, List.mem_cons, Item.ref.injEq, List.not_mem_nil, or_false] at hi
    rcases hi with rfl | rfl
    · exact ⟨_, List.mem_cons_self .., rfl⟩
    · exact ⟨_, List.mem_cons_of_mem _ (List.mem_cons_of_mem _ (List.mem_cons_self ..)), rfl⟩

example : run [['f'], ['q']] sample =
    ({ funs := [⟨3, ['f'], .external, [['x']], 7, some [.code 1, .ref 3, .ref 1]⟩, ⟨1, ['g'], .external, [], 0, none⟩, ⟨2, ['h'], .internal, [], 0, some [.ref 3]⟩]
       globals := [.ref 3, .ref 2] }, true) := by decide

/-- Two copies of the module can be linked before. -/
example : CanLink sample sample := by
  intro v hv w hw h1 h2
  simp only [view, sample, List.map_cons, List.map_nil, List.mem_cons, List.not_mem_nil, or_false] at hv hw
  rcases hv with rfl | rfl | rfl <;> simp [Strong, viewFun] at h1

end Smack.Extern
