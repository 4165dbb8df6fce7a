import Verif.Driver.Lemmas

/-
C51: merging of consecutive trace steps at one source position.
-/

namespace Smack.Driver

theorem nil_or_snoc {α : Type} (l : List α) : l = [] ∨ ∃ l' b, l = l' ++ [b] := by
  rcases List.eq_nil_or_concat l with h | ⟨l', b, h⟩
  · exact Or.inl h
  · exact Or.inr ⟨l', b, by rw [h, List.concat_eq_append]⟩

theorem intercalate_concat (sep : List Char) (l : List (List Char)) (d : List Char) :
    sep.intercalate (l ++ [d]) = if l = [] then d else sep.intercalate l ++ (sep ++ d) := by
  induction l with
  | nil => simp [List.intercalate]
  | cons a l ih =>
    cases l with
    | nil => simp [List.intercalate, List.intersperse]
    | cons b l =>
      have e1 : ∀ l', sep.intercalate (a :: b :: l') = a ++ (sep ++ sep.intercalate (b :: l')) := by
        intro l'; simp [List.intercalate, List.intersperse]
      rw [if_neg (by simp)] at ih ⊢
      rw [List.cons_append, List.cons_append, e1, e1, ← List.cons_append, ih]
      simp

theorem intercalate_eq_nil (sep : List Char) (l : List (List Char)) (h : ∀ x ∈ l, x ≠ []) : sep.intercalate l = [] ↔ l = [] := by
  constructor
  · intro he
    cases l with
    | nil => rfl
    | cons a l =>
      exfalso
      have ha := h a List.mem_cons_self
      cases l with
      | nil => simp [List.intercalate, List.intersperse] at he; exact ha he
      | cons b l => simp [List.intercalate, List.intersperse] at he; exact ha he.1
  · intro he; rw [he]; rfl

theorem joined_single (t : Step) : joined [t] = t.description := by
  rw [joined, List.map_cons, List.map_nil]
  cases h : t.description with
  | nil => rfl
  | cons c d => simp [List.filter, List.intercalate]

theorem joined_concat (g : List Step) (t : Step) : joined (g ++ [t]) = joinDesc (joined g) t.description := by
  rw [joined, joined, List.map_append, List.filter_append, List.map_cons, List.map_nil, joinDesc]
  cases hd : t.description with
  | nil => simp
  | cons c d =>
    have : [c :: d].filter (fun d => !d.isEmpty) = [c :: d] := by simp [List.filter]
    rw [this, intercalate_concat]
    have he : ((c :: d).isEmpty = true) = False := by simp
    simp only [he, if_false]
    have hne : ∀ x ∈ (g.map Step.description).filter (fun d => !d.isEmpty), x ≠ [] := by
      intro x hx
      have := (List.mem_filter.1 hx).2
      simpa using this
    have hiff := intercalate_eq_nil ", ".toList _ hne
    by_cases hl : (g.map Step.description).filter (fun d => !d.isEmpty) = []
    · rw [if_pos hl, if_pos (by rw [List.isEmpty_iff]; exact hiff.2 hl)]
    · rw [if_neg hl, if_neg (by rw [List.isEmpty_iff]; exact fun h => hl (hiff.1 h)), List.append_assoc]

theorem adjacent_concat {α : Type} (R : α → α → Prop) (l : List α) (a b : α) :
    Adjacent R (l ++ [a] ++ [b]) ↔ Adjacent R (l ++ [a]) ∧ R a b := by
  induction l with
  | nil => simp [Adjacent]
  | cons c l ih =>
    cases l with
    | nil => simp [Adjacent]
    | cons d l =>
      simp only [List.cons_append] at ih ⊢
      rw [Adjacent, Adjacent, ih, and_assoc]

theorem adjacent_replace_last (l : List Step) (a a' : Step) (h : a.pos = a'.pos)
    (hl : Adjacent (fun x y => x.pos ≠ y.pos) (l ++ [a])) : Adjacent (fun x y => x.pos ≠ y.pos) (l ++ [a']) := by
  rcases nil_or_snoc l with rfl | ⟨l', b, rfl⟩
  · trivial
  · rw [adjacent_concat] at hl ⊢
    exact ⟨hl.1, by rw [← h]; exact hl.2⟩

/-- The merged trace `out` of `steps`: maximal groups. -/
def Merged (steps out : List Step) : Prop :=
  ∃ gs : List (List Step), gs.flatten = steps ∧ (∀ g ∈ gs, ∀ s ∈ g, ∀ t ∈ g, s.pos = t.pos) ∧
    out.map some = gs.map groupStep ∧ Adjacent (fun x y => x.pos ≠ y.pos) out

theorem merger_step (steps out : List Step) (t : Step) (h : Merged steps out) : Merged (steps ++ [t]) (merger out t) := by
  obtain ⟨gs, h1, h2, h3, h4⟩ := h
  rcases nil_or_snoc gs with rfl | ⟨gs', g, rfl⟩
  · have ho : out = [] := by simpa using h3
    subst ho
    rw [← h1]
    refine ⟨[[t]], by simp, by simp, ?_, trivial⟩
    show [some t] = [some { t with description := joined [t] }]
    rw [joined_single]
  · have hlen : out ≠ [] := by
      intro ho
      rw [ho] at h3
      simp at h3
    rcases nil_or_snoc out with ho | ⟨out', last, ho⟩
    · exact absurd ho hlen
    · subst ho
      rw [List.map_append, List.map_append] at h3
      have h5 := List.append_inj' h3 rfl
      have hlast : groupStep g = some last := by
        have := h5.2
        simp at this
        exact this.symm
      obtain ⟨s, g', hg, hs⟩ : ∃ s g', g = s :: g' ∧ last = { s with description := joined (s :: g') } := by
        cases g with
        | nil => cases hlast
        | cons s g' => exact ⟨s, g', rfl, (Option.some.inj hlast).symm⟩
      have hpos : last.pos = s.pos := by rw [hs]; rfl
      rw [merger]
      have hgl : (out' ++ [last]).getLast? = some last := by simp
      rw [hgl]
      dsimp only
      have hcond : (last.file == t.file && last.line == t.line && last.column == t.column) = true ↔ last.pos = t.pos := by
        simp [Step.pos, and_assoc]
      split
      · rename_i hc
        rw [hcond] at hc
        rw [List.dropLast_concat]
        refine ⟨gs' ++ [g ++ [t]], ?_, ?_, ?_, ?_⟩
        · rw [← h1]; simp
        · intro k hk
          rcases List.mem_append.1 hk with hk | hk
          · exact h2 k (List.mem_append_left _ hk)
          · rw [List.mem_singleton] at hk
            subst hk
            have hgp : ∀ x ∈ g, x.pos = t.pos := by
              intro x hx
              rw [h2 g (by simp) x hx s (by rw [hg]; exact List.mem_cons_self), ← hpos, hc]
            have hall : ∀ x ∈ g ++ [t], x.pos = t.pos := by
              intro x hx
              rcases List.mem_append.1 hx with hx | hx
              · exact hgp x hx
              · rw [List.mem_singleton] at hx; rw [hx]
            intro x hx y hy
            rw [hall x hx, hall y hy]
        · rw [List.map_append, List.map_append, h5.1]
          congr 1
          simp only [List.map_cons, List.map_nil]
          congr 1
          rw [hg, List.cons_append, groupStep, ← List.cons_append, joined_concat, hs]
        · exact adjacent_replace_last out' last _ rfl h4
      · rename_i hc
        rw [hcond] at hc
        refine ⟨gs' ++ [g] ++ [[t]], ?_, ?_, ?_, ?_⟩
        · rw [← h1]; simp
        · intro k hk
          rcases List.mem_append.1 hk with hk | hk
          · exact h2 k hk
          · rw [List.mem_singleton] at hk
            subst hk
            simp
        · rw [List.map_append, List.map_append, List.map_append, List.map_append, h5.1]
          congr 1
          · congr 1
            simp [hlast]
          · show [some t] = [some { t with description := joined [t] }]
            rw [joined_single]
        · rw [adjacent_concat]
          exact ⟨h4, hc⟩

theorem foldl_merged (steps pre out : List Step) (h : Merged pre out) : Merged (pre ++ steps) (steps.foldl merger out) := by
  induction steps generalizing pre out with
  | nil => simpa using h
  | cons t steps ih =>
    rw [List.foldl_cons]
    have := ih _ _ (merger_step pre out t h)
    simpa using this

/-- C51: merging keeps all descriptions in order. The steps are cut into groups, in order and without loss; all steps of
a group are at one position; each merged step is the first of its group with the non-empty descriptions of the group,
in order and separated by ", "; and neighbouring merged steps are at different positions. -/
theorem c51_merge (steps : List Step) :
    ∃ gs : List (List Step), gs.flatten = steps ∧ (∀ g ∈ gs, ∀ s ∈ g, ∀ t ∈ g, s.pos = t.pos) ∧
      (mergeTraces steps).map some = gs.map groupStep ∧
      Adjacent (fun x y => x.pos ≠ y.pos) (mergeTraces steps) := by
  have := foldl_merged steps [] [] ⟨[], rfl, by simp, rfl, trivial⟩
  rw [List.nil_append] at this
  exact this

/-- A step at line `l` with the given description. -/
def exStep (l : Nat) (d : String) : Step := ⟨1, "a.c".toList, l, 3, d.toList, []⟩

example : mergeTraces [exStep 1 "x = 1", exStep 1 "", exStep 1 "y = 2", exStep 2 "", exStep 1 "z = 3"] =
    [exStep 1 "x = 1, y = 2", exStep 2 "", exStep 1 "z = 3"] := by decide +kernel

theorem mem_intercalate (sep : List Char) (l : List (List Char)) (d : List Char) (h : d ∈ l) : Occurs d (sep.intercalate l) := by
  induction l with
  | nil => cases h
  | cons a l ih =>
    cases l with
    | nil =>
      rw [List.mem_singleton] at h
      subst h
      exact ⟨[], [], by simp [List.intercalate, List.intersperse]⟩
    | cons b l =>
      have e1 : sep.intercalate (a :: b :: l) = a ++ (sep ++ sep.intercalate (b :: l)) := by
        simp [List.intercalate, List.intersperse]
      rw [e1]
      rcases List.mem_cons.1 h with rfl | h
      · exact ⟨[], _, rfl⟩
      · obtain ⟨x, y, hxy⟩ := ih h
        exact ⟨a ++ (sep ++ x), y, by rw [hxy]; simp⟩

/-- No description is lost: the description of every step occurs in a merged step at the same position. -/
theorem c51_no_loss (steps : List Step) (s : Step) (hs : s ∈ steps) :
    ∃ m ∈ mergeTraces steps, m.pos = s.pos ∧ Occurs s.description m.description := by
  obtain ⟨gs, h1, h2, h3, _⟩ := c51_merge steps
  rw [← h1, List.mem_flatten] at hs
  obtain ⟨g, hg, hsg⟩ := hs
  have hmem : groupStep g ∈ (mergeTraces steps).map some := by
    rw [h3]; exact List.mem_map.2 ⟨g, hg, rfl⟩
  obtain ⟨m, hm, hmg⟩ := List.mem_map.1 hmem
  refine ⟨m, hm, ?_⟩
  cases g with
  | nil => cases hsg
  | cons x g =>
    have hx : m = { x with description := joined (x :: g) } := Option.some.inj hmg
    refine ⟨?_, ?_⟩
    · rw [hx]
      exact h2 (x :: g) hg x List.mem_cons_self s hsg
    · rw [hx]
      show Occurs s.description (joined (x :: g))
      cases hd : s.description with
      | nil => exact ⟨[], joined (x :: g), rfl⟩
      | cons c d =>
        rw [joined]
        refine mem_intercalate _ _ _ (List.mem_filter.2 ⟨List.mem_map.2 ⟨s, hsg, hd⟩, rfl⟩)

/-- Merging twice changes nothing. -/
theorem c51_idempotent (steps : List Step) : mergeTraces (mergeTraces steps) = mergeTraces steps := by
  obtain ⟨_, _, _, _, h4⟩ := c51_merge steps
  generalize mergeTraces steps = out at h4
  have key : ∀ (l pre : List Step), Adjacent (fun x y => x.pos ≠ y.pos) (pre ++ l) → l.foldl merger pre = pre ++ l := by
    intro l
    induction l with
    | nil => intro pre _; simp
    | cons t l ih =>
      intro pre h
      rw [List.foldl_cons]
      have hm : merger pre t = pre ++ [t] := by
        rcases nil_or_snoc pre with rfl | ⟨pre', a, rfl⟩
        · rfl
        · have hat : a.pos ≠ t.pos := by
            clear ih
            induction pre' with
            | nil => exact h.1
            | cons c p ihp =>
              refine ihp ?_
              cases p with
              | nil => exact h.2
              | cons d p => exact h.2
          rw [merger]
          simp only [List.getLast?_append, List.getLast?_singleton, Option.some_or]
          rw [if_neg]
          intro hc
          apply hat
          simpa [Step.pos, and_assoc] using hc
      rw [hm, ih (pre ++ [t]) (by simpa using h)]
      simp
  rw [mergeTraces]
  simpa using key out [] (by simpa using h4)

/-- Only the description is merged: thread and assumption of every step but the first of a group are lost, even if the
step belongs to another thread. -/
theorem c51_other_fields_fails (s t : Step) (h : s.pos = t.pos) (a : List Char) (n : Nat) :
    mergeTraces [s, t] = mergeTraces [s, { t with thread := n, assumption := a }] := by
  have hs : ∀ t' : Step, s.pos = t'.pos → mergeTraces [s, t'] = [{ s with description := joinDesc s.description t'.description }] := by
    intro t' ht
    simp only [Step.pos, Prod.mk.injEq] at ht
    simp [mergeTraces, merger, ht]
  rw [hs t h]
  exact (hs { t with thread := n, assumption := a } h).symm

/-- `transform` keeps an assignment with one `=`, up to blanks and the formatting of the value. -/
theorem c51_transform (fmt : List Char → List Char) (l r : List Char) (hl : '=' ∉ l) (hr : '=' ∉ r) :
    transform fmt (l ++ '=' :: r) = strip l ++ " = ".toList ++ fmt (strip r) := by
  have h1 : splitOn '=' r = [r] := by
    induction r with
    | nil => rfl
    | cons c r ih =>
      rw [splitOn, if_neg, ih fun hm => hr (List.mem_cons_of_mem _ hm)]
      intro h
      exact hr (by rw [eq_of_beq h]; exact List.mem_cons_self)
  have h2 : splitOn '=' (l ++ '=' :: r) = [l, r] := by
    induction l with
    | nil => rw [List.nil_append, splitOn, if_pos (by simp), h1]
    | cons c l ih =>
      rw [List.cons_append, splitOn, if_neg, ih fun hm => hl (List.mem_cons_of_mem _ hm)]
      intro h
      exact hl (by rw [eq_of_beq h]; exact List.mem_cons_self)
  rw [transform, if_pos (by simp), h2]

example : transform id "x = 5bv32".toList = "x = 5bv32".toList := by decide +kernel

/-- C51 fails before merging: a description with a second `=` loses everything from there on. -/
theorem c51_transform_fails (fmt : List Char → List Char) (l r x : List Char) (hl : '=' ∉ l) (hr : '=' ∉ r) :
    transform fmt (l ++ '=' :: (r ++ '=' :: x)) = transform fmt (l ++ '=' :: r) := by
  have h1 : ∃ ts, splitOn '=' (r ++ '=' :: x) = r :: ts := by
    induction r with
    | nil => exact ⟨_, by rw [List.nil_append, splitOn, if_pos (by simp)]⟩
    | cons c r ih =>
      obtain ⟨ts, hts⟩ := ih fun hm => hr (List.mem_cons_of_mem _ hm)
      refine ⟨ts, ?_⟩
      rw [List.cons_append, splitOn, if_neg, hts]
      intro h
      exact hr (by rw [eq_of_beq h]; exact List.mem_cons_self)
  obtain ⟨ts, hts⟩ := h1
  have h2 : splitOn '=' (l ++ '=' :: (r ++ '=' :: x)) = l :: r :: ts := by
    clear hr
    induction l with
    | nil => rw [List.nil_append, splitOn, if_pos (by simp), hts]
    | cons c l ih =>
      rw [List.cons_append, splitOn, if_neg, ih fun hm => hl (List.mem_cons_of_mem _ hm)]
      intro h
      exact hl (by rw [eq_of_beq h]; exact List.mem_cons_self)
  rw [c51_transform fmt l r hl hr, transform, if_pos (by simp), h2]

example : transform id "p = q == r".toList = "p = q".toList := by decide +kernel

end Smack.Driver
