/-
All lines of a trace.
-/
import Verif.Witness.Graph

namespace Smack.Witness

open Smack.Driver Smack.Witness.Spec

variable {fp : List Char → Option (Nat × List Char)}

theorem walks_append {s m s' : List (List Char)} {a b : List (Nat × Ev)} {is js : List In} (h : Walks s a m is) (h' : Walks m b s' js) :
    Walks s (a ++ b) s' (is ++ js) := by
  induction h with
  | nil s => exact h'
  | done s l es s' is _ ih => exact .done _ _ _ _ _ (ih h')
  | call s l f es s' is hi _ ih => exact .call _ _ _ _ _ _ hi (ih h')
  | callIgnored s l f es s' is hi _ ih => exact .callIgnored _ _ _ _ _ _ hi (ih h')
  | ret s l f es s' is hi _ ih => exact .ret _ _ _ _ _ _ hi (ih h')
  | retIgnored s l f es s' is hi _ ih => exact .retIgnored _ _ _ _ _ _ hi (ih h')
  | value s l x v es s' is hi _ ih => exact .value _ _ _ _ _ _ _ hi (ih h')
  | input s l f y v sc es s' is hi _ ih => exact .input _ _ _ _ _ _ _ _ _ hi (ih h')

theorem walks_split {s s' : List (List Char)} {L : List (Nat × Ev)} {is : List In} (h : Walks s L s' is) : ∀ {a b : List (Nat × Ev)}, L = a ++ b →
    ∃ m i1 i2, Walks s a m i1 ∧ Walks m b s' i2 ∧ is = i1 ++ i2 := by
  induction h with
  | nil s =>
    intro a b hL
    obtain ⟨rfl, rfl⟩ := List.append_eq_nil_iff.1 hL.symm
    exact ⟨s, [], [], .nil _, .nil _, rfl⟩
  | done s l es s' is h ih =>
    intro a b hL
    cases a with
    | nil => exact ⟨s, [], is, .nil _, by rw [← (show _ = b from hL)]; exact .done _ _ _ _ _ h, rfl⟩
    | cons e a =>
      rw [List.cons_append] at hL
      injection hL with h1 h2
      obtain ⟨m, i1, i2, ha, hb, rfl⟩ := ih h2
      exact ⟨m, i1, i2, h1 ▸ .done _ _ _ _ _ ha, hb, rfl⟩
  | call s l f es s' is hi h ih =>
    intro a b hL
    cases a with
    | nil => exact ⟨s, [], is, .nil _, by rw [← (show _ = b from hL)]; exact .call _ _ _ _ _ _ hi h, rfl⟩
    | cons e a =>
      rw [List.cons_append] at hL
      injection hL with h1 h2
      obtain ⟨m, i1, i2, ha, hb, rfl⟩ := ih h2
      exact ⟨m, i1, i2, h1 ▸ .call _ _ _ _ _ _ hi ha, hb, rfl⟩
  | callIgnored s l f es s' is hi h ih =>
    intro a b hL
    cases a with
    | nil => exact ⟨s, [], is, .nil _, by rw [← (show _ = b from hL)]; exact .callIgnored _ _ _ _ _ _ hi h, rfl⟩
    | cons e a =>
      rw [List.cons_append] at hL
      injection hL with h1 h2
      obtain ⟨m, i1, i2, ha, hb, rfl⟩ := ih h2
      exact ⟨m, i1, i2, h1 ▸ .callIgnored _ _ _ _ _ _ hi ha, hb, rfl⟩
  | ret s l f es s' is hi h ih =>
    intro a b hL
    cases a with
    | nil => exact ⟨f :: s, [], is, .nil _, by rw [← (show _ = b from hL)]; exact .ret _ _ _ _ _ _ hi h, rfl⟩
    | cons e a =>
      rw [List.cons_append] at hL
      injection hL with h1 h2
      obtain ⟨m, i1, i2, ha, hb, rfl⟩ := ih h2
      exact ⟨m, i1, i2, h1 ▸ .ret _ _ _ _ _ _ hi ha, hb, rfl⟩
  | retIgnored s l f es s' is hi h ih =>
    intro a b hL
    cases a with
    | nil => exact ⟨s, [], is, .nil _, by rw [← (show _ = b from hL)]; exact .retIgnored _ _ _ _ _ _ hi h, rfl⟩
    | cons e a =>
      rw [List.cons_append] at hL
      injection hL with h1 h2
      obtain ⟨m, i1, i2, ha, hb, rfl⟩ := ih h2
      exact ⟨m, i1, i2, h1 ▸ .retIgnored _ _ _ _ _ _ hi ha, hb, rfl⟩
  | value s l x v es s' is hi h ih =>
    intro a b hL
    cases a with
    | nil => exact ⟨s, [], is, .nil _, by rw [← (show _ = b from hL)]; exact .value _ _ _ _ _ _ _ hi h, rfl⟩
    | cons e a =>
      rw [List.cons_append] at hL
      injection hL with h1 h2
      obtain ⟨m, i1, i2, ha, hb, rfl⟩ := ih h2
      exact ⟨m, i1, i2, h1 ▸ .value _ _ _ _ _ _ _ hi ha, hb, rfl⟩
  | input s l f y v sc es s' is hi h ih =>
    intro a b hL
    cases a with
    | nil => exact ⟨f :: s, [], _, .nil _, by rw [← (show _ = b from hL)]; exact .input _ _ _ _ _ _ _ _ _ hi h, rfl⟩
    | cons e a =>
      rw [List.cons_append] at hL
      injection hL with h1 h2
      obtain ⟨m, i1, i2, ha, hb, rfl⟩ := ih h2
      exact ⟨m, _ :: i1, i2, h1 ▸ .input _ _ _ _ _ _ _ _ _ hi ha, hb, rfl⟩

theorem walk_lines {fail : Option (List Char × Nat × Nat)} {st' : St} : ∀ {ls : List Ln} {st : St}, (∀ l ∈ ls, l.Wf) →
    (walk fail (traces fp (ls.map Ln.raw)) st = some st' ↔
      ∃ es s' is, UserEvs ls es ∧ Walks st.stack es s' is ∧ st' = result st s' is)
  | [], st, _ => by
    show (some st = some st') ↔ _
    constructor
    · intro h
      injection h with h
      exact ⟨[], st.stack, [], .nil, .nil _, h.symm⟩
    · rintro ⟨es, s', is, h1, h2, h3⟩
      cases h1
      generalize hsk : st.stack = sk at h2
      cases h2
      rw [h3, ← hsk, result_nil]
  | l :: ls, st, hwf => by
    have hl := hwf l List.mem_cons_self
    have ih := fun st : St => walk_lines (fail := fail) (st' := st') (ls := ls) (st := st) fun l hl => hwf l (List.mem_cons_of_mem _ hl)
    have ht : traces fp ((l :: ls).map Ln.raw) = l.evs.filterMap (evStep l) ++ traces fp (ls.map Ln.raw) := by
      unfold traces
      rw [List.map_cons, List.flatMap_cons, entries_line hl]
    rw [ht]
    by_cases hlib : OfLibrary l.file
    · rw [walk_lib, ih]
      · constructor
        · rintro ⟨es, s', is, h1, h2⟩; exact ⟨es, s', is, .lib _ _ _ hlib h1, h2⟩
        · rintro ⟨es, s', is, h1, h2⟩
          cases h1 with
          | lib _ _ _ _ h => exact ⟨es, s', is, h, h2⟩
          | user _ _ _ hn _ => exact absurd hlib hn
      · intro t ht
        obtain ⟨e, he, ht⟩ := List.mem_filterMap.1 ht
        have := evStep_word (hl.evs e he) ht
        exact ⟨this.1, by rw [this.2.1]; exact hlib⟩
    · rw [walk_evs hlib hl.evs]
      constructor
      · rintro ⟨s', is, h1, h2⟩
        rw [ih] at h2
        obtain ⟨es, s'', js, h3, h4, rfl⟩ := h2
        exact ⟨_, s'', is ++ js, .user _ _ _ hlib h3, walks_append h1 h4, by rw [result_result]⟩
      · rintro ⟨es, s', is, h1, h2, rfl⟩
        cases h1 with
        | lib _ _ _ h _ => exact absurd h hlib
        | user _ _ es _ h =>
          obtain ⟨m, i1, i2, h3, h4, rfl⟩ := walks_split h2 rfl
          exact ⟨m, i1, h3, by rw [ih]; exact ⟨es, s', i2, h, h4, (result_result _ _ _ _ _).symm⟩⟩

theorem grow_all : ∀ (is : List In) (st : St), st.nodes.length = st.last + 1 → is.foldl grow st =
    { nodes := st.nodes ++ List.range' (st.last + 1) is.length, violation := st.violation, edges := st.edges ++ pathEdges st.last is,
      last := st.last + is.length, stack := st.stack }
  | [], st, _ => by simp [pathEdges]
  | i :: is, st, h => by
    rw [List.foldl_cons, grow_all is (grow st i) (by simp [grow])]
    have e1 : (grow st i).last = st.last + 1 := h
    rw [e1]
    simp only [grow, pathEdges, In.edge, h, List.length_cons, List.range'_succ, List.append_assoc, List.singleton_append, St.mk.injEq, and_true, true_and]
    omega

theorem result_start (s : List (List Char)) (is : List In) : result start s is = ⟨List.range (is.length + 1), [], pathEdges 0 is, is.length, s⟩ := by
  unfold result
  rw [grow_all is start rfl]
  simp [start, List.range_eq_range', List.range'_succ]

/-- A return that the driver does not recognize. -/
theorem addCall_bad {st : St} {f : List Char} (hc : Occurs "CALL".toList f) (ht : Tight f) (hd : ¬ "devirtbounce".toList <+: f) :
    addCall st ("RETURN from ".toList ++ f) = none := by
  have h1 : hasSub "CALL".toList ("RETURN from ".toList ++ f) = true := (hasSub_iff _ _).2 (occurs_trans hc ⟨"RETURN from ".toList, [], by simp only [List.append_nil]⟩)
  have h2 : hasSub "RETURN from".toList ("RETURN from ".toList ++ f) = true := (hasSub_iff _ _).2 ⟨[], ' ' :: f, rfl⟩
  have h3 : strip (("RETURN from ".toList ++ f).drop 5) = "N from ".toList ++ f := by
    show strip ("N from ".toList ++ f) = _
    exact strip_tight (prefix_tight 'N' _ rfl (by decide) ht)
  have h4 : (startsWith "devirtbounce".toList ("N from ".toList ++ f) || isInit ("N from ".toList ++ f)) = false := rfl
  have h5 : strip (("RETURN from ".toList ++ f).drop 12) = f := strip_tight ht
  have h6 : isInit f = false := by
    unfold isInit
    rw [Bool.or_eq_false_iff, Bool.or_eq_false_iff]
    refine ⟨⟨?_, ?_⟩, ?_⟩ <;> rw [beq_eq_false_iff_ne] <;> rintro rfl <;>
      exact absurd ((hasSub_iff _ _).2 hc) (by decide)
  have h7 : (startsWith "devirtbounce".toList f || isInit f) = false := by
    rw [h6, Bool.or_false, ← Bool.not_eq_true, startsWith_iff]; exact hd
  have h8 : (f == "N from ".toList ++ f) = false := by
    rw [beq_eq_false_iff_ne]
    intro h
    have := congrArg List.length h
    simp at this
    omega
  unfold addCall
  simp only [h1, h2, h3, h4, h5, h7, h8, if_true, Bool.false_eq_true, if_false]

theorem walk_bad {fail : Option (List Char × Nat × Nat)} {t : Step} (hl : ¬ OfLibrary t.file) (hb : ∀ st, addCall st t.description = none) :
    ∀ {ts : List Step} {st : St}, (∀ t ∈ ts, ¬ Occurs word t.description) → t ∈ ts → walk fail ts st = none
  | u :: ts, st, hw, hm => by
    have hno : hasSub "ASSERTION FAILS".toList u.description = false :=
      hasSub_false fun ho => hw u List.mem_cons_self (occurs_trans ⟨[], " FAILS".toList, by decide⟩ ho)
    have hw' : ∀ t ∈ ts, ¬ Occurs word t.description := fun t ht => hw t (List.mem_cons_of_mem _ ht)
    by_cases hu : u = t
    · subst hu
      rw [walk_user (hw u List.mem_cons_self) hl]
      cases addInput st u with
      | none => rfl
      | some s => rw [Option.bind_some, hb]; rfl
    · have hm' : t ∈ ts := (List.mem_cons.1 hm).resolve_left fun h => hu h.symm
      rw [walk.eq_def]
      simp only [hno, Bool.false_eq_true, if_false]
      split
      · exact walk_bad hl hb hw' hm'
      · cases addInput st u with
        | none => rfl
        | some s =>
          simp only
          cases addCall s u.description with
          | none => rfl
          | some s => exact walk_bad hl hb hw' hm'

end Smack.Witness
