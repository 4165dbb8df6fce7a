/-
The graph made of a whole trace.
-/
import Verif.Witness.Walk

namespace Smack.Witness

open Smack.Driver Smack.Witness.Spec

variable {fp : List Char → Option (Nat × List Char)}

/-! ### Inputs -/

theorem subU_none : ∀ (s : List Char), '=' ∉ s → subU 0 s = s
  | [], _ => by rw [subU]
  | c :: s, h => by
    rw [subU, if_neg (by simpa using fun he : c = '=' => h (he ▸ List.mem_cons_self)), subU_none s fun hm => h (List.mem_cons_of_mem _ hm)]

theorem subU_skip : ∀ (a s : List Char), '=' ∉ a → subU 0 (a ++ s) = a ++ subU 0 s
  | [], s, _ => rfl
  | c :: a, s, h => by
    rw [List.cons_append, subU, if_neg (by simpa using fun he : c = '=' => h (he ▸ List.mem_cons_self)),
      subU_skip a s fun hm => h (List.mem_cons_of_mem _ hm), List.cons_append]

theorem bvHere_c {v : Value} (h : v.Wf) : bvHere v.c = none := by
  cases v with
  | int n d =>
    cases n with
    | false => simpa [Value.c] using bvHere_digits (d := d) h.2 [] (by simp)
    | true => exact bvHere_digits (d := []) (by simp) ('-' :: d) (by intro c t he; injection he with h1 h2; subst h1; decide)
  | bv d w => exact bvHere_digits h.1.2 ['U', 'L'] (by intro c t he; injection he with h1 h2; subst h1; decide)

theorem formatAssign_none {d : List Char} (h : '=' ∉ d) : formatAssign d = [] := by
  unfold formatAssign
  rw [splitLast_none fun hm => h ((List.takeWhile_sublist _).subset hm)]

theorem formatAssign_value {x : List Char} {v : Value} (hx : Name x) (hv : v.Wf) :
    formatAssign (x ++ " = ".toList ++ v.c) = x ++ ' ' :: '=' :: '=' :: ' ' :: v.c := by
  have hnl : ∀ c ∈ x ++ " = ".toList ++ v.c, (c != '\n') = true := by
    intro c hc
    simp only [bne_iff_ne]
    rintro rfl
    rcases List.mem_append.1 hc with hc | hc
    · rcases List.mem_append.1 hc with hc | hc
      · exact hx.blank _ hc (by unfold Blank; decide)
      · exact absurd hc (by decide)
    · exact not_mem_c hv (by decide) hc
  have hv' : '=' ∉ v.c := not_mem_c hv (by decide)
  have hx' : '=' ∉ x ++ [' '] := fun hm => by
    rcases List.mem_append.1 hm with hm | hm
    · exact hx.eq hm
    · exact absurd hm (by decide)
  have hv1 : '=' ∉ ' ' :: v.c := fun hm => by
    rcases List.mem_cons.1 hm with hm | hm
    · cases hm
    · exact hv' hm
  unfold formatAssign
  rw [takeWhile_all hnl, show x ++ " = ".toList ++ v.c = (x ++ [' ']) ++ '=' :: (' ' :: v.c) by simp, splitLast_append _ hv1]
  simp only
  rw [List.append_assoc, subU_skip _ _ hx']
  have e1 : subU 0 ("==".toList ++ ' ' :: v.c) = '=' :: subU 0 ('=' :: ' ' :: v.c) := by
    show subU 0 ('=' :: '=' :: ' ' :: v.c) = _
    rw [subU, if_pos (by decide), dropWhile_id (by decide),
      show bvHere ('=' :: ' ' :: v.c) = none from bvHere_digits (d := []) (by simp) _ (by intro c t he; injection he with h1 h2; subst h1; decide)]
  have e2 : subU 0 ('=' :: ' ' :: v.c) = '=' :: subU 0 (' ' :: v.c) := by
    obtain ⟨⟨c, s, hc, hw⟩, _⟩ := value_c_tight hv
    rw [subU, if_pos (by decide), List.dropWhile_cons, if_pos (by decide), hc, dropWhile_id hw, ← hc, bvHere_c hv]
  rw [e1, e2, subU_none _ hv1]
  simp

theorem cut_none : ∀ (s : List Char), '=' ∉ s → cut s = none
  | [], _ => rfl
  | c :: s, h => by
    rw [cut, show dropPrefix? "==".toList (c :: s) = none from no_prefix fun he => h (he ▸ List.mem_cons_self),
      cut_none s fun hm => h (List.mem_cons_of_mem _ hm)]
    rfl

theorem cut_append : ∀ (a r : List Char), '=' ∉ a → cut (a ++ '=' :: '=' :: r) = some (a, r)
  | [], r, _ => by
    rw [List.nil_append, cut, show dropPrefix? "==".toList ('=' :: '=' :: r) = some r from dropPrefix?_append "==".toList r]
  | c :: a, r, h => by
    rw [List.cons_append, cut, show dropPrefix? "==".toList (c :: (a ++ '=' :: '=' :: r)) = none from no_prefix fun he => h (he ▸ List.mem_cons_self),
      cut_append a r fun hm => h (List.mem_cons_of_mem _ hm)]
    rfl

theorem sides_value {x : List Char} {v : Value} (hx : Name x) (hv : v.Wf) :
    sides (x ++ ' ' :: '=' :: '=' :: ' ' :: v.c) = some (x ++ [' '], ' ' :: v.c) := by
  have hx' : '=' ∉ x ++ [' '] := fun hm => by
    rcases List.mem_append.1 hm with hm | hm
    · exact hx.eq hm
    · exact absurd hm (by decide)
  have hv1 : '=' ∉ ' ' :: v.c := fun hm => by
    rcases List.mem_cons.1 hm with hm | hm
    · cases hm
    · exact not_mem_c hv (by decide) hm
  unfold sides
  rw [show x ++ ' ' :: '=' :: '=' :: ' ' :: v.c = (x ++ [' ']) ++ '=' :: '=' :: (' ' :: v.c) by simp, cut_append _ _ hx']
  simp only
  rw [cut_none _ hv1]

theorem startsWith_iff (p s : List Char) : startsWith p s = true ↔ p <+: s := prefix_iff p s

/-- A prefix without a blank is a prefix of the first word. -/
theorem prefix_word {p x r : List Char} (hp : ' ' ∉ p) : p <+: x ++ ' ' :: r ↔ p <+: x := by
  constructor
  · intro h
    rcases List.prefix_append_right_inj [] |>.2 h |> fun h => h with ⟨t, ht⟩
    simp only [List.nil_append] at ht
    rcases List.append_eq_append_iff.1 ht with ⟨a, h1, h2⟩ | ⟨a, h1, h2⟩
    · exact ⟨a, h1.symm⟩
    · cases a with
      | nil => rw [List.append_nil] at h1; rw [h1]; exact List.prefix_refl _
      | cons c a =>
        injection h2 with h2 _
        subst h2
        exact absurd (by rw [h1]; simp) hp
  · intro h
    exact h.trans (List.prefix_append _ _)

theorem addInput_other {st : St} {t : Step} (h : '=' ∉ t.description) : addInput st t = some st := by
  unfold addInput
  rw [formatAssign_none h]
  rfl

theorem addInput_value {st : St} {t : Step} {x : List Char} {v : Value} (hx : Name x) (hv : v.Wf) (ht : t.description = x ++ " = ".toList ++ v.c)
    (h : ¬ inputName <+: x) : addInput st t = some st := by
  unfold addInput
  rw [ht, formatAssign_value hx hv]
  simp only
  rw [if_neg]
  rw [startsWith_iff]
  intro hp
  exact h ((prefix_word (p := inputName) (by decide)).1 hp)

/-- The graph with one more input. -/
def grow (st : St) (i : In) : St :=
  { nodes := st.nodes ++ [st.nodes.length], violation := st.violation, edges := st.edges ++ [⟨st.last, st.nodes.length, i.line, (i.edge 0).input⟩],
    last := st.nodes.length, stack := st.stack }

theorem scope_iff (f s : List Char) : Scope f s ↔ (if f.contains '.' then f.takeWhile (· != '.') else f) = s := by
  constructor
  · rintro (⟨h, rfl⟩ | ⟨r, rfl, h⟩)
    · rw [if_neg (by simpa using h)]
    · rw [if_pos (by simp), takeWhile_append_stop (by
        intro c hc; simp only [bne_iff_ne]; rintro rfl; exact h hc) (.inr ⟨'.', r, rfl, by decide⟩)]
  · intro h
    by_cases hd : '.' ∈ f
    · rw [if_pos (by simpa using hd)] at h
      right
      have hn : '.' ∉ s := by
        intro hm
        rw [← h] at hm
        exact absurd (List.all_eq_true.1 (List.all_takeWhile (p := (· != '.')) (l := f)) _ hm) (by decide)
      cases hr : f.dropWhile (· != '.') with
      | nil =>
        have := List.takeWhile_append_dropWhile (p := (· != '.')) (l := f)
        rw [hr, h, List.append_nil] at this
        exact absurd (this ▸ hd) hn
      | cons c r =>
        have h1 := List.takeWhile_append_dropWhile (p := (· != '.')) (l := f)
        have hc : c = '.' := by
          have := List.head?_dropWhile_not (· != '.') f
          rw [hr] at this
          simpa using this
        rw [hr, h, hc] at h1
        exact ⟨r, h1.symm, hn⟩
    · rw [if_neg (by simpa using hd)] at h
      exact .inl ⟨hd, h.symm⟩

theorem addInput_input {st st' : St} {t : Step} {y : List Char} {v : Value} (hx : Name (inputName ++ y)) (hv : v.Wf)
    (ht : t.description = (inputName ++ y) ++ " = ".toList ++ v.c) :
    addInput st t = some st' ↔ ∃ f s sc, st.stack = f :: s ∧ Scope f sc ∧ st' = grow st ⟨t.line, y, v, sc⟩ := by
  unfold addInput
  rw [ht, formatAssign_value hx hv]
  simp only
  have hst : startsWith "smack:ext:__VERIFIER_nondet".toList (inputName ++ y ++ ' ' :: '=' :: '=' :: ' ' :: v.c) = true :=
    (startsWith_iff _ _).2 ((List.prefix_append inputName y).trans (List.prefix_append _ _))
  rw [if_pos hst, sides_value hx hv]
  cases hs : st.stack with
  | nil =>
    simp only
    constructor
    · intro h; cases h
    · rintro ⟨f, s, sc, h, _⟩; cases h
  | cons f s =>
    simp only
    rw [strip_snoc (name_tight hx) (by decide), strip_cons (by decide), strip_tight (value_c_tight hv)]
    have hd : (inputName ++ y).drop 10 = "__VERIFIER_nondet".toList ++ y := rfl
    rw [hd]
    constructor
    · intro h
      simp only [Option.some.injEq] at h
      exact ⟨f, s, _, rfl, (scope_iff f _).2 rfl, by rw [← h]; simp [grow, addStep, In.edge]⟩
    · rintro ⟨g, u, sc, h1, h2, rfl⟩
      injection h1 with h1 h1'
      subst h1
      rw [(scope_iff _ _).1 h2]
      simp [grow, addStep, In.edge]

/-! ### Calls -/

theorem not_init {f : List Char} (h : ¬ Own f) : isInit f = false := by
  unfold isInit
  rw [Bool.or_eq_false_iff, Bool.or_eq_false_iff]
  refine ⟨⟨?_, ?_⟩, ?_⟩ <;> rw [beq_eq_false_iff_ne] <;> rintro rfl <;> exact h (by decide)

theorem ignored_iff {f : List Char} (h : ¬ Own f) : (startsWith "devirtbounce".toList f || isInit f) = true ↔ Ignored f := by
  rw [not_init h, Bool.or_false, startsWith_iff]
  exact ⟨.inr, fun h' => h'.resolve_left h⟩

theorem no_return {s : List Char} (h : ' ' ∉ s) : ¬ Occurs "RETURN from".toList s := not_occurs_of_char ' ' (by decide) h

theorem addCall_call {st : St} {f : List Char} (h : Name f) (ho : ¬ Own f) :
    addCall st ("CALL ".toList ++ f) = some (if "devirtbounce".toList <+: f then st else { st with stack := f :: st.stack }) := by
  have hc : hasSub "CALL".toList ("CALL ".toList ++ f) = true := (hasSub_iff _ _).2 ⟨[], ' ' :: f, rfl⟩
  have hr : hasSub "RETURN from".toList ("CALL ".toList ++ f) = false := hasSub_false fun hh => by
    have h1 := occurs_trans (p := "RETURN".toList) ⟨[], " from".toList, rfl⟩ hh
    rw [show "CALL ".toList ++ f = "CALL".toList ++ ' ' :: f from rfl] at h1
    have h2 : Occurs (' ' :: "from".toList) ("CALL ".toList ++ f) := occurs_trans ⟨"RETURN".toList, [], rfl⟩ hh
    have h3 : Occurs ('R' :: "ETURN from".toList) f := occurs_skip (x := "CALL ".toList) (y := f) rfl (by decide) hh
    exact no_return (name_space h) h3
  unfold addCall
  simp only [hc, hr, Bool.false_eq_true, if_false, if_true]
  rw [show ("CALL ".toList ++ f).drop 5 = f from rfl, strip_tight (name_tight h)]
  by_cases hd : "devirtbounce".toList <+: f
  · rw [if_pos ((ignored_iff ho).2 (.inr hd)), if_pos hd]
  · rw [if_neg (fun hh => ((ignored_iff ho).1 hh).elim ho hd), if_neg hd]

theorem addCall_ret {st : St} {f : List Char} (h : Name f) (ho : ¬ Own f) :
    addCall st ("RETURN from ".toList ++ f) = if "devirtbounce".toList <+: f then some st else
      match st.stack with
      | g :: rest => if f == g then some { st with stack := rest } else none
      | [] => none := by
  have hc : hasSub "CALL".toList ("RETURN from ".toList ++ f) = false := hasSub_false fun hh =>
    h.call (occurs_skip (x := "RETURN from ".toList) (y := f) rfl (by decide) hh)
  have hr : hasSub "RETURN from".toList ("RETURN from ".toList ++ f) = true := (hasSub_iff _ _).2 ⟨[], ' ' :: f, rfl⟩
  unfold addCall
  simp only [hc, hr, Bool.false_eq_true, if_false, if_true]
  rw [show ("RETURN from ".toList ++ f).drop 12 = f from rfl, strip_tight (name_tight h)]
  by_cases hd : "devirtbounce".toList <+: f
  · rw [if_pos ((ignored_iff ho).2 (.inr hd)), if_pos hd]
  · rw [if_neg (fun hh => ((ignored_iff ho).1 hh).elim ho hd), if_neg hd]
    rfl

theorem addCall_value {st : St} {x : List Char} {v : Value} (hx : Name x) (hv : v.Wf) : addCall st (x ++ " = ".toList ++ v.c) = some st := by
  have hc : hasSub "CALL".toList (x ++ " = ".toList ++ v.c) = false := hasSub_false fun hh => by
    rcases occurs_eq (by decide) (by decide) (by decide) hh with h1 | h1
    · exact hx.call h1
    · exact not_occurs_of_char 'C' (by decide) (not_mem_c hv (by decide)) h1
  have hr : hasSub "RETURN from".toList (x ++ " = ".toList ++ v.c) = false := hasSub_false fun ho => by
    have h1 : Occurs (' ' :: ['f']) (x ++ " = ".toList ++ v.c) := occurs_trans ⟨"RETURN".toList, "rom".toList, by decide⟩ ho
    have h2 := occurs_skip (x := x) (y := ' ' :: '=' :: ' ' :: v.c) eq_sep (name_space hx) h1
    exact not_occurs_of_char 'f' (by decide) (by
      intro hm
      simp only [List.mem_cons] at hm
      rcases hm with hm | hm | hm | hm
      · cases hm
      · cases hm
      · cases hm
      · exact not_mem_c hv (by decide) hm) h2
  unfold addCall
  simp only [hc, hr, Bool.false_eq_true, if_false]

/-! ### Whole traces -/

theorem library_iff (file : List Char) : inSmackLib file = true ↔ OfLibrary file := by
  constructor
  · intro h
    unfold inSmackLib at h
    split at h
    · rename_i e x rest he
      rw [Bool.and_eq_true, hasSub_iff] at h
      obtain ⟨h1, a, b, h2⟩ := h
      rw [List.reverse_cons, List.dropLast_concat] at h2
      refine ⟨a, b ++ [x], e, ?_, by simp, ?_⟩
      · rw [← List.reverse_reverse file, he]
        simp [h2]
      · simpa [or_assoc] using h1
    · cases h
  · rintro ⟨a, b, e, rfl, hb, he⟩
    obtain ⟨b', x, rfl⟩ := (nil_or_snoc b).resolve_left hb
    have hr : (a ++ "/smack/lib/".toList ++ (b' ++ [x]) ++ ['.', e]).reverse = e :: '.' :: x :: (a ++ "/smack/lib/".toList ++ b').reverse := by simp
    unfold inSmackLib
    rw [hr]
    simp only
    rw [Bool.and_eq_true, hasSub_iff]
    refine ⟨by simpa [or_assoc] using he, a, b', ?_⟩
    rw [List.reverse_cons, List.dropLast_concat, List.reverse_reverse]

theorem walk_user {fail : Option (List Char × Nat × Nat)} {t : Step} {ts : List Step} {st : St} (hw : ¬ Occurs word t.description)
    (hl : ¬ OfLibrary t.file) : walk fail (t :: ts) st = (addInput st t).bind fun st => (addCall st t.description).bind (walk fail ts) := by
  have hno : hasSub "ASSERTION FAILS".toList t.description = false :=
    hasSub_false fun ho => hw (occurs_trans ⟨[], " FAILS".toList, by decide⟩ ho)
  have hl' : inSmackLib t.file = false := by rw [← Bool.not_eq_true, library_iff]; exact hl
  rw [walk.eq_def]
  simp only [hno, hl', Bool.false_eq_true, if_false]
  cases addInput st t with
  | none => rfl
  | some s =>
    simp only [Option.bind_some]
    cases addCall s t.description <;> rfl

theorem walk_lib {fail : Option (List Char × Nat × Nat)} : ∀ {ts rest : List Step} {st : St}, (∀ t ∈ ts, ¬ Occurs word t.description ∧ OfLibrary t.file) →
    walk fail (ts ++ rest) st = walk fail rest st
  | [], _, _, _ => rfl
  | t :: ts, rest, st, h => by
    obtain ⟨hw, hl⟩ := h t List.mem_cons_self
    have hno : hasSub "ASSERTION FAILS".toList t.description = false :=
      hasSub_false fun ho => hw (occurs_trans ⟨[], " FAILS".toList, by decide⟩ ho)
    rw [List.cons_append, walk.eq_def]
    simp only [hno, (library_iff _).2 hl, Bool.false_eq_true, if_false, if_true]
    exact walk_lib fun t ht => h t (List.mem_cons_of_mem _ ht)

/-- The graph with more inputs. -/
def result (st : St) (s : List (List Char)) (is : List In) : St := { is.foldl grow st with stack := s }

theorem grow_stack (is : List In) : ∀ (st : St) (s : List (List Char)), is.foldl grow { st with stack := s } = { is.foldl grow st with stack := s } := by
  induction is with
  | nil => intro st s; rfl
  | cons i is ih => intro st s; rw [List.foldl_cons, List.foldl_cons, ← ih]; rfl

theorem grow_keeps (is : List In) : ∀ (st : St), (is.foldl grow st).stack = st.stack := by
  induction is with
  | nil => intro st; rfl
  | cons i is ih => intro st; rw [List.foldl_cons, ih]; rfl

theorem result_nil (st : St) : result st st.stack [] = st := rfl

theorem result_stack (st : St) (s s' : List (List Char)) (is : List In) : result { st with stack := s } s' is = result st s' is := by
  unfold result; rw [grow_stack]

theorem result_result (st : St) (s s' : List (List Char)) (is js : List In) : result (result st s is) s' js = result st s' (is ++ js) := by
  rw [result, result, grow_stack]
  simp [result, List.foldl_append]

theorem evStep_word {l : Ln} {e : Ev} {t : Step} (h : e.Wf) (ht : evStep l e = some t) : ¬ Occurs word t.description ∧ t.file = l.file ∧ t.line = l.line := by
  unfold evStep at ht
  cases e with
  | call f =>
    unfold Ev.shown at ht
    by_cases ho : Own f
    · simp only [ho, if_true, Option.map_none] at ht; cases ht
    · simp only [ho, if_false] at ht
      simp only [Option.map_some, Option.some.injEq] at ht
      subst ht
      exact ⟨word_text (e := .call f) h, rfl, rfl⟩
  | ret f =>
    unfold Ev.shown at ht
    by_cases ho : Own f
    · simp only [ho, if_true, Option.map_none] at ht; cases ht
    · simp only [ho, if_false] at ht
      simp only [Option.map_some, Option.some.injEq] at ht
      subst ht
      have hh : ¬ Occurs word (Ev.ret f).text := word_text h
      have ht : Occurs ("RETURN from ".toList ++ f) (Ev.ret f).text := ⟨[], [' '], by unfold Ev.text; simp only [List.nil_append]⟩
      exact ⟨fun ho => hh (occurs_trans ho ht), rfl, rfl⟩
  | value x v =>
    simp only [Ev.shown, Option.map_some, Option.some.injEq] at ht
    subst ht
    refine ⟨fun ho => ?_, rfl, rfl⟩
    rcases occurs_eq (by decide) (by decide) (by decide) ho with h1 | h1
    · exact h.1.assertion h1
    · exact not_occurs_of_char 'S' (by decide) (not_mem_c h.2 (by decide)) h1
  | done => cases ht

theorem walks_value {s s' : List (List Char)} {l : Nat} {x : List Char} {v : Value} {es : List (Nat × Ev)} {is : List In}
    (h : Walks s ((l, .value x v) :: es) s' is) : (¬ inputName <+: x ∧ Walks s es s' is) ∨
      ∃ f r y sc is', s = f :: r ∧ x = inputName ++ y ∧ is = ⟨l, y, v, sc⟩ :: is' ∧ Scope f sc ∧ Walks (f :: r) es s' is' := by
  generalize hL : ((l, Ev.value x v) :: es) = L at h
  cases h <;> simp only [List.cons.injEq, Prod.mk.injEq, Ev.value.injEq, reduceCtorEq, and_false, false_and] at hL
  · obtain ⟨⟨rfl, rfl, rfl⟩, rfl⟩ := hL
    exact .inl ⟨by assumption, by assumption⟩
  · obtain ⟨⟨rfl, rfl, rfl⟩, rfl⟩ := hL
    exact .inr ⟨_, _, _, _, _, rfl, rfl, rfl, by assumption, by assumption⟩

theorem walk_evs {fail : Option (List Char × Nat × Nat)} {l : Ln} (hl : ¬ OfLibrary l.file) {rest : List Step} {st' : St} :
    ∀ {evs : List Ev} {st : St}, (∀ e ∈ evs, e.Wf) →
    (walk fail (evs.filterMap (evStep l) ++ rest) st = some st' ↔
      ∃ s' is, Walks st.stack (evs.map fun e => (l.line, e)) s' is ∧ walk fail rest (result st s' is) = some st')
  | [], st, _ => by
    constructor
    · intro h; exact ⟨st.stack, [], .nil _, h⟩
    · rintro ⟨s', is, h1, h2⟩
      generalize hsk : st.stack = sk at h1
      cases h1
      rw [← hsk] at h2
      exact h2
  | e :: evs, st, hwf => by
    have hwf' : ∀ e ∈ evs, e.Wf := fun e he => hwf e (List.mem_cons_of_mem _ he)
    have he := hwf e List.mem_cons_self
    have ih := fun st : St => walk_evs (fail := fail) hl (rest := rest) (st' := st') (st := st) hwf'
    rw [List.map_cons, List.filterMap_cons]
    cases e with
    | done =>
      show walk fail (evs.filterMap (evStep l) ++ rest) st = some st' ↔ _
      rw [ih]
      constructor
      · rintro ⟨s', is, h1, h2⟩; exact ⟨s', is, .done _ _ _ _ _ h1, h2⟩
      · rintro ⟨s', is, h1, h2⟩
        generalize st.stack = sk at h1 ⊢
        cases h1 with
        | done _ _ _ _ _ h => exact ⟨s', is, h, h2⟩
    | call f =>
      by_cases ho : Own f
      · rw [show evStep l (.call f) = none by unfold evStep Ev.shown; simp [ho]]
        show walk fail (evs.filterMap (evStep l) ++ rest) st = some st' ↔ _
        rw [ih]
        constructor
        · rintro ⟨s', is, h1, h2⟩; exact ⟨s', is, .callIgnored _ _ _ _ _ _ (.inl ho) h1, h2⟩
        · rintro ⟨s', is, h1, h2⟩
          generalize st.stack = sk at h1 ⊢
          cases h1 with
          | call _ _ _ _ _ _ hn _ => exact absurd (.inl ho) hn
          | callIgnored _ _ _ _ _ _ _ h => exact ⟨s', is, h, h2⟩
      · have hs : evStep l (.call f) = some ⟨l.thread, l.file, l.line, l.column, "CALL ".toList ++ f, []⟩ := by
          unfold evStep Ev.shown; simp [ho, Ev.isValue]
        have hw := (evStep_word he hs).1
        rw [hs]
        simp only [List.cons_append]
        rw [walk_user hw hl, addInput_other (by
          show '=' ∉ "CALL ".toList ++ f
          intro hm
          rcases List.mem_append.1 hm with hm | hm
          · exact absurd hm (by decide)
          · exact Name.eq he hm), Option.bind_some, addCall_call he ho, Option.bind_some, ih]
        by_cases hd : "devirtbounce".toList <+: f
        · rw [if_pos hd]
          constructor
          · rintro ⟨s', is, h1, h2⟩; exact ⟨s', is, .callIgnored _ _ _ _ _ _ (.inr hd) h1, h2⟩
          · rintro ⟨s', is, h1, h2⟩
            generalize st.stack = sk at h1 ⊢
            cases h1 with
            | call _ _ _ _ _ _ hn _ => exact absurd (.inr hd) hn
            | callIgnored _ _ _ _ _ _ _ h => exact ⟨s', is, h, h2⟩
        · rw [if_neg hd]
          simp only [result_stack]
          constructor
          · rintro ⟨s', is, h1, h2⟩; exact ⟨s', is, .call _ _ _ _ _ _ (fun h => h.elim ho hd) h1, h2⟩
          · rintro ⟨s', is, h1, h2⟩
            generalize st.stack = sk at h1 ⊢
            cases h1 with
            | call _ _ _ _ _ _ _ h => exact ⟨s', is, h, h2⟩
            | callIgnored _ _ _ _ _ _ hi _ => exact (hi.elim ho hd).elim
    | ret f =>
      by_cases ho : Own f
      · rw [show evStep l (.ret f) = none by unfold evStep Ev.shown; simp [ho]]
        show walk fail (evs.filterMap (evStep l) ++ rest) st = some st' ↔ _
        rw [ih]
        constructor
        · rintro ⟨s', is, h1, h2⟩; exact ⟨s', is, .retIgnored _ _ _ _ _ _ (.inl ho) h1, h2⟩
        · rintro ⟨s', is, h1, h2⟩
          generalize st.stack = sk at h1 ⊢
          cases h1 with
          | ret _ _ _ _ _ _ hn _ => exact absurd (.inl ho) hn
          | retIgnored _ _ _ _ _ _ _ h => exact ⟨s', is, h, h2⟩
      · have hs : evStep l (.ret f) = some ⟨l.thread, l.file, l.line, l.column, "RETURN from ".toList ++ f, []⟩ := by
          unfold evStep Ev.shown; simp [ho, Ev.isValue]
        have hw := (evStep_word he hs).1
        rw [hs]
        simp only [List.cons_append]
        rw [walk_user hw hl, addInput_other (by
          show '=' ∉ "RETURN from ".toList ++ f
          intro hm
          rcases List.mem_append.1 hm with hm | hm
          · exact absurd hm (by decide)
          · exact Name.eq he hm), Option.bind_some, addCall_ret he ho]
        by_cases hd : "devirtbounce".toList <+: f
        · rw [if_pos hd, Option.bind_some, ih]
          constructor
          · rintro ⟨s', is, h1, h2⟩; exact ⟨s', is, .retIgnored _ _ _ _ _ _ (.inr hd) h1, h2⟩
          · rintro ⟨s', is, h1, h2⟩
            generalize st.stack = sk at h1 ⊢
            cases h1 with
            | ret _ _ _ _ _ _ hn _ => exact absurd (.inr hd) hn
            | retIgnored _ _ _ _ _ _ _ h => exact ⟨s', is, h, h2⟩
        · rw [if_neg hd]
          cases hsk : st.stack with
          | nil =>
            simp only [Option.bind_none]
            constructor
            · intro h; cases h
            · rintro ⟨s', is, h1, h2⟩
              cases h1 with
              | retIgnored _ _ _ _ _ _ hi _ => exact (hi.elim ho hd).elim
          | cons g sk =>
            simp only
            by_cases hfg : f = g
            · subst hfg
              rw [if_pos (by simp), Option.bind_some, ih]
              simp only [result_stack]
              constructor
              · rintro ⟨s', is, h1, h2⟩; exact ⟨s', is, .ret _ _ _ _ _ _ (fun h => h.elim ho hd) h1, h2⟩
              · rintro ⟨s', is, h1, h2⟩
                cases h1 with
                | ret _ _ _ _ _ _ _ h => exact ⟨s', is, h, h2⟩
                | retIgnored _ _ _ _ _ _ hi _ => exact (hi.elim ho hd).elim
            · rw [if_neg (by simpa using hfg), Option.bind_none]
              constructor
              · intro h; cases h
              · rintro ⟨s', is, h1, h2⟩
                cases h1 with
                | ret _ _ _ _ _ _ _ h => exact absurd rfl hfg
                | retIgnored _ _ _ _ _ _ hi _ => exact (hi.elim ho hd).elim
    | value x v =>
      have hs : evStep l (.value x v) = some ⟨l.thread, l.file, l.line, l.column, x ++ " = ".toList ++ v.c, x ++ " = ".toList ++ v.c⟩ := rfl
      have hw := (evStep_word he hs).1
      rw [hs]
      simp only [List.cons_append]
      rw [walk_user hw hl]
      by_cases hi : inputName <+: x
      · obtain ⟨y, rfl⟩ := hi
        constructor
        · intro h
          cases ha : addInput st ⟨l.thread, l.file, l.line, l.column, (inputName ++ y) ++ " = ".toList ++ v.c, (inputName ++ y) ++ " = ".toList ++ v.c⟩ with
          | none => rw [ha] at h; cases h
          | some st1 =>
            rw [ha, Option.bind_some] at h
            obtain ⟨f, s, sc, h1, h2, rfl⟩ := (addInput_input he.1 he.2 rfl).1 ha
            rw [addCall_value he.1 he.2, Option.bind_some, ih] at h
            obtain ⟨s', is, h3, h4⟩ := h
            have h3' : Walks (f :: s) (evs.map fun e => (l.line, e)) s' is := by rw [← h1]; exact h3
            refine ⟨s', ⟨l.line, y, v, sc⟩ :: is, ?_, h4⟩
            rw [h1]
            exact .input s l.line f y v sc _ s' is h2 h3'
        · rintro ⟨s', is, h1, h2⟩
          rcases walks_value h1 with ⟨hn, _⟩ | ⟨f, s, y', sc, is', hsk, hy, rfl, hsc, h⟩
          · exact absurd ⟨y, rfl⟩ hn
          · obtain rfl : y' = y := (List.append_cancel_left hy).symm
            rw [(addInput_input (st' := grow st ⟨l.line, y', v, sc⟩) he.1 he.2 rfl).2 ⟨f, s, sc, hsk, hsc, rfl⟩, Option.bind_some,
              addCall_value he.1 he.2, Option.bind_some, ih]
            exact ⟨s', is', by show Walks st.stack _ _ _; rw [hsk]; exact h, h2⟩
      · rw [addInput_value he.1 he.2 rfl hi, Option.bind_some, addCall_value he.1 he.2, Option.bind_some, ih]
        constructor
        · rintro ⟨s', is, h1, h2⟩; exact ⟨s', is, .value _ _ _ _ _ _ _ hi h1, h2⟩
        · rintro ⟨s', is, h1, h2⟩
          rcases walks_value h1 with ⟨_, h⟩ | ⟨f, s, y', sc, is', hsk, hy, rfl, hsc, h⟩
          · exact ⟨s', is, h, h2⟩
          · exact absurd ⟨y', hy.symm⟩ hi

end Smack.Witness
