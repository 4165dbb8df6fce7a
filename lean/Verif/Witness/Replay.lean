/-
The values for the replay.
-/
import Verif.Witness.Text

namespace Smack.Witness

open Smack.Driver Smack.Witness.Spec

/-! ### One line -/

theorem keyVal_none : ∀ (a post : List Char), '=' ∉ a → ')' ∉ post → keyVal (a ++ post) = none
  | [], post, _, hp => by
    rw [List.nil_append]
    induction post with
    | nil => rfl
    | cons c s ih =>
      rw [keyVal, ih fun hm => hp (List.mem_cons_of_mem _ hm)]
      simp only
      cases hd : dropPrefix? " = ".toList (c :: s) with
      | none => rfl
      | some y =>
        have := (dropPrefix?_iff _ _ _).1 hd
        simp only
        rw [splitLast_none (fun hm => hp (by rw [this]; exact List.mem_append_right _ hm))]
        rfl
  | c :: a, post, h, hp => by
    rw [List.cons_append, keyVal, keyVal_none a post (fun hm => h (List.mem_cons_of_mem _ hm)) hp]
    simp only
    cases hd : dropPrefix? " = ".toList (c :: (a ++ post)) with
    | none => rfl
    | some y =>
      have he : c :: (a ++ post) = ' ' :: '=' :: ' ' :: y := (dropPrefix?_iff _ _ _).1 hd
      injection he with h1 h2
      cases a with
      | nil =>
        have : ')' ∉ y := fun hm => hp (by rw [show post = '=' :: ' ' :: y from h2]; exact List.mem_cons_of_mem _ (List.mem_cons_of_mem _ hm))
        simp only
        rw [splitLast_none this]
        rfl
      | cons d a =>
        injection h2 with h2 _
        exact absurd (by rw [h2]; simp) h

theorem keyVal_line (k v post : List Char) (hv : '=' ∉ v) (hp : ')' ∉ post) : keyVal (k ++ " = ".toList ++ v ++ ")".toList ++ post) = some (k, v) := by
  induction k with
  | nil =>
    show keyVal (' ' :: '=' :: ' ' :: (v ++ ")".toList ++ post)) = _
    have h1 : keyVal (' ' :: (v ++ ")".toList ++ post)) = none := by
      refine keyVal_none (' ' :: (v ++ ")".toList)) post (fun hm => ?_) hp
      rcases List.mem_cons.1 hm with hm | hm
      · cases hm
      · rcases List.mem_append.1 hm with hm | hm
        · exact hv hm
        · exact absurd hm (by decide)
    have h2 : keyVal ('=' :: ' ' :: (v ++ ")".toList ++ post)) = none := by
      rw [keyVal, h1]
      rfl
    rw [keyVal, h2, show dropPrefix? " = ".toList (' ' :: '=' :: ' ' :: (v ++ ")".toList ++ post)) = some (v ++ ")".toList ++ post) from
      dropPrefix?_append " = ".toList _]
    simp only
    rw [show v ++ ")".toList ++ post = v ++ ')' :: post by simp, splitLast_append v hp]
    rfl
  | cons c k ih =>
    rw [List.cons_append, List.cons_append, List.cons_append, List.cons_append, keyVal, ih]

theorem extract_none : ∀ (a post : List Char), '(' ∉ a → ')' ∉ post → extract (a ++ post) = none
  | [], post, _, hp => by
    rw [List.nil_append]
    induction post with
    | nil => rfl
    | cons c s ih =>
      rw [extract, ih fun hm => hp (List.mem_cons_of_mem _ hm)]
      simp only
      split
      · cases hd : dropPrefix? "smack:".toList s with
        | none => rfl
        | some r =>
          have := (dropPrefix?_iff _ _ _).1 hd
          simp only
          rw [show keyVal r = none from keyVal_none [] r (by simp) fun hm => hp (List.mem_cons_of_mem _ (by rw [this]; exact List.mem_append_right _ hm))]
          rfl
      · rfl
  | c :: a, post, h, hp => by
    rw [List.cons_append, extract, extract_none a post (fun hm => h (List.mem_cons_of_mem _ hm)) hp]
    simp only
    rw [if_neg (by simpa using fun he : c = '(' => h (he ▸ List.mem_cons_self))]

theorem extract_plain : ∀ (s : List Char), ¬ Occurs "(smack:".toList s → extract s = none
  | [], _ => rfl
  | c :: s, h => by
    rw [extract, extract_plain s fun ho => h (occurs_trans ho ⟨[c], [], by simp⟩)]
    simp only
    split
    · rename_i hc
      rw [dropPrefix?_none fun r he => h ⟨[], r, by rw [he, eq_of_beq hc]; rfl⟩]
    · rfl

theorem extract_pre (pre s : List Char) {p : List Char × List Char} (h : extract s = some p) : extract (pre ++ s) = some p := by
  induction pre with
  | nil => exact h
  | cons c pre ih => rw [List.cons_append, extract, ih]

theorem extract_line (pre k v post : List Char) (hk : '(' ∉ k) (hv : '(' ∉ v) (he : '=' ∉ v) (hp : ')' ∉ post) :
    extract (pre ++ "(".toList ++ ("smack:".toList ++ k) ++ " = ".toList ++ v ++ ")".toList ++ post) = some ("smack:".toList ++ k, v) := by
  have e : pre ++ "(".toList ++ ("smack:".toList ++ k) ++ " = ".toList ++ v ++ ")".toList ++ post =
      pre ++ '(' :: ("smack:".toList ++ (k ++ " = ".toList ++ v ++ ")".toList ++ post)) := by simp
  rw [e]
  refine extract_pre pre _ ?_
  have hn : extract ("smack:".toList ++ (k ++ " = ".toList ++ v ++ ")".toList ++ post)) = none := by
    have := extract_none ("smack:".toList ++ (k ++ " = ".toList ++ v ++ ")".toList)) post (by
      intro hm
      rcases List.mem_append.1 hm with hm | hm
      · exact absurd hm (by decide)
      · rcases List.mem_append.1 hm with hm | hm
        · rcases List.mem_append.1 hm with hm | hm
          · rcases List.mem_append.1 hm with hm | hm
            · exact hk hm
            · exact absurd hm (by decide)
          · exact hv hm
        · exact absurd hm (by decide)) hp
    rw [← this, ← List.append_assoc]
  rw [extract, hn]
  simp only
  rw [if_pos (by decide), dropPrefix?_append]
  simp only
  rw [keyVal_line k v post he hp]
  rfl

/-! ### Keys -/

/-- Where a pattern with a separator occurs in a text with separators. -/
theorem occurs_colon {p q a b : List Char} {c : Char} (hp : c ∉ p) (ha : c ∉ a) (h : Occurs (p ++ c :: q) (a ++ c :: b)) :
    ((∃ r, a = r ++ p) ∧ ∃ r, b = q ++ r) ∨ Occurs (p ++ c :: q) b := by
  obtain ⟨x, y, h⟩ := h
  have hx : x ++ (p ++ c :: q) ++ y = (x ++ p) ++ c :: (q ++ y) := by simp
  rw [hx] at h
  rcases List.append_eq_append_iff.1 h.symm with ⟨u, h1, h2⟩ | ⟨u, h1, h2⟩
  · cases u with
    | nil =>
      rw [List.append_nil] at h1
      rw [List.nil_append] at h2
      injection h2 with _ h2
      exact .inl ⟨⟨x, h1⟩, ⟨y, h2.symm⟩⟩
    | cons d u =>
      injection h2 with h2 _
      exact absurd (by rw [h1, ← h2]; simp) ha
  · cases u with
    | nil =>
      rw [List.append_nil] at h1
      rw [List.nil_append] at h2
      injection h2 with _ h2
      exact .inl ⟨⟨x, h1.symm⟩, ⟨y, h2⟩⟩
    | cons d u =>
      injection h2 with h2 h3
      right
      -- the separator of the text lies in `x`
      rcases List.append_eq_append_iff.1 h1 with ⟨w, h4, h5⟩ | ⟨w, h4, h5⟩
      · cases w with
        | nil =>
          rw [List.nil_append] at h5
          cases p with
          | nil => cases h5
          | cons e p =>
            injection h5 with h5 _
            exact absurd (by rw [h5, ← h2]; simp) hp
        | cons e w =>
          exact absurd (by rw [h5, ← h2]; simp) hp
      · cases w with
        | nil =>
          rw [List.nil_append] at h5
          exact absurd (by rw [← h5, ← h2]; simp) hp
        | cons e w =>
          rw [List.cons_append] at h5
          injection h5 with h5 h6
          exact ⟨w, y, by rw [h3, h6]; simp⟩

theorem split3 {k f : List Char} (hk : ':' ∉ k) (hf : ':' ∉ f) : splitOn ':' ("smack:".toList ++ (k ++ ':' :: f)) = ["smack".toList, k, f] := by
  rw [show "smack:".toList ++ (k ++ ':' :: f) = "smack".toList ++ ':' :: (k ++ ':' :: f) from rfl, splitOn_cons (by decide), splitOn_cons hk, splitOn_none hf]

theorem split4 {k f x : List Char} (hk : ':' ∉ k) (hf : ':' ∉ f) (hx : ':' ∉ x) :
    splitOn ':' ("smack:".toList ++ (k ++ ':' :: (f ++ ':' :: x))) = ["smack".toList, k, f, x] := by
  rw [show "smack:".toList ++ (k ++ ':' :: (f ++ ':' :: x)) = "smack".toList ++ ':' :: (k ++ ':' :: (f ++ ':' :: x)) from rfl,
    splitOn_cons (by decide), splitOn_cons hk, splitOn_cons hf, splitOn_none hx]

/-- A key of another kind. -/
theorem not_kind {q k rest : List Char} (hk : ':' ∉ k) (h1 : ∀ r, k ++ ':' :: rest ≠ (q ++ [':']) ++ r) (h2 : ∀ r, k ≠ r ++ "smack".toList)
    (h3 : ¬ Occurs ("smack".toList ++ ':' :: (q ++ [':'])) rest) :
    hasSub ("smack".toList ++ ':' :: (q ++ [':'])) ("smack:".toList ++ (k ++ ':' :: rest)) = false := by
  refine hasSub_false fun ho => ?_
  rw [show "smack:".toList ++ (k ++ ':' :: rest) = "smack".toList ++ ':' :: (k ++ ':' :: rest) from rfl] at ho
  rcases occurs_colon (by decide) (by decide) ho with ⟨_, r, hr⟩ | ho
  · exact h1 r hr
  · rcases occurs_colon (by decide) hk ho with ⟨⟨r, hr⟩, _⟩ | ho
    · exact h2 r hr
    · exact h3 ho

theorem no_colon {q f : List Char} (hf : ':' ∉ f) : ¬ Occurs ("smack".toList ++ ':' :: q) f :=
  not_occurs_of_char ':' (by simp) hf

theorem no_colon2 {q f x : List Char} (hf : ':' ∉ f) (hx : ':' ∉ x) : ¬ Occurs ("smack".toList ++ ':' :: (q ++ [':'])) (f ++ ':' :: x) := fun ho => by
  rcases occurs_colon (by decide) hf ho with ⟨_, r, hr⟩ | ho
  · exact hx (by rw [hr]; simp)
  · exact no_colon hx ho

theorem suffix_length {k p : List Char} (h : k.length < p.length) : ∀ r, k ≠ r ++ p := fun r he => by
  have := congrArg List.length he
  simp at this
  omega

theorem addValue_entry (st : Values) {f v : List Char} (hf : ':' ∉ f) :
    addValue st (Rec.entry f v).key v = some { st with arguments := st.arguments.set f [] } := by
  have h1 : hasSub "smack:entry:".toList (Rec.entry f v).key = true := (hasSub_iff _ _).2 ⟨[], f, rfl⟩
  have h2 : splitOn ':' (Rec.entry f v).key = ["smack".toList, "entry".toList, f] := split3 (k := "entry".toList) (by decide) hf
  unfold addValue
  rw [h1, h2]
  rfl

theorem addValue_arg (st : Values) {f x v : List Char} (hf : ':' ∉ f) (hx : ':' ∉ x) :
    addValue st (Rec.arg f x v).key v = match st.arguments.lookup f with
      | some vs => some { st with arguments := st.arguments.set f (vs ++ [v]) }
      | none => none := by
  have e : (Rec.arg f x v).key = "smack:".toList ++ ("arg".toList ++ ':' :: (f ++ ':' :: x)) := by
    show "smack:arg:".toList ++ f ++ [':'] ++ x = "smack:arg:".toList ++ (f ++ ':' :: x)
    rw [List.append_assoc, List.append_assoc]
    rfl
  have h0 : hasSub "smack:entry:".toList ("smack:".toList ++ ("arg".toList ++ ':' :: (f ++ ':' :: x))) = false :=
    not_kind (q := "entry".toList) (k := "arg".toList) (by decide) (by intro r h; injection h with h _; exact absurd h (by decide))
      (suffix_length (by decide)) (no_colon2 hf hx)
  have h1 : hasSub "smack:arg:".toList ("smack:".toList ++ ("arg".toList ++ ':' :: (f ++ ':' :: x))) = true := (hasSub_iff _ _).2 ⟨[], f ++ ':' :: x, rfl⟩
  unfold addValue
  rw [e, h0, h1, split4 (k := "arg".toList) (by decide) hf hx]
  rfl

theorem addValue_ext (st : Values) {f v : List Char} (hf : ':' ∉ f) :
    addValue st (Rec.ext f v).key v = some { st with returns := st.returns.set f (((st.returns.lookup f).getD []) ++ [v]) } := by
  have e : (Rec.ext f v).key = "smack:".toList ++ ("ext".toList ++ ':' :: f) := rfl
  have h0 : hasSub "smack:entry:".toList ("smack:".toList ++ ("ext".toList ++ ':' :: f)) = false :=
    not_kind (q := "entry".toList) (k := "ext".toList) (by decide)
      (by intro r h; injection h with _ h; injection h with h _; exact absurd h (by decide)) (suffix_length (by decide)) (no_colon hf)
  have h1 : hasSub "smack:arg:".toList ("smack:".toList ++ ("ext".toList ++ ':' :: f)) = false :=
    not_kind (q := "arg".toList) (k := "ext".toList) (by decide) (by intro r h; injection h with h _; exact absurd h (by decide))
      (suffix_length (by decide)) (no_colon hf)
  have h2 : hasSub "smack:ext:".toList ("smack:".toList ++ ("ext".toList ++ ':' :: f)) = true := (hasSub_iff _ _).2 ⟨[], f, rfl⟩
  unfold addValue
  rw [e, h0, h1, h2, split3 (k := "ext".toList) (by decide) hf]
  rfl

/-! ### Dictionaries -/

theorem lookup_map_set (k : List Char) (v : List (List Char)) (k' : List Char) : ∀ (d : Dict), d.any (·.1 == k) = true →
    (d.map fun p => if p.1 == k then (k, v) else p).lookup k' = if k' = k then some v else d.lookup k'
  | [], h => by cases h
  | p :: d, h => by
    rw [List.map_cons]
    by_cases hp : p.1 = k
    · rw [if_pos (by simpa using hp), List.lookup_cons, List.lookup_cons]
      by_cases hk : k' = k
      · simp [hk]
      · have e1 : (k' == k) = false := by simpa using hk
        have e2 : (k' == p.1) = false := by rw [hp]; exact e1
        simp only [e1, e2, if_neg hk]
        -- the rest of the list
        by_cases hr : d.any (·.1 == k) = true
        · rw [lookup_map_set k v k' d hr, if_neg hk]
        · have : (d.map fun p => if p.1 == k then (k, v) else p) = d := by
            conv => rhs; rw [← List.map_id d]
            apply List.map_congr_left
            intro q hq
            rw [if_neg]
            · rfl
            · intro hqk
              exact hr (List.any_eq_true.2 ⟨q, hq, hqk⟩)
          rw [this]
    · have hr : d.any (·.1 == k) = true := by
        rw [List.any_cons, Bool.or_eq_true] at h
        exact h.resolve_left (by simpa using hp)
      rw [if_neg (by simpa using hp), List.lookup_cons, List.lookup_cons, lookup_map_set k v k' d hr]
      by_cases hk : k' = p.1
      · have : k' ≠ k := fun h => hp (hk.symm.trans h)
        simp [hk, hp]
      · have e1 : (k' == p.1) = false := by simpa using hk
        simp [e1]

theorem lookup_append_none {d : Dict} {k : List Char} (h : ¬ d.any (·.1 == k) = true) (v : List (List Char)) (k' : List Char) :
    (d ++ [(k, v)]).lookup k' = if k' = k then some v else d.lookup k' := by
  induction d with
  | nil =>
    by_cases hk : k' = k
    · simp [hk]
    · have : (k' == k) = false := by simpa using hk
      simp [List.lookup, hk, this]
  | cons p d ih =>
    rw [List.any_cons, Bool.or_eq_true, not_or] at h
    rw [List.cons_append, List.lookup_cons, List.lookup_cons, ih h.2]
    by_cases hk : k' = p.1
    · have : k' ≠ k := fun hh => h.1 (by simpa using hk.symm.trans hh)
      have e : (k' == p.1) = true := by simpa using hk
      simp only [e, if_neg this]
    · have e1 : (k' == p.1) = false := by simpa using hk
      simp [e1]

theorem lookup_set (d : Dict) (k k' : List Char) (v : List (List Char)) : (d.set k v).lookup k' = if k' = k then some v else d.lookup k' := by
  unfold Dict.set
  split
  · rename_i h; exact lookup_map_set k v k' d h
  · rename_i h; exact lookup_append_none h v k'

/-! ### All lines -/

theorem extract_wf {l : TLine} (h : l.Wf) : extract l.text = l.rec?.map fun r => (r.key, r.value) := by
  cases l with
  | plain s => exact extract_plain s h
  | record pre r post =>
    obtain ⟨hp, hv, he, hn⟩ := h
    have hkey : ∃ k, r.key = "smack:".toList ++ k ∧ '(' ∉ k := by
      cases r with
      | entry f v =>
        refine ⟨"entry:".toList ++ f, rfl, fun hm => ?_⟩
        rcases List.mem_append.1 hm with hm | hm
        · exact absurd hm (by decide)
        · exact (hn f (by simp [Rec.names])).2 hm
      | arg f x v =>
        refine ⟨"arg:".toList ++ (f ++ [':'] ++ x), ?_, fun hm => ?_⟩
        · show "smack:arg:".toList ++ f ++ [':'] ++ x = "smack:arg:".toList ++ (f ++ [':'] ++ x)
          rw [List.append_assoc, List.append_assoc, List.append_assoc]
        rcases List.mem_append.1 hm with hm | hm
        · exact absurd hm (by decide)
        · rcases List.mem_append.1 hm with hm | hm
          · rcases List.mem_append.1 hm with hm | hm
            · exact (hn f (by simp [Rec.names])).2 hm
            · exact absurd hm (by decide)
          · exact (hn x (by simp [Rec.names])).2 hm
      | ext f v =>
        refine ⟨"ext:".toList ++ f, rfl, fun hm => ?_⟩
        rcases List.mem_append.1 hm with hm | hm
        · exact absurd hm (by decide)
        · exact (hn f (by simp [Rec.names])).2 hm
    obtain ⟨k, h1, h2⟩ := hkey
    show extract (pre ++ "(".toList ++ r.key ++ " = ".toList ++ r.value ++ ")".toList ++ post) = some (r.key, r.value)
    rw [h1]
    exact extract_line pre k r.value post h2 hv he hp

/-- What the dictionaries hold after some records. -/
structure Holds (rs : List Rec) (st : Values) : Prop where
  returns : ∀ f, st.returns.lookup f = if results f rs = [] then none else some (results f rs)
  arguments : ∀ f vs, st.arguments.lookup f = some vs ↔ LastArgs f rs vs

theorem results_snoc (f : List Char) (rs : List Rec) (r : Rec) : results f (rs ++ [r]) = results f rs ++ results f [r] := by
  unfold results; rw [List.filterMap_append]

theorem snoc_split {α : Type} {a b rs : List α} {x r : α} (h : rs ++ [r] = a ++ x :: b) :
    (b = [] ∧ x = r ∧ rs = a) ∨ ∃ b', b = b' ++ [r] ∧ rs = a ++ x :: b' := by
  rcases nil_or_snoc b with rfl | ⟨b', y, rfl⟩
  · have := List.append_inj' h rfl
    exact .inl ⟨rfl, by simpa using this.2.symm, this.1⟩
  · rw [show a ++ x :: (b' ++ [y]) = (a ++ x :: b') ++ [y] by simp] at h
    have := List.append_inj' h rfl
    refine .inr ⟨b', ?_, this.1⟩
    rw [show r = y by simpa using this.2]

/-- The record does not concern the parameters of `f`. -/
theorem lastArgs_other {f : List Char} {rs : List Rec} {r : Rec} (h1 : ∀ v, r ≠ .entry f v) (h2 : ∀ x v, r ≠ .arg f x v) (vs : List (List Char)) :
    LastArgs f (rs ++ [r]) vs ↔ LastArgs f rs vs := by
  have hr : [r].filterMap (argOf f) = [] := by
    cases r with
    | entry g v => rfl
    | ext g v => rfl
    | arg g x v =>
      have : g ≠ f := fun h => h2 x v (by rw [h])
      simp [argOf, this]
  constructor
  · rintro ⟨a, w, b, h, hb, rfl⟩
    rcases snoc_split h with ⟨_, hx, _⟩ | ⟨b', rfl, rfl⟩
    · exact absurd hx.symm (h1 w)
    · refine ⟨a, w, b', rfl, fun w' hm => hb w' (List.mem_append_left _ hm), ?_⟩
      rw [List.filterMap_append, hr, List.append_nil]
  · rintro ⟨a, w, b, rfl, hb, rfl⟩
    refine ⟨a, w, b ++ [r], by simp, fun w' hm => ?_, ?_⟩
    · rcases List.mem_append.1 hm with hm | hm
      · exact hb w' hm
      · exact h1 w' (List.mem_singleton.1 hm).symm
    · rw [List.filterMap_append, hr, List.append_nil]

theorem lastArgs_unique {f : List Char} {rs : List Rec} {us vs : List (List Char)} (h : LastArgs f rs us) (h' : LastArgs f rs vs) : us = vs := by
  obtain ⟨a, w, b, h1, hb, rfl⟩ := h
  obtain ⟨a', w', b', h1', hb', rfl⟩ := h'
  have he := h1.symm.trans h1'
  rcases List.append_eq_append_iff.1 he with ⟨u, h2, h3⟩ | ⟨u, h2, h3⟩
  · cases u with
    | nil => injection h3 with _ h3; rw [h3]
    | cons c u =>
      injection h3 with _ h3
      exact absurd (by rw [h3]; simp) (hb w')
  · cases u with
    | nil => injection h3 with _ h3; rw [h3]
    | cons c u =>
      injection h3 with _ h3
      exact absurd (by rw [h3]; simp) (hb' w)

theorem lastArgs_exists {f w : List Char} : ∀ {rs : List Rec}, Rec.entry f w ∈ rs → ∃ vs, LastArgs f rs vs := by
  intro rs
  induction rs generalizing w with
  | nil => intro h; cases h
  | cons r rs ih =>
    intro h
    by_cases hr : ∃ w', Rec.entry f w' ∈ rs
    · obtain ⟨w', hw'⟩ := hr
      obtain ⟨vs, a, u, b, rfl, hb, rfl⟩ := ih hw'
      exact ⟨_, r :: a, u, b, rfl, hb, rfl⟩
    · rcases List.mem_cons.1 h with rfl | h
      · exact ⟨_, [], w, rs, rfl, fun w' hm => hr ⟨w', hm⟩, rfl⟩
      · exact absurd ⟨w, h⟩ hr

theorem holds_step {rs : List Rec} {r : Rec} {st : Values} (h : Holds rs st) (hn : ∀ n ∈ r.names, ':' ∉ n)
    (he : ∀ f x v, r = .arg f x v → ∃ w, Rec.entry f w ∈ rs) : ∃ st', addValue st r.key r.value = some st' ∧ Holds (rs ++ [r]) st' := by
  have hres : ∀ {r : Rec}, (∀ f v, r ≠ .ext f v) → ∀ f, results f (rs ++ [r]) = results f rs := by
    intro r hr f
    rw [results_snoc]
    cases r with
    | entry g v => simp [results]
    | arg g x v => simp [results]
    | ext g v => exact absurd rfl (hr g v)
  cases r with
  | entry f v =>
    refine ⟨_, addValue_entry st (hn f (by simp [Rec.names])), ?_, ?_⟩
    · intro g; rw [hres (by intro _ _ h; cases h)]; exact h.returns g
    · intro g vs
      show (st.arguments.set f []).lookup g = some vs ↔ _
      rw [lookup_set]
      by_cases hg : g = f
      · subst hg
        rw [if_pos rfl]
        have hL : LastArgs g (rs ++ [.entry g v]) [] := ⟨rs, v, [], rfl, by simp, rfl⟩
        constructor
        · intro h; injection h with h; rw [← h]; exact hL
        · intro h; rw [lastArgs_unique hL h]
      · rw [if_neg hg, h.arguments]
        exact (lastArgs_other (by intro v h; injection h with h _; exact hg h.symm) (by intro x v h; cases h) vs).symm
  | arg f x v =>
    obtain ⟨w, hw⟩ := he f x v rfl
    obtain ⟨us, hus⟩ := lastArgs_exists hw
    have hlook := (h.arguments f us).2 hus
    refine ⟨{ st with arguments := st.arguments.set f (us ++ [v]) }, ?_, ?_, ?_⟩
    · show addValue st (Rec.arg f x v).key v = _
      rw [addValue_arg st (hn f (by simp [Rec.names])) (hn x (by simp [Rec.names])), hlook]
    · intro g; rw [hres (by intro _ _ h; cases h)]; exact h.returns g
    · intro g vs
      show (st.arguments.set f (us ++ [v])).lookup g = some vs ↔ _
      rw [lookup_set]
      by_cases hg : g = f
      · subst hg
        rw [if_pos rfl]
        have hL : LastArgs g (rs ++ [.arg g x v]) (us ++ [v]) := by
          obtain ⟨a, u, b, rfl, hb, rfl⟩ := hus
          refine ⟨a, u, b ++ [.arg g x v], by simp, fun w' hm => ?_, ?_⟩
          · rcases List.mem_append.1 hm with hm | hm
            · exact hb w' hm
            · simp at hm
          · rw [List.filterMap_append]; simp [argOf]
        constructor
        · intro h; injection h with h; rw [← h]; exact hL
        · intro h; rw [lastArgs_unique hL h]
      · rw [if_neg hg, h.arguments]
        exact (lastArgs_other (by intro v h; cases h) (by intro x v h; injection h with h _ _; exact hg h.symm) vs).symm
  | ext f v =>
    refine ⟨_, addValue_ext st (hn f (by simp [Rec.names])), ?_, ?_⟩
    · intro g
      show (st.returns.set f ((st.returns.lookup f).getD [] ++ [v])).lookup g = _
      rw [lookup_set, results_snoc]
      by_cases hg : g = f
      · subst hg
        rw [if_pos rfl, h.returns g]
        have hs : results g [.ext g v] = [v] := by simp [results]
        rw [hs]
        by_cases hz : results g rs = []
        · simp [hz]
        · simp [hz]
      · rw [if_neg hg, h.returns g]
        have hs : results g [.ext f v] = [] := by simp [results]; exact fun h => hg h.symm
        rw [hs, List.append_nil]
    · intro g vs
      rw [h.arguments]
      exact (lastArgs_other (by intro v h; cases h) (by intro x v h; cases h) vs).symm

theorem holds_fold : ∀ (ls : List TLine) (done : List Rec) (st : Values), Holds done st → (∀ l ∈ ls, l.Wf) → Entered (done ++ ls.filterMap TLine.rec?) →
    ∃ st', ((ls.map TLine.text).filterMap extract).foldlM (fun st p => addValue st p.1 p.2) st = some st' ∧ Holds (done ++ ls.filterMap TLine.rec?) st'
  | [], done, st, h, _, _ => ⟨st, rfl, by simpa using h⟩
  | l :: ls, done, st, h, hwf, he => by
    have hl := hwf l List.mem_cons_self
    have hwf' : ∀ l ∈ ls, l.Wf := fun l hl => hwf l (List.mem_cons_of_mem _ hl)
    rw [List.map_cons, List.filterMap_cons, List.filterMap_cons, extract_wf hl] at *
    cases hr : l.rec? with
    | none =>
      rw [hr] at he
      exact holds_fold ls done st h hwf' he
    | some r =>
      rw [hr] at he
      simp only at he
      have hn : ∀ n ∈ r.names, ':' ∉ n := by
        cases l with
        | plain s => cases hr
        | record pre r' post =>
          injection hr with hr
          subst hr
          exact fun n hm => (hl.2.2.2 n hm).1
      obtain ⟨st1, h1, h2⟩ := holds_step h hn (fun f x v hx => he done f x v _ (by rw [hx]))
      have he' : Entered ((done ++ [r]) ++ ls.filterMap TLine.rec?) := by simpa using he
      obtain ⟨st2, h3, h4⟩ := holds_fold ls (done ++ [r]) st1 h2 hwf' he'
      refine ⟨st2, ?_, by simpa using h4⟩
      simp only [Option.map_some, List.foldlM_cons, h1]
      exact h3

theorem holds_nil : Holds [] ⟨[], []⟩ := by
  refine ⟨fun f => rfl, fun f vs => ⟨(fun h => by simp at h), ?_⟩⟩
  rintro ⟨a, w, b, h, _⟩
  simp at h

end Smack.Witness
