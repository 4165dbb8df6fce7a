/-
Facts about text.
-/
import Verif.Witness.Spec
import Verif.Driver.Lemmas
import Verif.Driver.TraceProps

namespace Smack.Witness

open Smack.Driver Smack.Witness.Spec

theorem occurs_trans {p q s : List Char} (h : Occurs p q) (h' : Occurs q s) : Occurs p s := by
  obtain ⟨a, b, rfl⟩ := h
  obtain ⟨c, d, rfl⟩ := h'
  exact ⟨c ++ a, b ++ d, by simp⟩

/-- A character that is not in the pattern separates the occurrences. -/
theorem occurs_sep {p a b : List Char} {c : Char} (hc : c ∉ p) (h : Occurs p (a ++ c :: b)) : Occurs p a ∨ Occurs p b := by
  obtain ⟨x, y, h⟩ := h
  by_cases hl : (x ++ p).length ≤ a.length
  · left
    have h1 : (x ++ p) = a.take (x ++ p).length := by
      have := congrArg (List.take (x ++ p).length) h
      rw [List.take_append_of_le_length hl] at this
      rw [this, List.take_left']
      rfl
    exact ⟨x, a.drop (x ++ p).length, (List.take_append_drop (x ++ p).length a).symm.trans (by rw [← h1])⟩
  · right
    have hx : a.length < x.length := by
      refine Nat.lt_of_not_le fun hx => hc ?_
      have h2 := congrArg (fun l => l[a.length]?) h
      simp only [List.getElem?_append_right (Nat.le_refl _), Nat.sub_self, List.getElem?_cons_zero] at h2
      rw [List.append_assoc, List.getElem?_append_right hx, List.getElem?_append_left (by simp at hl; omega)] at h2
      exact List.mem_of_getElem? h2.symm
    have h3 := congrArg (List.drop (a.length + 1)) h
    have h4 : List.drop (a.length + 1) (a ++ c :: b) = b := by
      rw [show a ++ c :: b = (a ++ [c]) ++ b by simp, List.drop_left' (by simp)]
    rw [h4, List.append_assoc, List.drop_append_of_le_length (by omega)] at h3
    exact ⟨x.drop (a.length + 1), y, by rw [h3]; simp⟩

theorem not_occurs_of_not_mem {p s : List Char} (c : Char) (hp : c ∈ p) (hs : c ∉ s) : ¬ Occurs p s :=
  not_occurs_of_char c hp hs

theorem hasSub_false {p s : List Char} (h : ¬ Occurs p s) : hasSub p s = false := by
  rw [← Bool.not_eq_true, hasSub_iff]; exact h

/-- The first character of the pattern does not occur. -/
theorem occurs_skip {p s : List Char} {c : Char} {x y : List Char} (hs : s = x ++ y) (hx : c ∉ x) (h : Occurs (c :: p) s) : Occurs (c :: p) y := by
  subst hs
  induction x with
  | nil => exact h
  | cons d x ih =>
    obtain ⟨a, b, h⟩ := h
    cases a with
    | nil =>
      simp only [List.nil_append, List.cons_append, List.cons.injEq] at h
      exact absurd (h.1 ▸ List.mem_cons_self) hx
    | cons e a =>
      simp only [List.cons_append, List.cons.injEq] at h
      exact ih (fun hm => hx (List.mem_cons_of_mem _ hm)) ⟨a, b, by rw [h.2]⟩

/-! ### strip -/

theorem blank_ws {c : Char} (h : ¬ Blank c) : isWs c = false := (isWs_false_iff c).2 h

theorem dropWhile_id {p : Char → Bool} {c : Char} {s : List Char} (h : p c = false) : (c :: s).dropWhile p = c :: s := by
  rw [List.dropWhile_cons, if_neg (by simp [h])]

/-- Text whose first and last characters are not blank. -/
def Tight (t : List Char) : Prop := (∃ c s, t = c :: s ∧ isWs c = false) ∧ ∃ s c, t = s ++ [c] ∧ isWs c = false

theorem strip_tight {t : List Char} (h : Tight t) : strip t = t := by
  obtain ⟨⟨c, s, h1, hc⟩, s', c', h2, hc'⟩ := h
  unfold strip
  rw [h1, dropWhile_id hc, ← h1, h2, List.reverse_append, List.reverse_singleton, List.singleton_append, dropWhile_id hc']
  simp

theorem strip_cons {c : Char} {t : List Char} (h : isWs c = true) : strip (c :: t) = strip t := by
  unfold strip
  rw [List.dropWhile_cons, if_pos h]

theorem strip_snoc {c : Char} {t : List Char} (ht : Tight t) (h : isWs c = true) : strip (t ++ [c]) = t := by
  have := strip_tight ht
  obtain ⟨⟨d, s, h1, hd⟩, _⟩ := ht
  unfold strip at *
  rw [h1, List.cons_append, dropWhile_id hd]
  rw [h1, dropWhile_id hd] at this
  rw [← List.cons_append, List.reverse_append, List.reverse_singleton, List.singleton_append, List.dropWhile_cons, if_pos h]
  exact this

theorem tight_of {t : List Char} (hne : t ≠ []) (h : ∀ c ∈ t, isWs c = false) : Tight t := by
  refine ⟨?_, ?_⟩
  · cases t with
    | nil => exact absurd rfl hne
    | cons c s => exact ⟨c, s, rfl, h c List.mem_cons_self⟩
  · rcases nil_or_snoc t with rfl | ⟨s, c, rfl⟩
    · exact absurd rfl hne
    · exact ⟨s, c, rfl, h c (by simp)⟩

theorem tight_append {a b : List Char} (ha : Tight a) (m : List Char) (hb : Tight b) : Tight (a ++ m ++ b) := by
  obtain ⟨⟨c, s, rfl, hc⟩, _⟩ := ha
  obtain ⟨_, s', c', rfl, hc'⟩ := hb
  exact ⟨⟨c, s ++ m ++ (s' ++ [c']), by simp, hc⟩, c :: s ++ m ++ s', c', by simp, hc'⟩

theorem occurs_strip {p t : List Char} (h : Occurs p (strip t)) : Occurs p t := by
  have hd : ∀ s : List Char, ∃ a, s = a ++ s.dropWhile isWs := fun s => ⟨s.takeWhile isWs, (List.takeWhile_append_dropWhile).symm⟩
  refine occurs_trans h ?_
  obtain ⟨a, ha⟩ := hd t
  obtain ⟨b, hb⟩ := hd (t.dropWhile isWs).reverse
  refine ⟨a, b.reverse, ?_⟩
  unfold strip
  rw [List.append_assoc, ← List.reverse_append, ← hb, List.reverse_reverse]
  exact ha

/-! ### Splitting -/

theorem splitOn_none {c : Char} {s : List Char} (h : c ∉ s) : splitOn c s = [s] := by
  induction s with
  | nil => rfl
  | cons d s ih =>
    rw [splitOn, if_neg, ih fun hm => h (List.mem_cons_of_mem _ hm)]
    intro he
    exact h (by rw [eq_of_beq he]; exact List.mem_cons_self)

theorem splitOn_cons {c : Char} {a : List Char} (h : c ∉ a) (b : List Char) : splitOn c (a ++ c :: b) = a :: splitOn c b := by
  induction a with
  | nil => rw [List.nil_append, splitOn, if_pos (by simp)]
  | cons d a ih =>
    rw [List.cons_append, splitOn, if_neg, ih fun hm => h (List.mem_cons_of_mem _ hm)]
    intro he
    exact h (by rw [eq_of_beq he]; exact List.mem_cons_self)

/-- Every part is a substring. -/
theorem splitOn_occurs {c : Char} {s t : List Char} (h : t ∈ splitOn c s) : Occurs t s := by
  suffices hs : ∀ s : List Char, ∃ u us, splitOn c s = u :: us ∧ (∃ r, s = u ++ r) ∧ ∀ t ∈ us, Occurs t s by
    obtain ⟨u, us, h1, ⟨r, h2⟩, h3⟩ := hs s
    rw [h1] at h
    rcases List.mem_cons.1 h with rfl | h
    · exact ⟨[], r, by simpa using h2⟩
    · exact h3 t h
  intro s
  induction s with
  | nil => exact ⟨[], [], rfl, ⟨[], rfl⟩, by simp⟩
  | cons d s ih =>
    obtain ⟨u, us, h1, ⟨r, h2⟩, h3⟩ := ih
    have hcons : ∀ t, Occurs t s → Occurs t (d :: s) := fun t h => occurs_trans h ⟨[d], [], by simp⟩
    rw [splitOn]
    split
    · refine ⟨[], splitOn c s, rfl, ⟨d :: s, rfl⟩, ?_⟩
      intro t ht
      rw [h1] at ht
      rcases List.mem_cons.1 ht with rfl | ht
      · exact hcons _ ⟨[], r, by simpa using h2⟩
      · exact hcons _ (h3 t ht)
    · rw [h1]
      exact ⟨d :: u, us, rfl, ⟨r, by rw [h2]; rfl⟩, fun t ht => hcons _ (h3 t ht)⟩

theorem splitOn_commas {ts : List (List Char)} (hne : ts ≠ []) (h : ∀ t ∈ ts, ',' ∉ t) :
    (splitOn ',' (commas ts)).map strip = ts.map strip := by
  induction ts with
  | nil => exact absurd rfl hne
  | cons t ts ih =>
    have ht := h t List.mem_cons_self
    cases ts with
    | nil => simp [commas, splitOn_none ht]
    | cons u us =>
      have ih := ih (by simp) fun t ht => h t (List.mem_cons_of_mem _ ht)
      have h1 : commas (t :: u :: us) = t ++ ',' :: (' ' :: commas (u :: us)) := by
        rw [commas]
        · simp
        · intro h; cases h
      rw [h1, splitOn_cons ht, List.map_cons, List.map_cons]
      congr 1
      rw [← ih, splitOn, if_neg (by decide)]
      cases hs : splitOn ',' (commas (u :: us)) with
      | nil => rw [hs] at ih; simp at ih
      | cons a as => simp [strip_cons (c := ' ') (t := a) (by decide)]

/-! ### Replacement -/

/-- The new text differs from the old one only by replacements that the word cannot overlap. -/
inductive Rw (p : List Char) : List Char → List Char → Prop where
  | nil : Rw p [] []
  | keep (c s o) : Rw p s o → Rw p (c :: s) (c :: o)
  | repl (x r s o) : 'N' ∉ r → (∃ c, r.getLast? = some c ∧ c ∉ p) → Rw p s o → Rw p (x ++ s) (r ++ o)

theorem rw_prefix {p s o : List Char} (h : Rw p s o) (q u o' : List Char) (hp : p = u ++ q) (hq : q = [] ∨ q.getLast? = some 'N')
    (ho : o = q ++ o') : ∃ s', s = q ++ s' := by
  induction h generalizing q u with
  | nil =>
    have h1 := List.append_eq_nil_iff.1 ho.symm
    exact ⟨[], by rw [h1.1]; rfl⟩
  | keep c s o _ ih =>
    cases q with
    | nil => exact ⟨c :: s, rfl⟩
    | cons d q =>
      simp only [List.cons_append, List.cons.injEq] at ho
      have hq2 : q = [] ∨ q.getLast? = some 'N' := by
        cases q with
        | nil => exact .inl rfl
        | cons e q => right; simpa using hq
      obtain ⟨s', h1⟩ := ih q (u ++ [d]) (by rw [hp]; simp) hq2 ho.2
      exact ⟨s', by rw [h1, ho.1]; rfl⟩
  | repl x r s o hn hl _ ih =>
    rcases hq with rfl | hq
    · exact ⟨x ++ s, rfl⟩
    · exfalso
      rcases List.append_eq_append_iff.1 ho with ⟨a, h1, h2⟩ | ⟨a, h1, h2⟩
      · -- the replacement is within the word
        obtain ⟨c, hc, hcp⟩ := hl
        exact hcp (by rw [hp, h1]; simp [List.mem_of_getLast? hc])
      · exact hn (by rw [h1]; simp [List.mem_of_getLast? hq])

theorem rw_occurs {p s o : List Char} (h : Rw p s o) (hp : p.getLast? = some 'N') (ho : Occurs p o) : Occurs p s := by
  induction h with
  | nil => exact ho
  | keep c s o h ih =>
    obtain ⟨a, b, ho⟩ := ho
    cases a with
    | nil =>
      obtain ⟨s', h1⟩ := rw_prefix (.keep c s o h) p [] b rfl (.inr hp) (by rw [ho]; rfl)
      exact ⟨[], s', by rw [h1]; rfl⟩
    | cons d a =>
      simp only [List.cons_append, List.cons.injEq] at ho
      obtain ⟨a', b', h2⟩ := ih ⟨a, b, ho.2⟩
      exact ⟨c :: a', b', by rw [h2]; rfl⟩
  | repl x r s o hn hl h ih =>
    obtain ⟨a, b, ho⟩ := ho
    have key : Occurs p o := by
      rw [List.append_assoc] at ho
      rcases List.append_eq_append_iff.1 ho with ⟨c, h1, h2⟩ | ⟨c, h1, h2⟩
      · exact ⟨c, b, by rw [h2]; simp⟩
      · -- the word starts within the replacement
        rcases List.append_eq_append_iff.1 h2 with ⟨d, h3, h4⟩ | ⟨d, h3, h4⟩
        · exfalso
          exact hn (by rw [h1, h3]; simp [List.mem_of_getLast? hp])
        · cases c with
          | nil => exact ⟨[], b, by simp at h2 ⊢; exact h2.symm⟩
          | cons e c =>
            exfalso
            obtain ⟨l, hl, hlp⟩ := hl
            rw [h1, List.getLast?_append] at hl
            have : (e :: c).getLast? = some l := by
              cases hx : (e :: c).getLast? with
              | none => simp at hx
              | some y => rw [hx] at hl; simpa using hl
            exact hlp (by rw [h3]; exact List.mem_append_left _ (List.mem_of_getLast? this))
    obtain ⟨a', b', h2⟩ := ih key
    exact ⟨x ++ a', b', by rw [h2]; simp⟩

end Smack.Witness
