/-
Regular expressions as far as share/smack/top.py uses them with `re.search` for a yes/no answer.
-/

namespace Smack.Driver

/-- Regular expressions over characters. -/
inductive RE where
  | never
  | eps
  | chr (p : Char → Bool)
  | seq (a b : RE)
  | alt (a b : RE)
  | star (a : RE)

/-- The language of an expression. -/
inductive Matches : RE → List Char → Prop where
  | eps : Matches .eps []
  | chr {p c} : p c = true → Matches (.chr p) [c]
  | seq {a b s t} : Matches a s → Matches b t → Matches (.seq a b) (s ++ t)
  | altl {a b s} : Matches a s → Matches (.alt a b) s
  | altr {a b s} : Matches b s → Matches (.alt a b) s
  | star_nil {a} : Matches (.star a) []
  | star_cons {a s t} : Matches a s → Matches (.star a) t → Matches (.star a) (s ++ t)

def RE.nullable : RE → Bool
  | .never => false
  | .eps => true
  | .chr _ => false
  | .seq a b => a.nullable && b.nullable
  | .alt a b => a.nullable || b.nullable
  | .star _ => true

/-- Brzozowski derivative. -/
def RE.deriv (c : Char) : RE → RE
  | .never => .never
  | .eps => .never
  | .chr p => if p c then .eps else .never
  | .seq a b => if a.nullable then .alt (.seq (a.deriv c) b) (b.deriv c) else .seq (a.deriv c) b
  | .alt a b => .alt (a.deriv c) (b.deriv c)
  | .star a => .seq (a.deriv c) (.star a)

/-- Does some prefix match? -/
def RE.here : RE → List Char → Bool
  | r, [] => r.nullable
  | r, c :: cs => r.nullable || (r.deriv c).here cs

/-- `re.search(r, s) is not None`. -/
def RE.search (r : RE) : List Char → Bool
  | [] => r.here []
  | c :: cs => r.here (c :: cs) || r.search cs

/-- A literal. -/
def RE.lit : List Char → RE
  | [] => .eps
  | c :: cs => .seq (.chr (· == c)) (RE.lit cs)

theorem nullable_iff (r : RE) : r.nullable = true ↔ Matches r [] := by
  induction r with
  | never => exact ⟨fun h => (by cases h), fun h => (by cases h)⟩
  | eps => exact ⟨fun _ => .eps, fun _ => rfl⟩
  | chr p =>
    constructor
    · intro h; cases h
    · intro h; cases h
  | seq a b iha ihb =>
    rw [RE.nullable, Bool.and_eq_true, iha, ihb]
    constructor
    · rintro ⟨h1, h2⟩; exact Matches.seq h1 h2
    · intro h
      generalize he : ([] : List Char) = s at h
      cases h with
      | seq h1 h2 =>
        rename_i s t
        obtain ⟨e1, e2⟩ := List.append_eq_nil_iff.1 he.symm
        subst e1 e2
        exact ⟨h1, h2⟩
  | alt a b iha ihb =>
    rw [RE.nullable, Bool.or_eq_true, iha, ihb]
    constructor
    · rintro (h | h)
      · exact .altl h
      · exact .altr h
    · intro h
      cases h with
      | altl h => exact Or.inl h
      | altr h => exact Or.inr h
  | star a => exact ⟨fun _ => .star_nil, fun _ => rfl⟩

theorem star_cons_inv {a : RE} {c : Char} {s : List Char} (h : Matches (.star a) (c :: s)) :
    ∃ u v, s = u ++ v ∧ Matches a (c :: u) ∧ Matches (.star a) v := by
  generalize hr : RE.star a = r at h
  generalize hs : c :: s = w at h
  induction h with
  | eps => cases hr
  | chr => cases hr
  | seq => cases hr
  | altl => cases hr
  | altr => cases hr
  | star_nil => cases hs
  | @star_cons b x y h1 h2 ih1 ih2 =>
    cases hr
    cases x with
    | nil => exact ih2 rfl hs
    | cons d u =>
      simp at hs
      obtain ⟨h3, h4⟩ := hs
      subst h3
      exact ⟨u, y, h4, h1, h2⟩

theorem deriv_iff (r : RE) (c : Char) (s : List Char) : Matches (r.deriv c) s ↔ Matches r (c :: s) := by
  induction r generalizing s with
  | never => exact ⟨fun h => (by cases h), fun h => (by cases h)⟩
  | eps => exact ⟨fun h => (by cases h), fun h => (by cases h)⟩
  | chr p =>
    rw [RE.deriv]
    constructor
    · intro h
      split at h
      · cases h; exact .chr (by assumption)
      · cases h
    · intro h
      cases h with
      | chr h => rw [if_pos h]; exact .eps
  | seq a b iha ihb =>
    have hseq : Matches (.seq a b) (c :: s) ↔
        (∃ u v, s = u ++ v ∧ Matches a (c :: u) ∧ Matches b v) ∨ (Matches a [] ∧ Matches b (c :: s)) := by
      constructor
      · intro h
        generalize hw : c :: s = w at h
        cases h with
        | seq h1 h2 =>
          rename_i x y
          cases x with
          | nil => exact Or.inr ⟨h1, h2⟩
          | cons d u =>
            simp at hw
            obtain ⟨h3, h4⟩ := hw
            subst h3
            exact Or.inl ⟨u, y, h4, h1, h2⟩
      · rintro (⟨u, v, h, h1, h2⟩ | ⟨h1, h2⟩)
        · rw [h]; exact Matches.seq h1 h2
        · exact Matches.seq h1 h2
    have hfirst : Matches (.seq (a.deriv c) b) s ↔ ∃ u v, s = u ++ v ∧ Matches a (c :: u) ∧ Matches b v := by
      constructor
      · intro h
        cases h with
        | seq h1 h2 => exact ⟨_, _, rfl, (iha _).1 h1, h2⟩
      · rintro ⟨u, v, h, h1, h2⟩
        rw [h]; exact .seq ((iha _).2 h1) h2
    rw [hseq, RE.deriv]
    split
    · rename_i hn
      constructor
      · intro h
        cases h with
        | altl h => exact Or.inl (hfirst.1 h)
        | altr h => exact Or.inr ⟨(nullable_iff a).1 hn, (ihb _).1 h⟩
      · rintro (h | ⟨_, h⟩)
        · exact .altl (hfirst.2 h)
        · exact .altr ((ihb _).2 h)
    · rename_i hn
      constructor
      · intro h; exact Or.inl (hfirst.1 h)
      · rintro (h | ⟨h, _⟩)
        · exact hfirst.2 h
        · exact absurd ((nullable_iff a).2 h) hn
  | alt a b iha ihb =>
    rw [RE.deriv]
    constructor
    · intro h
      cases h with
      | altl h => exact .altl ((iha _).1 h)
      | altr h => exact .altr ((ihb _).1 h)
    · intro h
      cases h with
      | altl h => exact .altl ((iha _).2 h)
      | altr h => exact .altr ((ihb _).2 h)
  | star a iha =>
    rw [RE.deriv]
    constructor
    · intro h
      cases h with
      | seq h1 h2 => exact .star_cons ((iha _).1 h1) h2
    · intro h
      obtain ⟨u, v, h1, h2, h3⟩ := star_cons_inv h
      rw [h1]
      exact .seq ((iha _).2 h2) h3

theorem here_iff (r : RE) (s : List Char) : r.here s = true ↔ ∃ m b, s = m ++ b ∧ Matches r m := by
  induction s generalizing r with
  | nil =>
    rw [RE.here, nullable_iff]
    constructor
    · intro h; exact ⟨[], [], rfl, h⟩
    · rintro ⟨m, b, h, hm⟩
      rw [(List.append_eq_nil_iff.1 h.symm).1] at hm
      exact hm
  | cons c cs ih =>
    rw [RE.here, Bool.or_eq_true, nullable_iff, ih]
    constructor
    · rintro (h | ⟨m, b, h, hm⟩)
      · exact ⟨[], c :: cs, rfl, h⟩
      · exact ⟨c :: m, b, by rw [h]; rfl, (deriv_iff r c m).1 hm⟩
    · rintro ⟨m, b, h, hm⟩
      cases m with
      | nil => exact Or.inl hm
      | cons d m =>
        simp at h
        obtain ⟨h1, h2⟩ := h
        subst h1
        exact Or.inr ⟨m, b, h2, (deriv_iff r c m).2 hm⟩

/-- The search is what it should be: some substring belongs to the language. -/
theorem search_iff (r : RE) (s : List Char) : r.search s = true ↔ ∃ a m b, s = a ++ m ++ b ∧ Matches r m := by
  induction s with
  | nil =>
    rw [RE.search, here_iff]
    constructor
    · rintro ⟨m, b, h, hm⟩; exact ⟨[], m, b, by simpa using h, hm⟩
    · rintro ⟨a, m, b, h, hm⟩
      have := List.append_eq_nil_iff.1 h.symm
      have h2 := List.append_eq_nil_iff.1 this.1
      exact ⟨m, b, by rw [h2.2, this.2]; rfl, hm⟩
  | cons c cs ih =>
    rw [RE.search, Bool.or_eq_true, here_iff, ih]
    constructor
    · rintro (⟨m, b, h, hm⟩ | ⟨a, m, b, h, hm⟩)
      · exact ⟨[], m, b, h, hm⟩
      · exact ⟨c :: a, m, b, by rw [h]; rfl, hm⟩
    · rintro ⟨a, m, b, h, hm⟩
      cases a with
      | nil => exact Or.inl ⟨m, b, h, hm⟩
      | cons d a =>
        simp at h
        exact Or.inr ⟨a, m, b, by simp [h.2], hm⟩

theorem lit_iff (l s : List Char) : Matches (RE.lit l) s ↔ s = l := by
  induction l generalizing s with
  | nil =>
    constructor
    · intro h; cases h; rfl
    · intro h; subst h; exact .eps
  | cons c cs ih =>
    constructor
    · intro h
      cases h with
      | seq h1 h2 =>
        cases h1 with
        | chr h =>
          rw [(ih _).1 h2]
          simp at h
          simp [h]
    · intro h
      subst h
      exact Matches.seq (s := [c]) (.chr (by simp)) ((ih _).2 rfl)

theorem seq_iff (a b : RE) (s : List Char) : Matches (.seq a b) s ↔ ∃ u v, s = u ++ v ∧ Matches a u ∧ Matches b v := by
  constructor
  · intro h
    cases h with
    | seq h1 h2 => exact ⟨_, _, rfl, h1, h2⟩
  · rintro ⟨u, v, h, h1, h2⟩; subst h; exact .seq h1 h2

theorem alt_iff (a b : RE) (s : List Char) : Matches (.alt a b) s ↔ Matches a s ∨ Matches b s := by
  constructor
  · intro h
    cases h with
    | altl h => exact Or.inl h
    | altr h => exact Or.inr h
  · rintro (h | h)
    · exact .altl h
    · exact .altr h

theorem chr_iff (p : Char → Bool) (s : List Char) : Matches (.chr p) s ↔ ∃ c, s = [c] ∧ p c = true := by
  constructor
  · intro h
    cases h with
    | chr h => exact ⟨_, rfl, h⟩
  · rintro ⟨c, h, hp⟩; subst h; exact .chr hp

theorem star_chr_iff (p : Char → Bool) (s : List Char) : Matches (.star (.chr p)) s ↔ ∀ c ∈ s, p c = true := by
  constructor
  · intro h
    generalize hr : RE.star (.chr p) = r at h
    induction h with
    | eps => cases hr
    | chr => cases hr
    | seq => cases hr
    | altl => cases hr
    | altr => cases hr
    | star_nil => simp
    | star_cons h1 _ _ ih2 =>
      cases hr
      obtain ⟨c, hc, hp⟩ := (chr_iff _ _).1 h1
      subst hc
      intro d hd
      rcases List.mem_append.1 hd with hd | hd
      · rw [List.mem_singleton] at hd; rw [hd]; exact hp
      · exact ih2 rfl d hd
  · intro h
    induction s with
    | nil => exact .star_nil
    | cons c s ih =>
      exact Matches.star_cons (s := [c]) (.chr (h c List.mem_cons_self)) (ih fun d hd => h d (List.mem_cons_of_mem _ hd))

end Smack.Driver
