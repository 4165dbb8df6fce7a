/-
Lemmas: substitution into templates; printed expressions contain no `@`.
-/
import Verif.Printer.Lemmas

namespace Smack.Printer

open Spec

theorem wanted_eq (c : Char) : wanted c = fmtType c := by
  unfold fmtType
  split <;> first | rfl | skip
  rename_i h1 h2 h3 h4 h5 h6 h7 h8
  unfold wanted
  rw [if_neg (by simp_all), if_neg (by simp_all), if_neg (by simp_all), if_neg (by simp_all)]

theorem isFmt_iff (c : Char) : isFmt c = (wanted c).isSome := by
  unfold isFmt wanted
  simp only [List.contains_cons, List.contains_nil, Bool.or_false]
  by_cases h1 : c = 'c' ∨ c = 'b' ∨ c = 'B'
  · rw [if_pos h1]; rcases h1 with rfl | rfl | rfl <;> decide
  · rw [if_neg h1]
    by_cases h2 : c = 'h' ∨ c = 'H'
    · rw [if_pos h2]; rcases h2 with rfl | rfl <;> decide
    · rw [if_neg h2]
      by_cases h3 : c = 'i' ∨ c = 'I'
      · rw [if_pos h3]; rcases h3 with rfl | rfl <;> decide
      · rw [if_neg h3]
        by_cases h4 : c = 'f'
        · subst h4; decide
        · rw [if_neg h4]
          simp only [not_or] at h1 h2 h3
          simp [h1, h2, h3, h4]

theorem argText_iff (f : Option Char) (a : Arg) (t : Str) : argText (f.bind wanted) a = some t ↔ Fits f a t := by
  unfold Fits argText
  cases f.bind wanted with
  | none => exact ⟨fun h => (Option.some.inj h).symm, fun h => by rw [h]⟩
  | some ty =>
    simp only
    by_cases h : a.ty = ty
    · simp only [if_pos h]
      constructor
      · intro e; exact .inl ⟨h, (Option.some.inj e).symm⟩
      · rintro (⟨_, rfl⟩ | ⟨hn, _⟩)
        · rfl
        · exact absurd h hn
    · simp only [if_neg h]
      cases ha : a.inner with
      | none => simp [h]
      | some p =>
        obtain ⟨t', s⟩ := p
        simp only
        by_cases h' : t' = ty
        · rw [if_pos h']; subst h'; simp [h]
        · rw [if_neg h']; simp [h, h']

theorem tokenize_plain (q r : Str) (hq : '@' ∉ q) : tokenize (q ++ r) = q.map .ch ++ tokenize r := by
  induction q with
  | nil => rfl
  | cons c q ih =>
    simp only [List.mem_cons, not_or] at hq
    have hc : c ≠ '@' := fun e => hq.1 e.symm
    have : tokenize (c :: (q ++ r)) = .ch c :: tokenize (q ++ r) := by
      rw [tokenize.eq_def]
      split
      · rename_i h; cases h
      · rename_i h; exact absurd (List.cons.inj h).1 hc
      · rename_i h; obtain ⟨rfl, rfl⟩ := List.cons.inj h; rw [if_neg hc]
    rw [List.cons_append, this, ih hq.2]
    rfl

theorem render_plain (q : Str) (ts : List Tok) (as : List Str) : render (q.map .ch ++ ts) as = q ++ render ts as := by
  induction q with
  | nil => rfl
  | cons c q ih => rw [List.map_cons, List.cons_append, render, ih]; rfl

theorem holes_plain (q : Str) (ts : List Tok) : holes (q.map .ch ++ ts) = holes ts := by
  induction q with
  | nil => rfl
  | cons c q ih => rw [List.map_cons, List.cons_append, holes, ih]

/-- A hole and what follows it. -/
def hole1 (r : Str) : Option Char × Str :=
  match r with
  | [] => (none, [])
  | c :: r' => if isFmt c then (some c, r') else (none, c :: r')

theorem tokenize_at (r : Str) : tokenize ('@' :: r) = .hole (hole1 r).1 :: tokenize (hole1 r).2 := by
  cases r with
  | nil => rfl
  | cons c r =>
    rw [tokenize]
    unfold hole1
    by_cases h : isFmt c = true
    · simp only [if_pos h]
    · simp only [if_neg h]

theorem split_at (s : Str) : '@' ∉ s ∨ ∃ q r, s = q ++ '@' :: r ∧ '@' ∉ q := by
  induction s with
  | nil => left; simp
  | cons c s ih =>
    by_cases h : c = '@'
    · subst h; exact .inr ⟨[], s, rfl, by simp⟩
    · rcases ih with h' | ⟨q, r, rfl, hq⟩
      · left; simp [h', Ne.symm h]
      · right; exact ⟨c :: q, r, rfl, by simp [hq, Ne.symm h]⟩

theorem subst_none {s : Str} (h : '@' ∉ s) (a : Arg) : substOne s a = none := by
  unfold substOne
  have : s.dropWhile (· ≠ '@') = [] := by
    have := dropWhile_append_stop (p := fun c => decide (c ≠ '@')) (a := s) (t := []) (fun c hc => by
      rw [decide_eq_true_eq]; rintro rfl; exact h hc) (by simp)
    rwa [List.append_nil] at this
  simp only [this]

theorem subst_at {q r : Str} (h : '@' ∉ q) (a : Arg) :
    substOne (q ++ '@' :: r) a = (argText ((hole1 r).1.bind wanted) a).map fun t => q ++ t ++ (hole1 r).2 := by
  have hq : ∀ c ∈ q, (decide (c ≠ '@')) = true := by
    intro c hc
    rw [decide_eq_true_eq]
    rintro rfl; exact h hc
  have hs : ∀ c ∈ ('@' :: r).head?, (decide (c ≠ '@')) = false := by
    intro c hc
    have : c = '@' := by simpa using hc.symm
    subst this; decide
  unfold substOne
  simp only [takeWhile_append_stop hq hs, dropWhile_append_stop hq hs]
  unfold hole1
  cases r with
  | nil => simp
  | cons c r =>
    simp only
    have hf := isFmt_iff c
    rw [wanted_eq] at hf
    by_cases hc : isFmt c = true
    · rw [hc] at hf
      simp only [if_pos hc, Option.bind_some]
      rw [wanted_eq]
      cases hw : fmtType c with
      | none => rw [hw] at hf; cases hf
      | some ty => rfl
    · simp only [if_neg hc, Option.bind_none]
      cases hw : fmtType c with
      | none => rfl
      | some ty => rw [hw] at hf; exact absurd hf hc

/-- Without arguments the template is unchanged. -/
theorem render_nil : ∀ n (s : Str), s.length ≤ n → render (tokenize s) [] = s := by
  intro n
  induction n with
  | zero => intro s h; cases s with
    | nil => rfl
    | cons c s => simp at h
  | succ n ih =>
    intro s h
    rcases split_at s with h' | ⟨q, r, rfl, hq⟩
    · have := tokenize_plain s [] h'
      rw [List.append_nil] at this
      rw [this, render_plain]
      simp [tokenize, render]
    · rw [tokenize_plain q _ hq, render_plain, tokenize_at]
      congr 1
      simp only [List.length_append, List.length_cons] at h
      unfold hole1
      cases r with
      | nil => rfl
      | cons c r =>
        simp only [List.length_cons] at h
        by_cases hc : isFmt c = true
        · simp only [if_pos hc]
          rw [render, ih r (by omega)]
        · simp only [if_neg hc]
          rw [render, ih (c :: r) (by simp only [List.length_cons]; omega)]

/-- No text that an argument can contribute contains `@`. -/
def NoAt (a : Arg) : Prop := '@' ∉ a.text ∧ ∀ p ∈ a.inner, '@' ∉ p.2

theorem fits_noAt {f : Option Char} {a : Arg} {t : Str} (h : Fits f a t) (ha : NoAt a) : '@' ∉ t := by
  unfold Fits at h
  split at h
  · subst h; exact ha.1
  · rcases h with ⟨_, rfl⟩ | ⟨_, h⟩
    · exact ha.1
    · exact ha.2 _ h

theorem code_iff (as : List Arg) (ha : ∀ a ∈ as, NoAt a) : ∀ (p s out : Str), '@' ∉ p →
    (code (p ++ s) as = some out ↔ ∃ ts, FitsAll (holes (tokenize s)) as ts ∧ out = p ++ render (tokenize s) ts) := by
  induction as with
  | nil =>
    intro p s out hp
    constructor
    · intro h
      refine ⟨[], by unfold FitsAll; rfl, ?_⟩
      rw [render_nil _ s (Nat.le_refl _)]
      exact (Option.some.inj h).symm
    · rintro ⟨ts, hf, rfl⟩
      have : ts = [] := by
        cases hh : holes (tokenize s) <;> rw [hh] at hf <;> simpa [FitsAll] using hf
      rw [this, render_nil _ s (Nat.le_refl _)]
      rfl
  | cons a as ih =>
    intro p s out hp
    have ha1 := ha a (by simp)
    have ih := ih fun b hb => ha b (by simp [hb])
    rcases split_at s with h | ⟨q, r, rfl, hq⟩
    · have hn : '@' ∉ p ++ s := by simp [hp, h]
      have ht := tokenize_plain s [] h
      rw [List.append_nil] at ht
      rw [code, subst_none hn, ht, holes_plain]
      constructor
      · intro h; cases h
      · rintro ⟨ts, hf, _⟩
        exact hf.elim
    · have hpq : '@' ∉ p ++ q := by simp [hp, hq]
      rw [← List.append_assoc, code, subst_at hpq, tokenize_plain q _ hq, holes_plain, tokenize_at, holes]
      constructor
      · intro h
        rw [Option.bind_eq_some_iff] at h
        obtain ⟨s', h1, h2⟩ := h
        rw [Option.map_eq_some_iff] at h1
        obtain ⟨t, h1, rfl⟩ := h1
        rw [argText_iff] at h1
        have hno := fits_noAt h1 ha1
        obtain ⟨ts, hf, rfl⟩ := (ih _ _ _ (by simp [hp, hq, hno])).mp h2
        refine ⟨t :: ts, ⟨h1, hf⟩, ?_⟩
        rw [render_plain, render]
        simp
      · rintro ⟨ts, hf, rfl⟩
        cases ts with
        | nil => exact hf.elim
        | cons t ts =>
          obtain ⟨hf1, hf2⟩ := hf
          have hno := fits_noAt hf1 ha1
          rw [(argText_iff _ _ _).mpr hf1]
          simp only [Option.map_some, Option.bind_some]
          rw [ih _ _ _ (by simp [hp, hq, hno])]
          refine ⟨ts, hf2, ?_⟩
          rw [render_plain, render]
          simp

mutual
/-- No string literal occurs. -/
def NoStr : Expr → Prop
  | .bin _ l r => NoStr l ∧ NoStr r
  | .fn _ args => NoStrs args
  | .str _ => False
  | .neg e => NoStr e
  | .not e => NoStr e
  | .quant _ _ e => NoStr e
  | .sel b is => NoStr b ∧ NoStrs is
  | .upd b is v => NoStr b ∧ NoStrs is ∧ NoStr v
  | .ite c t e => NoStr c ∧ NoStr t ∧ NoStr e
  | .extract v u l => NoStr v ∧ NoStr u ∧ NoStr l
  | .concat l r => NoStr l ∧ NoStr r
  | .bool _ | .rmode _ | .int _ | .bv _ _ | .fp _ _ _ _ _ | .fpSpecial _ _ _ | .var _ => True

def NoStrs : List Expr → Prop
  | [] => True
  | e :: es => NoStr e ∧ NoStrs es
end

theorem atoms_noAt {a : Str} (h : ∀ c ∈ a, atomChar c = true) : '@' ∉ a := fun hm => by
  have := h '@' hm
  revert this; decide

theorem atomText_noAt {a : Str} (h : AtomText a) : '@' ∉ a := by
  rcases h with ⟨_, h⟩ | ⟨r, rfl, h⟩
  · exact atoms_noAt h
  · simp only [List.mem_append, not_or]
    exact ⟨by decide, atoms_noAt h⟩

theorem ident_noAt {a : Str} (h : IdentOk a) : '@' ∉ a := atoms_noAt fun c hc => (h.2.1 c hc).1

theorem bindings_noAt : ∀ vs : List (Str × Str), (∀ b ∈ vs, IdentOk b.1 ∧ IdentOk b.2) → '@' ∉ printBindings vs
  | [], _ => by simp [printBindings]
  | [b], h => by
    have := h b (by simp)
    simp [printBindings, printBinding, ident_noAt this.1, ident_noAt this.2]
  | b :: b' :: bs, h => by
    have h1 := h b (by simp)
    have h2 := bindings_noAt (b' :: bs) fun x hx => h x (by simp [hx])
    simp [printBindings, printBinding, ident_noAt h1.1, ident_noAt h1.2, h2]

mutual
theorem print_noAt : ∀ e : Expr, WF e → NoStr e → '@' ∉ print e
  | .bool _, h, _ | .rmode _, h, _ | .int _, h, _ | .bv _ _, h, _ | .fp _ _ _ _ _, h, _ | .fpSpecial _ _ _, h, _
  | .var _, h, _ => atomText_noAt (atom_print (by trivial) h).1
  | .bin op l r, h, n => by
    rw [WF] at h; rw [NoStr] at n
    have ho : '@' ∉ opStr op := by cases op <;> decide
    simp [print, print_noAt l h.1 n.1, print_noAt r h.2 n.2, ho]
  | .fn f args, h, n => by
    rw [WF] at h; rw [NoStr] at n
    simp [print, ident_noAt h.1, seq_noAt args h.2 n]
  | .str _, _, n => by rw [NoStr] at n; exact n.elim
  | .neg e, h, n => by rw [WF] at h; rw [NoStr] at n; simp [print, print_noAt e h n]
  | .not e, h, n => by rw [WF] at h; rw [NoStr] at n; simp [print, print_noAt e h n]
  | .quant q vs e, h, n => by
    rw [WF] at h; rw [NoStr] at n
    have hq : '@' ∉ quantStr q := by cases q <;> decide
    simp [print, print_noAt e h.2 n, bindings_noAt vs h.1, hq]
  | .sel b is, h, n => by
    rw [WF] at h; rw [NoStr] at n
    simp [print, print_noAt b h.1 n.1, seq_noAt is h.2.2 n.2]
  | .upd b is v, h, n => by
    rw [WF] at h; rw [NoStr] at n
    simp [print, print_noAt b h.1 n.1, seq_noAt is h.2.2.1 n.2.1, print_noAt v h.2.2.2 n.2.2]
  | .ite c t e, h, n => by
    rw [WF] at h; rw [NoStr] at n
    simp [print, print_noAt c h.1 n.1, print_noAt t h.2.1 n.2.1, print_noAt e h.2.2 n.2.2]
  | .extract v u l, h, n => by
    rw [WF] at h; rw [NoStr] at n
    simp [print, print_noAt v h.1 n.1, print_noAt u h.2.2.1 n.2.1, print_noAt l h.2.2.2 n.2.2]
  | .concat l r, h, n => by
    rw [WF] at h; rw [NoStr] at n
    simp [print, print_noAt l h.1 n.1, print_noAt r h.2 n.2]

theorem seq_noAt : ∀ es : List Expr, WFs es → NoStrs es → '@' ∉ printSeq es
  | [], _, _ => by simp [printSeq]
  | e :: es, h, n => by
    rw [WFs] at h; rw [NoStrs] at n
    simp [printSeq, print_noAt e h.1 n.1, rest_noAt es h.2 n.2]

theorem rest_noAt : ∀ es : List Expr, WFs es → NoStrs es → '@' ∉ printRest es
  | [], _, _ => by simp [printRest]
  | e :: es, h, n => by
    rw [WFs] at h; rw [NoStrs] at n
    simp [printRest, print_noAt e h.1 n.1, rest_noAt es h.2 n.2]
end

end Smack.Printer
