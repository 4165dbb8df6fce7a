import Verif.Driver.Lemmas
import Verif.Driver.Props
import Verif.Options.Spec

namespace Smack.Options

open Smack.Driver

/-! ### Spelling -/

theorem toUpper_toNat (c : Char) : c.toUpper.toNat = if 97 ≤ c.toNat ∧ c.toNat ≤ 122 then c.toNat - 32 else c.toNat := by
  have e1 : ('a'.val ≤ c.val ∧ c.val ≤ 'z'.val) ↔ (97 ≤ c.toNat ∧ c.toNat ≤ 122) := by
    rw [UInt32.le_iff_toNat_le, UInt32.le_iff_toNat_le]; rfl
  rw [Char.toUpper]
  split
  · rename_i h
    rw [if_pos (e1.1 h)]
    have h' := e1.1 h
    show (c.val + ('A'.val - 'a'.val)).toNat = c.toNat - 32
    rw [UInt32.toNat_add]
    show (c.toNat + 4294967264) % 4294967296 = c.toNat - 32
    omega
  · rename_i h
    rw [if_neg (fun x => h (e1.2 x))]

theorem le_char (c d : Char) : c ≤ d ↔ c.toNat ≤ d.toNat := by
  show c.val ≤ d.val ↔ _
  rw [UInt32.le_iff_toNat_le]; rfl

theorem upperDash_toNat (c : Char) : (upperDash c).toNat =
    if c.toNat = 45 then 95 else if 97 ≤ c.toNat ∧ c.toNat ≤ 122 then c.toNat - 32 else c.toNat := by
  rw [upperDash]
  by_cases h : c = '-'
  · subst h; rfl
  · have : c.toNat ≠ 45 := fun e => h (Char.toNat_inj.1 e)
    rw [if_neg this, ← toUpper_toNat, if_neg (by simpa using h)]

theorem canon_toNat (c : Char) : (canon c).toNat =
    if 65 ≤ c.toNat ∧ c.toNat ≤ 90 then c.toNat + 32 else if c.toNat = 95 then 45 else c.toNat := by
  rw [canon]
  have e1 : ('A' ≤ c ∧ c ≤ 'Z') ↔ (65 ≤ c.toNat ∧ c.toNat ≤ 90) := by
    rw [le_char, le_char]; exact Iff.rfl
  by_cases h : 'A' ≤ c ∧ c ≤ 'Z'
  · rw [if_pos h, if_pos (e1.1 h)]
    have h' := e1.1 h
    have hv : Nat.isValidChar (c.toNat + 32) := Or.inl (by omega)
    rw [Char.ofNat, dif_pos hv]
    rfl
  · rw [if_neg h, if_neg (fun x => h (e1.2 x))]
    by_cases h2 : c = '_'
    · subst h2; rfl
    · have : c.toNat ≠ 95 := fun e => h2 (Char.toNat_inj.1 e)
      rw [if_neg h2, if_neg this]

/-- A target letter in both spellings. -/
theorem spell_char (c u l : Char)
    (h : (65 ≤ u.toNat ∧ u.toNat ≤ 90 ∧ l.toNat = u.toNat + 32) ∨ (u.toNat = 95 ∧ l.toNat = 45)) :
    upperDash c = u ↔ canon c = l := by
  rw [← Char.toNat_inj, ← Char.toNat_inj, upperDash_toNat, canon_toNat]
  split <;> split <;> (try split) <;> (try split) <;> omega

/-- Two words that differ in case and separators only. -/
def pairs : List Char → List Char → Bool
  | [], [] => true
  | u :: us, l :: ls =>
    (decide ((65 ≤ u.toNat ∧ u.toNat ≤ 90 ∧ l.toNat = u.toNat + 32) ∨ (u.toNat = 95 ∧ l.toNat = 45))) && pairs us ls
  | _, _ => false

theorem spell_word : ∀ (v us ls : List Char), pairs us ls = true → (v.map upperDash = us ↔ v.map canon = ls)
  | [], [], [], _ => by simp
  | c :: v, u :: us, l :: ls, h => by
    rw [pairs, Bool.and_eq_true, decide_eq_true_eq] at h
    rw [List.map_cons, List.map_cons, List.cons.injEq, List.cons.injEq, spell_char c u l h.1, spell_word v us ls h.2]
  | [], u :: us, l :: ls, _ => by simp
  | c :: v, [], [], _ => by simp
  | _, [], _ :: _, h => by simp [pairs] at h
  | _, _ :: _, [], h => by simp [pairs] at h

/-- The lower-case word of a member. -/
def Member.word : Member → String
  | .none => "none"
  | .single p => Options.word p
  | .memorySafety => "memory-safety"

theorem argparse_iff (v : List Char) (m : Member) : argparse v = some m ↔ Spells v m.word := by
  have key : ∀ e ∈ members, pairs e.1 e.2.word.toList = true := by decide
  have hin : ∀ m : Member, ∃ e ∈ members, e.2 = m := by
    intro m
    refine List.mem_map.1 ?_
    rcases m with _ | p | _
    · decide
    · cases p <;> decide
    · decide
  have inj : ∀ e ∈ members, ∀ e' ∈ members, e.1 = e'.1 → e = e' := by decide
  have inj2 : ∀ e ∈ members, ∀ e' ∈ members, e.2 = e'.2 → e = e' := by decide
  rw [argparse]
  constructor
  · intro h
    rw [Option.map_eq_some_iff] at h
    obtain ⟨e, he, rfl⟩ := h
    have h1 := List.find?_some he
    have h2 := List.mem_of_find?_eq_some he
    exact (spell_word v _ _ (key e h2)).1 (beq_iff_eq.1 h1).symm
  · intro h
    obtain ⟨e, he, rfl⟩ := hin m
    have h1 := (spell_word v _ _ (key e he)).2 h
    cases hf : members.find? (fun e => e.1 == v.map upperDash) with
    | none =>
      rw [List.find?_eq_none] at hf
      exact absurd (by rw [h1]; simp) (hf e he)
    | some e' =>
      have h3 := List.find?_some hf
      have h4 := List.mem_of_find?_eq_some hf
      have : e' = e := inj e' h4 e he (by rw [← h1]; exact beq_iff_eq.1 h3)
      rw [this]; rfl

theorem word_inj (m m' : Member) (v : List Char) (h : Spells v m.word) (h' : Spells v m'.word) : m = m' := by
  have h1 := (argparse_iff v m).2 h
  rw [(argparse_iff v m').2 h'] at h1
  exact (Option.some.inj h1).symm

theorem flags_iff (m : Member) (v : List Char) (h : Spells v m.word) (p : Prp) : m.flags p = true ↔ Names v p := by
  constructor
  · intro hf
    rcases m with _ | q | _
    · simp [Member.flags] at hf
    · simp only [Member.flags, beq_iff_eq] at hf
      subst hf; exact Or.inl h
    · refine Or.inr ⟨h, ?_⟩
      simpa [Member.flags, OfMemory, or_assoc] using hf
  · rintro (hs | ⟨hs, hm⟩)
    · have := word_inj m (.single p) v h hs
      subst this; simp [Member.flags]
    · have := word_inj m .memorySafety v h hs
      subst this
      simpa [Member.flags, OfMemory, or_assoc] using hm

theorem checkArg_iff (py : Bool) (v : List Char) (m : Member) :
    checkArg py v = some m ↔ Spells v m.word ∧ isChoice py m = true := by
  rw [checkArg]
  cases h : argparse v with
  | none =>
    constructor
    · intro hh; cases hh
    · rintro ⟨h1, _⟩
      rw [(argparse_iff v m).2 h1] at h; cases h
  | some m' =>
    have h' := (argparse_iff v m').1 h
    constructor
    · intro hh
      cases hc : isChoice py m' with
      | false => simp [hc] at hh
      | true => simp [hc] at hh; subst hh; exact ⟨h', hc⟩
    · rintro ⟨h1, h2⟩
      have := word_inj m' m v h' h1
      subst this; simp [h2]

theorem known_iff (py : Bool) (v : List Char) : (∃ m, checkArg py v = some m) ↔ Known (!py) v := by
  constructor
  · rintro ⟨m, hm⟩
    obtain ⟨h1, h2⟩ := (checkArg_iff py v m).1 hm
    rcases m with _ | p | _
    · exact Or.inr ⟨by simpa [isChoice] using h2, Or.inr h1⟩
    · exact Or.inl ⟨p, h1⟩
    · exact Or.inr ⟨by simpa [isChoice] using h2, Or.inl h1⟩
  · rintro (⟨p, hp⟩ | ⟨hg, h | h⟩)
    · exact ⟨.single p, (checkArg_iff py v _).2 ⟨hp, rfl⟩⟩
    · exact ⟨.memorySafety, (checkArg_iff py v _).2 ⟨h, by simpa [isChoice] using hg⟩⟩
    · exact ⟨.none, (checkArg_iff py v _).2 ⟨h, by simpa [isChoice] using hg⟩⟩

theorem checkArgs_some (py : Bool) : ∀ (o : List (List Char)) (ms : List Member), checkArgs py o = some ms →
    (∀ v ∈ o, Known (!py) v) ∧ ∀ p, (ms.any (fun m => m.flags p)) = true ↔ ∃ v ∈ o, Names v p
  | [], ms, h => by
    cases h
    simp
  | s :: o, ms, h => by
    rw [checkArgs] at h
    cases h1 : checkArg py s with
    | none => rw [h1] at h; cases h
    | some m =>
      cases h2 : checkArgs py o with
      | none => rw [h1, h2] at h; cases h
      | some ms' =>
        rw [h1, h2] at h
        cases h
        obtain ⟨ih1, ih2⟩ := checkArgs_some py o ms' h2
        have hs := (checkArg_iff py s m).1 h1
        constructor
        · intro v hv
          rcases List.mem_cons.1 hv with rfl | hv
          · exact (known_iff py v).1 ⟨m, h1⟩
          · exact ih1 v hv
        · intro p
          rw [List.any_cons, Bool.or_eq_true, ih2 p, flags_iff m s hs.1 p]
          constructor
          · rintro (h | ⟨v, hv, h⟩)
            · exact ⟨s, List.mem_cons_self, h⟩
            · exact ⟨v, List.mem_cons_of_mem _ hv, h⟩
          · rintro ⟨v, hv, h⟩
            rcases List.mem_cons.1 hv with rfl | hv
            · exact Or.inl h
            · exact Or.inr ⟨v, hv, h⟩

theorem checkArgs_none (py : Bool) : ∀ (o : List (List Char)), (∀ v ∈ o, Known (!py) v) → ∃ ms, checkArgs py o = some ms
  | [], _ => ⟨[], rfl⟩
  | s :: o, h => by
    obtain ⟨m, hm⟩ := (known_iff py s).2 (h s List.mem_cons_self)
    obtain ⟨ms, hms⟩ := checkArgs_none py o (fun v hv => h v (List.mem_cons_of_mem _ hv))
    exact ⟨m :: ms, by rw [checkArgs, hm, hms]⟩

theorem propertyAction_eq : ∀ (ms : List Member) (acc : Check) (p : Prp),
    propertyAction acc ms p = (acc p || ms.any (fun m => m.flags p))
  | [], acc, p => by simp [propertyAction]
  | m :: ms, acc, p => by
    have := propertyAction_eq ms (fun q => acc q || m.flags q) p
    rw [propertyAction] at this
    rw [propertyAction, List.foldl_cons, this, List.any_cons, Bool.or_assoc]

/-- The fold over the occurrences. -/
def foldOccs (py : Bool) (occs : List (List (List Char))) (acc : Option Check) : Option Check :=
  occs.foldl (fun acc o =>
      match acc, checkArgs py o with
      | some a, some ms => some (propertyAction a ms)
      | _, _ => Option.none) acc

theorem foldOccs_none (py : Bool) : ∀ occs, foldOccs py occs none = none
  | [] => rfl
  | _ :: occs => foldOccs_none py occs

theorem foldOccs_some (py : Bool) : ∀ (occs : List (List (List Char))) (acc check : Check),
    foldOccs py occs (some acc) = some check →
    (∀ o ∈ occs, ∀ v ∈ o, Known (!py) v) ∧ ∀ p, check p = true ↔ acc p = true ∨ Asked occs p
  | [], acc, check, h => by
    cases h
    simp [Asked]
  | o :: occs, acc, check, h => by
    rw [foldOccs, List.foldl_cons] at h
    cases h1 : checkArgs py o with
    | none =>
      rw [h1] at h
      have := foldOccs_none py occs
      rw [foldOccs] at this
      rw [this] at h; cases h
    | some ms =>
      rw [h1] at h
      obtain ⟨ih1, ih2⟩ := foldOccs_some py occs _ check h
      obtain ⟨k1, k2⟩ := checkArgs_some py o ms h1
      constructor
      · intro o' ho' v hv
        rcases List.mem_cons.1 ho' with rfl | ho'
        · exact k1 v hv
        · exact ih1 o' ho' v hv
      · intro p
        rw [ih2 p, propertyAction_eq, Bool.or_eq_true, k2 p, or_assoc]
        apply or_congr Iff.rfl
        constructor
        · rintro (h | ⟨o', ho', h⟩)
          · exact ⟨o, List.mem_cons_self, h⟩
          · exact ⟨o', List.mem_cons_of_mem _ ho', h⟩
        · rintro ⟨o', ho', h⟩
          rcases List.mem_cons.1 ho' with rfl | ho'
          · exact Or.inl h
          · exact Or.inr ⟨o', ho', h⟩

theorem foldOccs_total (py : Bool) : ∀ (occs : List (List (List Char))) (acc : Check),
    (∀ o ∈ occs, ∀ v ∈ o, Known (!py) v) → ∃ check, foldOccs py occs (some acc) = some check
  | [], acc, _ => ⟨acc, rfl⟩
  | o :: occs, acc, h => by
    obtain ⟨ms, hms⟩ := checkArgs_none py o (h o List.mem_cons_self)
    obtain ⟨c, hc⟩ := foldOccs_total py occs (propertyAction acc ms) (fun o' ho' => h o' (List.mem_cons_of_mem _ ho'))
    refine ⟨c, ?_⟩
    rw [foldOccs, List.foldl_cons, hms]
    exact hc

theorem all_prps (p : Prp) :
    p ∈ [Prp.assertions, .validDeref, .validFree, .memleak, .integerOverflow, .rustPanics] := by
  cases p <;> decide

theorem parse_spec (py : Bool) (occs : List (List (List Char))) (check : Check) (h : parseCheck py occs = some check) :
    (∀ o ∈ occs, ∀ v ∈ o, Known (!py) v) ∧ ∀ p, check p = true ↔ Requested occs p := by
  rw [parseCheck, Option.map_eq_some_iff] at h
  obtain ⟨c, hc, rfl⟩ := h
  obtain ⟨h1, h2⟩ := foldOccs_some py occs _ c hc
  refine ⟨h1, fun p => ?_⟩
  have h2' : ∀ p, c p = true ↔ Asked occs p := fun p => by simpa using h2 p
  rw [defaulted]
  by_cases hany : [Prp.assertions, .validDeref, .validFree, .memleak, .integerOverflow, .rustPanics].any c = true
  · rw [if_pos hany, h2' p, Requested]
    constructor
    · exact Or.inl
    · rintro (h | ⟨_, hn⟩)
      · exact h
      · rw [List.any_eq_true] at hany
        obtain ⟨q, _, hq⟩ := hany
        exact absurd ((h2' q).1 hq) (hn q)
  · rw [if_neg hany, beq_iff_eq, Requested]
    have hn : ∀ q, ¬Asked occs q := by
      intro q hq
      exact hany (List.any_eq_true.2 ⟨q, all_prps q, (h2' q).2 hq⟩)
    constructor
    · intro e; exact Or.inr ⟨e, hn⟩
    · rintro (h | ⟨e, _⟩)
      · exact absurd h (hn p)
      · exact e

/-! ### The file -/

theorem mem_ofMemory (p : Prp) : p ∈ memSafeSubprops ↔ OfMemory p := by
  simp [memSafeSubprops, OfMemory]

theorem containsMemSafe_iff (check : Check) : containsMemSafe check = true ↔ ∃ p, OfMemory p ∧ check p = true := by
  rw [containsMemSafe, Bool.or_eq_true, Bool.or_eq_true]
  constructor
  · rintro ((h | h) | h)
    · exact ⟨_, Or.inl rfl, h⟩
    · exact ⟨_, Or.inr (Or.inl rfl), h⟩
    · exact ⟨_, Or.inr (Or.inr rfl), h⟩
  · rintro ⟨p, rfl | rfl | rfl, h⟩ <;> simp [h]

theorem produced_iff (check : Check) (p : Prp) :
    produced (clangFlags false check) (clangFlags true check) (llvm2bplFlags check) p = true ↔
      (OfMemory p ∧ ∃ q, OfMemory q ∧ check q = true) ∨ (¬OfMemory p ∧ check p = true) := by
  rw [← containsMemSafe_iff]
  cases p <;> cases h1 : containsMemSafe check <;> cases h2 : check .integerOverflow <;> cases h3 : check .assertions <;>
    cases h4 : check .rustPanics <;> simp [produced, clangFlags, llvm2bplFlags, OfMemory, h1, h2, h3, h4]

/-! ### Text -/

theorem subProc_skip (ann : List Char → List Char) : ∀ (x y : List Char),
    (∀ a b, x = a ++ b → b ≠ [] → procHere (b ++ y) = none) → subProc ann 0 (x ++ y) = x ++ subProc ann 0 y
  | [], y, _ => rfl
  | c :: x, y, h => by
    have h0 := h [] (c :: x) rfl (by simp)
    rw [List.cons_append, subProc]
    rw [List.cons_append] at h0
    rw [h0]
    simp only [List.cons_append, List.cons.injEq, true_and]
    exact subProc_skip ann x y (fun a b e hb => h (c :: a) b (by rw [e]; rfl) hb)

theorem subProc_drop (ann : List Char → List Char) : ∀ (x y : List Char), subProc ann x.length (x ++ y) = subProc ann 0 y
  | [], _ => rfl
  | _ :: x, y => by
    rw [List.cons_append, List.length_cons, subProc]
    exact subProc_drop ann x y

theorem procHere_none_ws {r : List Char} (h : ∀ c t, r = c :: t → isWs c = false) :
    procHere ("procedure".toList ++ r) = none := by
  rw [procHere, dropPrefix?_append]
  cases r with
  | nil => rfl
  | cons c t => simp [h c t rfl]

theorem procHere_prefix {s : List Char} (h : ∀ r, s ≠ "procedure".toList ++ r) : procHere s = none := by
  rw [procHere, dropPrefix?_none h]

/-- Nothing starts in a text without declarations before a line break. -/
theorem noDecl_none {x : List Char} (hx : NoDecl x) (y : List Char) (a b : List Char) (e : x = a ++ b) (_hb : b ≠ []) :
    procHere (b ++ '\n' :: y) = none := by
  by_cases h : ∃ r, b ++ '\n' :: y = "procedure".toList ++ r
  · obtain ⟨r, hr⟩ := h
    rw [hr]
    rcases List.append_eq_append_iff.1 hr with ⟨t, ht1, ht2⟩ | ⟨t, ht1, ht2⟩
    · -- the keyword would contain the line break
      cases t with
      | nil =>
        -- the keyword ends with the text
        rw [List.append_nil] at ht1
        obtain ⟨c, r', hc, _⟩ := hx a [] (by rw [e, List.append_nil, ht1])
        cases hc
      | cons d t =>
        rw [List.cons_append, List.cons.injEq] at ht2
        have : '\n' ∈ "procedure".toList := by
          rw [ht1, ht2.1]; simp
        exact absurd this (by decide)
    · obtain ⟨c, r', hc, hw⟩ := hx a t (by rw [e, ht1, List.append_assoc])
      refine procHere_none_ws ?_
      intro c' t' e'
      rw [e', hc, List.cons_append, List.cons.injEq] at ht2
      rw [ht2.1]; exact (isWs_false_iff _).2 hw
  · exact procHere_prefix (fun r hr => h ⟨r, hr⟩)

theorem takeWhile_name {name : List Char} (h : ∀ c ∈ name, isWs c = false ∧ c ≠ '(') (t : List Char) :
    (name ++ '(' :: t).takeWhile isNameChar = name ∧ (name ++ '(' :: t).dropWhile isNameChar = '(' :: t := by
  induction name with
  | nil => simp [isNameChar]
  | cons c n ih =>
    have hc := h c List.mem_cons_self
    have hn : isNameChar c = true := by simp [isNameChar, hc.1, hc.2]
    obtain ⟨i1, i2⟩ := ih (fun d hd => h d (List.mem_cons_of_mem _ hd))
    simp [hn, i1, i2]

theorem procHere_plain {name : List Char} (hne : name ≠ []) (h : ∀ c ∈ name, isWs c = false ∧ c ≠ '(') (t : List Char) :
    procHere ("procedure ".toList ++ name ++ '(' :: t) = some (name, t) := by
  have e : "procedure ".toList ++ name ++ '(' :: t = "procedure".toList ++ (' ' :: (name ++ '(' :: t)) := by
    rw [List.append_assoc]; rfl
  rw [e, procHere, dropPrefix?_append]
  cases name with
  | nil => exact absurd rfl hne
  | cons c n =>
    have hc := h c List.mem_cons_self
    have hd : (' ' :: (c :: n ++ '(' :: t)).dropWhile isWs = c :: n ++ '(' :: t := by
      rw [List.dropWhile_cons_of_pos (by decide), List.cons_append, List.dropWhile_cons_of_neg (by simp [hc.1])]
    obtain ⟨t1, t2⟩ := takeWhile_name h t
    simp only [hd, t1, t2]
    simp [List.takeWhile_cons, show isWs ' ' = true by decide, show isWs '(' = false by decide]

/-- A word without opening parentheses, up to a blank. -/
theorem dropName_no_paren : ∀ (s : List Char) (rest : List Char), '(' ∉ s →
    ∃ s' , (s ++ ' ' :: rest).dropWhile isNameChar = s' ++ ' ' :: rest ∧ '(' ∉ s' ∧ (∀ c r, s' = c :: r → isWs c = true)
  | [], rest, _ => ⟨[], by simp [isNameChar, show isWs ' ' = true by decide], by simp, by simp⟩
  | c :: s, rest, h => by
    rw [List.cons_append, List.dropWhile_cons]
    have hc : c ≠ '(' := fun e => h (by simp [e])
    cases hw : isWs c with
    | true =>
      have : isNameChar c = false := by simp [isNameChar, hw]
      rw [this]
      refine ⟨c :: s, by simp, h, ?_⟩
      intro d r e
      cases e; exact hw
    | false =>
      have : isNameChar c = true := by simp [isNameChar, hw, hc]
      rw [this]
      obtain ⟨s', h1, h2⟩ := dropName_no_paren s rest (fun hm => h (List.mem_cons_of_mem _ hm))
      exact ⟨s', by simpa using h1, h2⟩

theorem dropWs_not_paren : ∀ (s : List Char) (rest : List Char), '(' ∉ s → (∀ t, rest.dropWhile isWs ≠ '(' :: t) →
    ∀ t, (s ++ ' ' :: rest).dropWhile isWs ≠ '(' :: t
  | [], rest, _, hr, t => by
    rw [List.nil_append, List.dropWhile_cons_of_pos (by decide)]
    exact hr t
  | c :: s, rest, h, hr, t => by
    rw [List.cons_append, List.dropWhile_cons]
    cases hw : isWs c with
    | true => exact dropWs_not_paren s rest (fun hm => h (List.mem_cons_of_mem _ hm)) hr t
    | false =>
      intro e
      simp only [Bool.false_eq_true, if_false] at e
      rw [List.cons.injEq] at e
      exact h (by rw [e.1]; exact List.mem_cons_self)

/-- The text of the attributes. -/
def attrText (attrs : List (List Char)) : List Char := (attrs.map (fun a => "{:".toList ++ a ++ "} ".toList)).flatten

theorem procHere_attrs (a : List Char) (attrs : List (List Char)) (ha : '(' ∉ a) (name : List Char) (hne : name ≠ [])
    (h : ∀ c ∈ name, isWs c = false ∧ c ≠ '(') (t : List Char) :
    procHere ("procedure ".toList ++ attrText (a :: attrs) ++ name ++ '(' :: t) = none := by
  have hnext : ∀ u, (attrText attrs ++ name ++ '(' :: t).dropWhile isWs ≠ '(' :: u := by
    intro u
    cases attrs with
    | nil =>
      cases name with
      | nil => exact absurd rfl hne
      | cons c n =>
        have hc := h c List.mem_cons_self
        show (c :: (n ++ '(' :: t)).dropWhile isWs ≠ _
        rw [List.dropWhile_cons_of_neg (by simp [hc.1])]
        intro e
        rw [List.cons.injEq] at e
        exact hc.2 e.1
    | cons b bs =>
      show ('{' :: _).dropWhile isWs ≠ _
      rw [List.dropWhile_cons_of_neg (by decide)]
      intro e
      rw [List.cons.injEq] at e
      exact absurd e.1 (by decide)
  have e : "procedure ".toList ++ attrText (a :: attrs) ++ name ++ '(' :: t =
      "procedure".toList ++ (' ' :: (('{' :: ':' :: (a ++ ['}'])) ++ ' ' :: (attrText attrs ++ name ++ '(' :: t))) := by
    simp only [attrText, List.map_cons, List.flatten_cons]
    have : ∀ x y : List Char, "procedure ".toList ++ x ++ y = "procedure".toList ++ (' ' :: (x ++ y)) := by
      intro x y; simp
    simp
  rw [e, procHere, dropPrefix?_append]
  have hd : ∀ u, (' ' :: (('{' :: ':' :: (a ++ ['}'])) ++ ' ' :: u)).dropWhile isWs = ('{' :: ':' :: (a ++ ['}'])) ++ ' ' :: u := by
    intro u
    rw [List.dropWhile_cons_of_pos (by decide), List.cons_append, List.dropWhile_cons_of_neg (by decide)]
  simp only [hd]
  obtain ⟨s', h1, h2, _⟩ := dropName_no_paren ('{' :: ':' :: (a ++ ['}'])) (attrText attrs ++ name ++ '(' :: t)
    (by simpa using ha)
  rw [h1]
  have h3 := dropWs_not_paren s' (attrText attrs ++ name ++ '(' :: t) h2 hnext
  split
  · rfl
  · split
    · rename_i t' heq
      exact absurd heq (h3 t')
    · rfl

theorem par_eq : "(".toList = ['('] := by decide

theorem kw_eq : "procedure".toList = ['p', 'r', 'o', 'c', 'e', 'd', 'u', 'r', 'e'] := by decide

theorem kws_eq : "procedure ".toList = ['p', 'r', 'o', 'c', 'e', 'd', 'u', 'r', 'e', ' '] := by decide

theorem kwp_eq : "procedure ".toList = 'p' :: "rocedure ".toList := by decide

theorem err_eq : errorCall = 'c' :: "all reach_error();".toList := by decide

theorem name_chars {name : List Char} (h : ∀ c ∈ name, ¬Blank c ∧ c ≠ '(') : ∀ c ∈ name, isWs c = false ∧ c ≠ '(' :=
  fun c hc => ⟨(isWs_false_iff c).2 (h c hc).1, (h c hc).2⟩

theorem sub_nl (ann : List Char → List Char) (y : List Char) : subProc ann 0 ('\n' :: y) = '\n' :: subProc ann 0 y := by
  rw [subProc, procHere_prefix]
  intro r e
  rw [kw_eq] at e
  cases e

theorem annotate_plain (ann : List Char → List Char) (name rest : List Char) (h : (Ln.proc [] name rest).Wf) (y : List Char) :
    subProc ann 0 ("procedure ".toList ++ name ++ '(' :: (rest ++ '\n' :: y)) =
      "procedure ".toList ++ ann name ++ " ".toList ++ name ++ "(".toList ++ rest ++ '\n' :: subProc ann 0 y := by
  obtain ⟨_, h2, h3', h4⟩ := h
  have h3 := name_chars h3'
  have hp := procHere_plain h2 h3 (rest ++ '\n' :: y)
  have e2 : "procedure ".toList ++ name ++ '(' :: (rest ++ '\n' :: y) =
      'p' :: (("rocedure ".toList ++ name ++ ['(']) ++ (rest ++ '\n' :: y)) := by
    rw [kwp_eq]; simp only [List.cons_append, List.append_assoc, List.nil_append]
  have hrest : NoDecl rest := by
    intro a b e
    refine h4 (name ++ "(".toList ++ a) b ?_
    rw [e]
    simp only [List.map_nil, List.flatten_nil, List.append_assoc, List.nil_append]
  rw [e2] at hp
  rw [e2]
  generalize ("rocedure ".toList ++ name ++ ['(']) = w at hp
  rw [subProc, hp]
  have hlen : (w ++ (rest ++ '\n' :: y)).length - (rest ++ '\n' :: y).length = w.length := by
    rw [List.length_append (as := w)]; omega
  simp only [hlen]
  rw [subProc_drop, subProc_skip ann rest _ (noDecl_none hrest y), sub_nl]
  simp only [List.append_assoc]

/-- Positions inside the keyword. -/
theorem inside_kw (z p q y r : List Char)
    (e' : 'p' :: 'r' :: 'o' :: 'c' :: 'e' :: 'd' :: 'u' :: 'r' :: 'e' :: ' ' :: z = p ++ q) (h0 : p ≠ [])
    (hr' : q ++ '\n' :: y = 'p' :: 'r' :: 'o' :: 'c' :: 'e' :: 'd' :: 'u' :: 'r' :: 'e' :: r) :
    ∃ p', z = p' ++ q := by
  rcases p with _ | ⟨c0, _ | ⟨c1, _ | ⟨c2, _ | ⟨c3, _ | ⟨c4, _ | ⟨c5, _ | ⟨c6, _ | ⟨c7, _ | ⟨c8, _ | ⟨c9, p'⟩⟩⟩⟩⟩⟩⟩⟩⟩⟩
  · exact absurd rfl h0
  all_goals simp only [List.cons_append, List.nil_append, List.cons.injEq] at e'
  case cons.cons.cons.cons.cons.cons.cons.cons.cons.cons =>
    obtain ⟨rfl, rfl, rfl, rfl, rfl, rfl, rfl, rfl, rfl, rfl, e⟩ := e'
    exact ⟨p', e⟩
  all_goals (exfalso; grind)

theorem annotate_attr (ann : List Char → List Char) (a : List Char) (attrs : List (List Char)) (name rest : List Char)
    (h : (Ln.proc (a :: attrs) name rest).Wf) (y : List Char) :
    subProc ann 0 (("procedure ".toList ++ attrText (a :: attrs) ++ name ++ "(".toList ++ rest) ++ '\n' :: y) =
      ("procedure ".toList ++ attrText (a :: attrs) ++ name ++ "(".toList ++ rest) ++ '\n' :: subProc ann 0 y := by
  obtain ⟨h1, h2, h3', h4⟩ := h
  have h3 := name_chars h3'
  have h4' : NoDecl (attrText (a :: attrs) ++ name ++ "(".toList ++ rest) := h4
  rw [subProc_skip, sub_nl]
  intro p q e hq
  by_cases h0 : p = []
  · subst h0
    rw [List.nil_append] at e
    rw [← e]
    have := procHere_attrs a attrs (h1 a List.mem_cons_self) name h2 h3 (rest ++ '\n' :: y)
    rw [← this]
    congr 1
    simp only [par_eq, List.append_assoc, List.nil_append, List.cons_append]
  · by_cases hk : ∃ r, q ++ '\n' :: y = "procedure".toList ++ r
    · obtain ⟨r, hr⟩ := hk
      rw [kw_eq] at hr
      rw [kws_eq] at e
      generalize hz : attrText (a :: attrs) = u at e h4'
      obtain ⟨p', hp'⟩ := inside_kw (u ++ name ++ "(".toList ++ rest) p q y r (by rw [← e]; simp only [List.append_assoc]; rfl) h0 hr
      exact noDecl_none h4' y p' q hp' hq
    · exact procHere_prefix (fun r hr => hk ⟨r, hr⟩)

theorem plain_text (name rest y : List Char) : (Ln.proc [] name rest).text ++ '\n' :: y =
    "procedure ".toList ++ name ++ '(' :: (rest ++ '\n' :: y) := by
  have e : (Ln.proc [] name rest).text = "procedure ".toList ++ [] ++ name ++ "(".toList ++ rest := rfl
  rw [e]
  generalize "procedure ".toList = w
  rw [par_eq]
  simp only [List.append_assoc, List.nil_append, List.cons_append]

theorem annotate_line (ann : List Char → List Char) (l : Ln) (h : l.Wf) (y : List Char) :
    subProc ann 0 (l.text ++ '\n' :: y) = l.annotated ann ++ '\n' :: subProc ann 0 y := by
  cases l with
  | other s =>
    show subProc ann 0 (s ++ '\n' :: y) = s ++ '\n' :: subProc ann 0 y
    rw [subProc_skip ann s _ (noDecl_none h y), sub_nl]
  | proc attrs name rest =>
    cases attrs with
    | nil =>
      refine Eq.trans (congrArg (subProc ann 0) (plain_text name rest y)) (annotate_plain ann name rest h y)
    | cons a attrs => exact annotate_attr ann a attrs name rest h y

theorem annotate_lines (ann : List Char → List Char) : ∀ (ls : List Ln), (∀ l ∈ ls, l.Wf) →
    subProc ann 0 (fileText (ls.map Ln.text)) = fileText (ls.map (Ln.annotated ann))
  | [], _ => rfl
  | l :: ls, h => by
    rw [List.map_cons, fileText, annotate_line ann l (h l List.mem_cons_self), annotate_lines ann ls (fun x hx => h x (List.mem_cons_of_mem _ hx))]
    rfl

theorem noDecl_of {s : List Char} (h : hasSub "procedure".toList s = false) : NoDecl s := by
  intro a b e
  rw [(hasSub_iff _ s).2 ⟨a, b, e⟩] at h
  cases h

theorem free_of {p s : List Char} (h : hasSub p s = false) : Free p s := by
  intro ho
  rw [(hasSub_iff p s).2 ho] at h
  cases h

/-! ### Replacement -/

theorem replace_skip (pat rep : List Char) : ∀ (x y : List Char),
    (∀ a b, x = a ++ b → b ≠ [] → ∀ r, b ++ y ≠ pat ++ r) → replaceAll pat rep 0 (x ++ y) = x ++ replaceAll pat rep 0 y
  | [], y, _ => rfl
  | c :: x, y, h => by
    have h0 := h [] (c :: x) rfl (by simp)
    rw [List.cons_append, replaceAll]
    rw [List.cons_append] at h0
    rw [dropPrefix?_none h0]
    simp only [List.cons_append, List.cons.injEq, true_and]
    exact replace_skip pat rep x y (fun a b e hb => h (c :: a) b (by rw [e]; rfl) hb)

theorem replace_drop (pat rep : List Char) : ∀ (x y : List Char), replaceAll pat rep x.length (x ++ y) = replaceAll pat rep 0 y
  | [], _ => rfl
  | _ :: x, y => by
    rw [List.cons_append, List.length_cons, replaceAll]
    exact replace_drop pat rep x y

theorem free_none {pat x : List Char} (hn : '\n' ∉ pat) (hx : Free pat x) (y : List Char) (a b : List Char)
    (e : x = a ++ b) (_hb : b ≠ []) (r : List Char) : b ++ '\n' :: y ≠ pat ++ r := by
  intro hr
  rcases List.append_eq_append_iff.1 hr with ⟨t, ht1, ht2⟩ | ⟨t, ht1, _⟩
  · cases t with
    | nil =>
      rw [List.append_nil] at ht1
      exact hx ⟨a, [], by rw [e, ht1, List.append_nil]⟩
    | cons d t =>
      rw [List.cons_append, List.cons.injEq] at ht2
      exact hn (by rw [ht1, ht2.1]; simp)
  · exact hx ⟨a, t, by rw [e, ht1, List.append_assoc]⟩

theorem inject_line (l : CLn) (h : l.Wf) (y : List Char) :
    injectAssertFalse (l.text ++ '\n' :: y) = l.failing ++ '\n' :: injectAssertFalse y := by
  have hnl : ∀ y, injectAssertFalse ('\n' :: y) = '\n' :: injectAssertFalse y := by
    intro y
    rw [injectAssertFalse, replaceAll, dropPrefix?_none (fun r e => by cases e)]
    rfl
  have hn : '\n' ∉ errorCall := by decide
  cases l with
  | other s =>
    show replaceAll _ _ 0 (s ++ '\n' :: y) = s ++ '\n' :: injectAssertFalse y
    rw [replace_skip _ _ s _ (free_none hn h y)]
    exact congrArg (s ++ ·) (hnl y)
  | error i r =>
    obtain ⟨h1, h2⟩ := h
    have e : (CLn.error i r).text ++ '\n' :: y = i ++ (errorCall ++ (r ++ '\n' :: y)) := by
      show (i ++ errorCall ++ r) ++ '\n' :: y = _
      simp only [List.append_assoc]
    rw [e, injectAssertFalse, replace_skip _ _ i]
    · have e2 : errorCall ++ (r ++ '\n' :: y) = 'c' :: ("all reach_error();".toList ++ (r ++ '\n' :: y)) := by
        rw [err_eq]; rfl
      rw [e2, replaceAll, ← e2, dropPrefix?_append]
      have hl : errorCall.length - 1 = "all reach_error();".toList.length := by decide
      simp only [hl]
      rw [replace_drop, replace_skip _ _ r _ (free_none hn h2 y)]
      have := hnl y
      rw [injectAssertFalse] at this
      rw [this]
      show i ++ ("assert false; call reach_error();".toList ++ (r ++ '\n' :: _)) =
        (i ++ "assert false; ".toList ++ "call reach_error();".toList ++ r) ++ '\n' :: _
      simp
    · intro a b e hb r' he
      cases b with
      | nil => exact hb rfl
      | cons c b =>
        have hc : c = 'c' := by
          have he' : c :: (b ++ (errorCall ++ (r ++ '\n' :: y))) = 'c' :: ("all reach_error();".toList ++ r') := by
            rw [← List.cons_append, he, err_eq]; rfl
          rw [List.cons.injEq] at he'
          exact he'.1
        have := (isWs_iff c).2 (h1 c (by rw [e]; simp))
        rw [hc] at this
        exact absurd this (by decide)

theorem inject_lines : ∀ (ls : List CLn), (∀ l ∈ ls, l.Wf) →
    injectAssertFalse (fileText (ls.map CLn.text)) = fileText (ls.map CLn.failing)
  | [], _ => rfl
  | l :: ls, h => by
    rw [List.map_cons, fileText, inject_line l (h l List.mem_cons_self), inject_lines ls (fun x hx => h x (List.mem_cons_of_mem _ hx))]
    rfl

end Smack.Options
