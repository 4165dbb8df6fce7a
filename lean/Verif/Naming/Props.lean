/-
C22, C23, C59, C62: names.
-/
import Verif.Naming.Lemmas
import Verif.Naming.Spec

namespace Smack.Naming

open Spec

/-! ## C22 -/

/-- C22: a value keeps its identifier: whatever is requested in between (also in later functions), `get` returns the same
identifier again. -/
theorem c22_stable (env : Nat → Info) (s : St) (v : Nat) (ops : List Op) :
    (get env v (run env (get env v s).2 ops)).1 = (get env v s).1 :=
  get_of_lookup (lookup_keep ops (get_lookup env v s))

/-- C22: when two named values get the same identifier. -/
theorem c22_named_collision_iff (a b : Str) : ident a = ident b ↔
    escape a = escape b ∨ (isBplKeyword (escape a) = true ∧ escape b = escape a ++ ['_']) ∨
      (isBplKeyword (escape b) = true ∧ escape a = escape b ++ ['_']) := by
  unfold ident
  by_cases ha : isBplKeyword (escape a) = true <;> by_cases hb : isBplKeyword (escape b) = true
  · rw [if_pos ha, if_pos hb]
    constructor
    · intro h; exact .inl (List.append_cancel_right h)
    · rintro (h | ⟨_, h⟩ | ⟨_, h⟩)
      · rw [h]
      · have := kw_underscore _ ha; rw [← h, hb] at this; cases this
      · have := kw_underscore _ hb; rw [← h, ha] at this; cases this
  · rw [if_pos ha, if_neg hb]
    constructor
    · intro h; exact .inr (.inl ⟨ha, h.symm⟩)
    · rintro (h | ⟨_, h⟩ | ⟨h, _⟩)
      · rw [h] at ha; exact absurd ha hb
      · exact h.symm
      · exact absurd h hb
  · rw [if_neg ha, if_pos hb]
    constructor
    · intro h; exact .inr (.inr ⟨hb, h⟩)
    · rintro (h | ⟨h, _⟩ | ⟨_, h⟩)
      · rw [h] at ha; exact absurd hb ha
      · exact absurd h ha
      · exact h
  · rw [if_neg ha, if_neg hb]
    constructor
    · exact .inl
    · rintro (h | ⟨h, _⟩ | ⟨h, _⟩)
      · exact h
      · exact absurd h ha
      · exact absurd h hb

/-- C22: in a function (the requests `seg` after the reset; `h1` is everything before), two different values have different
identifiers, if locals were not requested in other functions, named values have names that are not identified by
escaping (`c22_named_collision_iff`), and no source name begins with `$`. `kind = other` (constants) has no identifier. -/
theorem c22_distinct_partial (env : Nat → Info) (h1 seg : List Op) (hseg : Op.reset ∉ seg) (v w : Nat) (hvw : v ≠ w)
    (n m : Str)
    (hv : (run env {} (h1 ++ Op.reset :: seg)).names.lookup v = some n)
    (hw : (run env {} (h1 ++ Op.reset :: seg)).names.lookup w = some m)
    (hov : ¬ Op.get v ∈ h1 ∨ (env v).kind = .global ∨ (env v).kind = .undef)
    (how : ¬ Op.get w ∈ h1 ∨ (env w).kind = .global ∨ (env w).kind = .undef)
    (hkv : (env v).kind ≠ .other) (hkw : (env w).kind ≠ .other)
    (hdv : ∀ a, (env v).name = some a → a.head? ≠ some '$') (hdw : ∀ a, (env w).name = some a → a.head? ≠ some '$')
    (hnames : ∀ a b, (env v).name = some a → (env w).name = some b →
      (env v).kind ≠ .inst → (env w).kind ≠ .inst → ident a ≠ ident b) : n ≠ m := by
  have inv := inv_function env h1 seg hseg
  obtain ⟨f, hf⟩ := inv.fresh
  have cases_ : ∀ u, (env u).kind ≠ .other →
      (∃ g, grp (env u) = some g) ∨ ∃ a, (env u).name = some a ∧ (env u).kind ≠ .inst := by
    intro u hu
    cases hn : (env u).name <;> cases hk : (env u).kind <;> simp_all [grp]
  have notOld : ∀ u, (¬ Op.get u ∈ h1 ∨ (env u).kind = .global ∨ (env u).kind = .undef) →
      isLocal (env u) → ¬ Op.get u ∈ h1 := by
    intro u hu hl
    rcases hu with h | h | h
    · exact h
    · exfalso; unfold isLocal grp at hl; rw [h] at hl; cases hn : (env u).name <;> rw [hn] at hl <;> simp at hl
    · exfalso; unfold isLocal grp at hl; rw [h] at hl; cases hn : (env u).name <;> rw [hn] at hl <;> simp at hl
  intro hnm
  subst hnm
  rcases cases_ v hkv with ⟨g, hg⟩ | ⟨a, ha, hka⟩
  · obtain ⟨e1, _, huniq⟩ := hf v n g hv hg (notOld v hov)
    rcases cases_ w hkw with ⟨g', hg'⟩ | ⟨b, hb, hkb⟩
    · obtain ⟨e2, _, _⟩ := hf w n g' hw hg' (notOld w how)
      rw [e1] at e2
      obtain ⟨rfl, hff⟩ := pref_inj e2
      exact huniq w n (Ne.symm hvw) hw hg' (notOld w how) hff.symm
    · have e2 := inv.named w n b hw hb hkb
      obtain ⟨t, ht⟩ := pref_dollar g (env v).cls (f v)
      rw [e1, ht] at e2
      exact hdw b hb (ident_dollar e2.symm)
  · have e1 := inv.named v n a hv ha hka
    rcases cases_ w hkw with ⟨g', hg'⟩ | ⟨b, hb, hkb⟩
    · obtain ⟨e2, _, _⟩ := hf w n g' hw hg' (notOld w how)
      obtain ⟨t, ht⟩ := pref_dollar g' (env w).cls (f w)
      rw [e2, ht] at e1
      exact hdv a ha (ident_dollar e1.symm)
    · have e2 := inv.named w n b hw hb hkb
      exact hnames a b ha hb hka hkb (e1.symm.trans e2)

/-- An example: two functions with an instruction each, and a named global. -/
example : (run (fun v => if v = 0 then ⟨some "x".toList, .global, .other⟩ else ⟨none, .inst, .int⟩) {}
    [.get 0, .reset, .get 1, .freshBlock, .reset, .get 2, .get 3, .get 0]).names
    = [(3, "$i1".toList), (2, "$i0".toList), (1, "$i0".toList), (0, "x".toList)] := by decide +kernel

/-- C22 fails: the names `a-b` and `a_b` are both escaped to `a_b`. -/
theorem c22_escape_fails : ∃ a b : Str, a ≠ b ∧ ident a = ident b := ⟨"a-b".toList, "a_b".toList, by decide, by decide +kernel⟩

/-- C22 fails: every keyword `k` has the same identifier as the name `k_` (`free` and `free_`). -/
theorem c22_keyword_fails : ∀ k ∈ bplKw, ident k = ident (k ++ ['_']) ∧ k ≠ k ++ ['_'] := by
  have h : ∀ k ∈ bplKw, ident k = ident (k ++ ['_']) := by decide +kernel
  exact fun k hk => ⟨h k hk, by simp⟩

/-- C22 fails: a source name `$i0` has the identifier of the first integer instruction of a function. -/
theorem c22_dollar_fails : ∃ (env : Nat → Info) (n : Str),
    (run env {} [.reset, .get 0, .get 1]).names.lookup 0 = some n ∧ (run env {} [.reset, .get 0, .get 1]).names.lookup 1 = some n :=
  ⟨fun v => if v = 0 then ⟨some "$i0".toList, .global, .other⟩ else ⟨none, .inst, .int⟩, "$i0".toList,
    by decide +kernel, by decide +kernel⟩

/-- C22 fails: a parameter and a global variable with the same name (legal in LLVM, they are in different symbol tables)
have the same identifier in the function, where the parameter hides the constant of the global. -/
theorem c22_parameter_hides_global_fails (n : Str) (s : St) (env : Nat → Info)
    (h0 : env 0 = ⟨some n, .global, .other⟩) (h1 : env 1 = ⟨some n, .arg, .int⟩) (hs : s.names = []) :
    (get env 1 (get env 0 s).2).1 = (get env 0 s).1 := by
  simp [get, h0, h1, hs, compute, List.lookup]

/-! ## C23 -/

/-- C23: no character that `escape` knows about, and no keyword of its list, remains. -/
theorem c23_escaped (n : Str) : isBplKeyword (ident n) = false ∧ ∀ c ∈ ident n, c ≠ '@' ∧ c ∉ special := by
  have hesc : ∀ c ∈ escape n, c ≠ '@' ∧ c ∉ special := by
    intro c hc
    unfold escape at hc
    rw [List.mem_map] at hc
    obtain ⟨d, _, rfl⟩ := hc
    unfold escChar
    by_cases h1 : d = '@'
    · rw [if_pos h1]; decide
    · rw [if_neg h1]
      by_cases h2 : special.contains d = true
      · rw [if_pos h2]; decide
      · rw [if_neg h2]
        exact ⟨h1, by simpa using h2⟩
  unfold ident
  by_cases hk : isBplKeyword (escape n) = true
  · rw [if_pos hk]
    refine ⟨kw_underscore _ hk, ?_⟩
    intro c hc
    rw [List.mem_append] at hc
    rcases hc with hc | hc
    · exact hesc c hc
    · simp only [List.mem_singleton] at hc
      subst hc; decide
  · rw [if_neg hk]
    exact ⟨by simpa using hk, hesc⟩

/-- C23: no identifier is a reserved word. -/
theorem c23_reserved (n : Str) (k : String) (hk : k ∈ Spec.reserved) : ident n ≠ k.toList := by
  have hall : ∀ k ∈ Spec.reserved, isBplKeyword k.toList = true := by decide +kernel
  intro e
  have := (c23_escaped n).1
  rw [e, hall k hk] at this
  cases this

example : ident "free".toList = "free_".toList := by decide

/-- C23 fails: `extends` is a reserved word of Boogie 2 and is left as it is. -/
theorem c23_extends_fails : ident "extends".toList = "extends".toList := by decide

/-- C23: the identifier is legal if the source name is not empty, does not start with a digit, and consists of letters, digits and
the punctuation known to `escape`. -/
theorem c23_legal_partial (n : Str) (hne : n ≠ []) (hc : ∀ c ∈ n, SourceChar c)
    (hd : ∀ c ∈ n.head?, ¬ ('0' ≤ c ∧ c ≤ '9')) : LegalIdent (ident n) := by
  have hchar : ∀ c, SourceChar c → LegalChar (escChar c) := by
    intro c h
    unfold escChar
    by_cases h1 : c = '@'
    · rw [if_pos h1]; right; right; right; decide
    · rw [if_neg h1]
      by_cases h2 : special.contains c = true
      · rw [if_pos h2]; right; right; right; decide
      · rw [if_neg h2]
        rcases h with h | h | h | h
        · exact .inl h
        · exact .inr (.inl h)
        · exact .inr (.inr (.inl h))
        · right; right; right
          simp only [List.contains_eq_mem, decide_eq_true_eq] at h2
          simp only [special, List.mem_cons, List.not_mem_nil, or_false, not_or] at h2 h ⊢
          rcases h with h | h | h | h | h
          · simp [h]
          · simp [h]
          · simp [h]
          · exact absurd h h1
          · exfalso
            simp only [h2, or_self] at h
  have hall : ∀ c ∈ escape n, LegalChar c := by
    intro c h
    unfold escape at h
    rw [List.mem_map] at h
    obtain ⟨d, hd, rfl⟩ := h
    exact hchar d (hc d hd)
  have hhead : ∀ c ∈ (escape n).head?, ¬ ('0' ≤ c ∧ c ≤ '9') := by
    cases n with
    | nil => exact absurd rfl hne
    | cons c r =>
      intro x hx
      have hx' : x = escChar c := by simpa [escape] using hx.symm
      subst hx'
      have hcd := hd c (by simp)
      unfold escChar
      by_cases h1 : c = '@'
      · rw [if_pos h1]; decide
      · rw [if_neg h1]
        by_cases h2 : special.contains c = true
        · rw [if_pos h2]; decide
        · rw [if_neg h2]; exact hcd
  have hnil : escape n ≠ [] := by simpa [escape] using hne
  unfold ident LegalIdent
  by_cases hk : isBplKeyword (escape n) = true
  · rw [if_pos hk]
    refine ⟨by simp, ?_, ?_⟩
    · intro c h
      rw [List.mem_append] at h
      rcases h with h | h
      · exact hall c h
      · simp only [List.mem_singleton] at h
        subst h; right; right; right; decide
    · intro c h
      refine hhead c ?_
      cases he : escape n with
      | nil => exact absurd he hnil
      | cons a b => rw [he] at h; simpa using h
  · rw [if_neg hk]
    exact ⟨hnil, hall, hhead⟩

example : ident "llvm.foo<int>@2".toList = "llvm.foo_int_.2".toList ∧ ident "free".toList = "free_".toList := by decide +kernel

/-- C23 fails: a comma (and every other character not in the list) is kept. -/
theorem c23_other_characters_fails (c : Char) (h1 : c ≠ '@') (h2 : c ∉ special) (hl : ¬ LegalChar c) (a b : Str) :
    ¬ LegalIdent (ident (a ++ c :: b)) := by
  intro h
  refine hl (h.2.1 c ?_)
  have hm : c ∈ escape (a ++ c :: b) := by
    unfold escape
    rw [List.mem_map]
    refine ⟨c, by simp, ?_⟩
    unfold escChar
    rw [if_neg h1, if_neg (by simpa using h2)]
  unfold ident
  split
  · exact List.mem_append_left _ hm
  · exact hm

example : ',' ≠ '@' ∧ ',' ∉ special ∧ ¬ LegalChar ',' := by
  refine ⟨by decide, by decide, ?_⟩
  unfold LegalChar; decide

/-- C23 fails: a name that starts with a digit keeps it. -/
theorem c23_digit_fails (c : Char) (hd : '0' ≤ c ∧ c ≤ '9') (r : Str) : ¬ LegalIdent (ident (c :: r)) := by
  intro h
  have h1 : c ≠ '@' := by intro e; subst e; revert hd; decide
  have h2 : special.contains c = false := by
    rw [Bool.eq_false_iff]
    intro hc
    simp only [special, List.contains_eq_mem, List.mem_cons, List.not_mem_nil, or_false, decide_eq_true_eq] at hc
    revert hd
    rcases hc with h | h | h | h | h | h | h | h | h | h | h | h | h | h | h | h <;> subst h <;> decide
  have he : ∃ t, ident (c :: r) = c :: t := by
    unfold ident
    have : escape (c :: r) = c :: escape r := by
      have h3 : escChar c = c := by unfold escChar; rw [if_neg h1, if_neg (by rw [h2]; decide)]
      simp [escape, h3]
    rw [this]
    split
    · exact ⟨_, rfl⟩
    · exact ⟨_, rfl⟩
  obtain ⟨t, ht⟩ := he
  rw [ht] at h
  exact h.2.2 c (by simp) hd

/-! ## C62 -/

/-- C62: a name is a Rust panic function exactly when it is one of the mangled prefixes followed by 17 characters. -/
theorem c62_panic_iff (name : Str) :
    isRustPanic name = true ↔ ∃ p ∈ rustPanics, ∃ h : Str, h.length = 17 ∧ name = p ++ h := by
  unfold isRustPanic findIsZero
  rw [List.any_eq_true]
  constructor
  · rintro ⟨p, hp, h⟩
    rw [Bool.and_eq_true, decide_eq_true_eq, List.isPrefixOf_iff_prefix] at h
    obtain ⟨⟨t, ht⟩, hl⟩ := h
    refine ⟨p, hp, t, ?_, ht.symm⟩
    rw [← ht, List.length_append] at hl; omega
  · rintro ⟨p, hp, h, hl, rfl⟩
    refine ⟨p, hp, ?_⟩
    rw [Bool.and_eq_true, decide_eq_true_eq, List.isPrefixOf_iff_prefix]
    exact ⟨List.prefix_append p h, by rw [List.length_append]; omega⟩

/-- C62: the allocation functions: an unmangled name matches exactly, a mangled prefix (ending in `17h`) matches with 17
characters of hash, or alone. -/
theorem c62_alloc_iff (search name : Str) : isRustNameMatch search name = true ↔
    name = search ∨ ("17h".toList <:+ search ∧ ∃ h : Str, h.length = 17 ∧ name = search ++ h) := by
  unfold isRustNameMatch
  rw [Bool.or_eq_true, Bool.and_eq_true, Bool.and_eq_true, decide_eq_true_eq, decide_eq_true_eq, List.isPrefixOf_iff_prefix,
    List.isSuffixOf_iff_suffix]
  constructor
  · rintro (⟨⟨h1, t, ht⟩, h3⟩ | h)
    · right
      refine ⟨h1, t, ?_, ht.symm⟩
      rw [← ht, List.length_append] at h3; omega
    · exact .inl h.symm
  · rintro (h | ⟨h1, h, hl, rfl⟩)
    · exact .inr h.symm
    · left
      exact ⟨⟨h1, List.prefix_append _ _⟩, by rw [List.length_append]; omega⟩

/-- C62: no name matches two entries of the replacement table, so the order of its entries does not matter. -/
theorem c62_alloc_unique (name k1 k2 : Str) (h1 : k1 ∈ allocKeys) (h2 : k2 ∈ allocKeys)
    (m1 : isRustNameMatch k1 name = true) (m2 : isRustNameMatch k2 name = true) : k1 = k2 := by
  have pre : ∀ k, isRustNameMatch k name = true → k <+: name := by
    intro k h
    rcases (c62_alloc_iff k name).1 h with h | ⟨_, t, _, h⟩
    · rw [h]; exact List.prefix_refl _
    · rw [h]; exact List.prefix_append _ _
  have hpp := List.prefix_or_prefix_of_prefix (pre k1 m1) (pre k2 m2)
  have key : ∀ a ∈ allocKeys, ∀ b ∈ allocKeys, a.isPrefixOf b = true → a = b ∨ a = "__rust_alloc".toList := by decide +kernel
  have hru : ∀ b ∈ allocKeys, isRustNameMatch "__rust_alloc".toList name = true → isRustNameMatch b name = true →
      "__rust_alloc".toList.isPrefixOf b = true → b = "__rust_alloc".toList := by
    intro b hb ha hbm hpre
    rcases (c62_alloc_iff _ name).1 ha with h | ⟨h, _⟩
    · have hb' := pre b hbm
      rw [h] at hb'
      rw [List.isPrefixOf_iff_prefix] at hpre
      exact (hpre.eq_of_length (Nat.le_antisymm hpre.length_le hb'.length_le)).symm
    · exact absurd h (by rw [← List.isSuffixOf_iff_suffix]; decide +kernel)
  rcases hpp with h | h
  · rcases key k1 h1 k2 h2 (by rw [List.isPrefixOf_iff_prefix]; exact h) with e | e
    · exact e
    · subst e
      exact (hru k2 h2 m1 m2 (by rw [List.isPrefixOf_iff_prefix]; exact h)).symm
  · rcases key k2 h2 k1 h1 (by rw [List.isPrefixOf_iff_prefix]; exact h) with e | e
    · exact e.symm
    · subst e
      exact hru k1 h1 m2 m1 (by rw [List.isPrefixOf_iff_prefix]; exact h)

example : isRustPanic "_ZN4core9panicking5panic17h0123456789abcdefE".toList = true ∧
    isRustPanic "_ZN4core9panicking5panic17h0123456789abcdef".toList = false ∧
    isRustNameMatch "_ZN5alloc5alloc5alloc17h".toList "_ZN5alloc5alloc5alloc17h0123456789abcdefE".toList = true := by
  decide +kernel

/-- C62: the replacement of allocation functions also accepts the bare prefix, without a hash. -/
theorem c62_bare_prefix_fails (search : Str) : isRustNameMatch search search = true :=
  (c62_alloc_iff search search).2 (.inl rfl)

/-! ## C59 -/

theorem longestAt_full (L : Rx) (pre rest : Str) (h : L pre rest [] = true) : longestAt L pre rest rest.length = some rest := by
  cases hr : rest.length with
  | zero =>
    have : rest = [] := List.length_eq_zero_iff.1 hr
    subst this
    simp [longestAt, h]
  | succ k =>
    unfold longestAt
    rw [← hr, List.take_length, List.drop_length, if_pos h]

theorem longestAt_some {L : Rx} {pre rest m : Str} {k : Nat} (h : longestAt L pre rest k = some m) :
    ∃ j, j ≤ k ∧ m = rest.take j ∧ L pre m (rest.drop j) = true := by
  induction k with
  | zero =>
    unfold longestAt at h
    split at h
    · rename_i hl
      have := Option.some.inj h
      subst this
      exact ⟨0, Nat.le_refl _, by simp, by simpa using hl⟩
    · cases h
  | succ k ih =>
    unfold longestAt at h
    split at h
    · rename_i hl
      have := Option.some.inj h
      subst this
      exact ⟨k + 1, Nat.le_refl _, rfl, hl⟩
    · obtain ⟨j, hj, h1, h2⟩ := ih h
      exact ⟨j, by omega, h1, h2⟩

theorem firstMatch_length {L : Rx} {pre rest m : Str} (h : firstMatch L pre rest = some m) : m.length ≤ rest.length := by
  induction rest generalizing pre with
  | nil =>
    obtain ⟨j, _, h1, _⟩ := longestAt_some h
    simp [h1]
  | cons c rest ih =>
    unfold firstMatch at h
    split at h
    · rename_i hl
      have := Option.some.inj h
      subst this
      obtain ⟨j, _, h1, _⟩ := longestAt_some hl
      rw [h1, List.length_take]; exact Nat.min_le_right _ _
    · have := ih h
      simp only [List.length_cons]; omega

/-- The first match is the whole text exactly when the expression matches the whole text. -/
theorem firstMatch_whole (L : Rx) (name : Str) : firstMatch L [] name = some name ↔ L [] name [] = true := by
  cases name with
  | nil => simp [firstMatch, longestAt]
  | cons c rest =>
    constructor
    · intro h
      unfold firstMatch at h
      split at h
      · rename_i m hl
        obtain ⟨j, hj, h1, h2⟩ := longestAt_some hl
        have hm := Option.some.inj h
        subst hm
        have hlen := congrArg List.length h1
        rw [List.length_take] at hlen
        have hdrop : (c :: rest).drop j = [] := List.drop_eq_nil_of_le (by omega)
        rwa [hdrop] at h2
      · have := firstMatch_length h
        simp only [List.length_cons] at this; omega
    · intro h
      unfold firstMatch
      have := longestAt_full L [] (c :: rest) h
      rw [List.length_cons] at this
      rw [this]

/-- C59: with any list of patterns, a function is checked exactly when there are no patterns or its complete name matches
one of them. -/
theorem c59_should_check (checked : List Rx) (name : Str) :
    shouldCheckFunction checked name = true ↔ checked = [] ∨ ∃ L ∈ checked, L [] name [] = true := by
  unfold shouldCheckFunction
  have : ∀ L : Rx, (match firstMatch L [] name with | some m => decide (m = name) | none => false) = true ↔ L [] name [] = true := by
    intro L
    rw [← firstMatch_whole]
    cases firstMatch L [] name with
    | none => simp
    | some m => simp
  rw [Bool.or_eq_true, List.any_eq_true, beq_iff_eq, List.length_eq_zero_iff]
  constructor
  · rintro (h | ⟨L, hL, h⟩)
    · exact .inl h
    · exact .inr ⟨L, hL, (this L).1 h⟩
  · rintro (h | ⟨L, hL, h⟩)
    · exact .inl h
    · exact .inr ⟨L, hL, (this L).2 h⟩

/-- C59: the entry points are the functions listed. -/
theorem c59_entry_point (eps : List Str) (name : Str) : isEntryPoint eps name = true ↔ name ∈ eps := by
  unfold isEntryPoint
  rw [List.any_eq_true]
  simp

/-- The pattern `a|ab` matches the name `ab` completely (although a search that stops at the first alternative would find `a`). -/
example : shouldCheckFunction [fun _ m _ => decide (m = ['a']) || decide (m = ['a', 'b'])] ['a', 'b'] = true ∧
    shouldCheckFunction [fun _ m _ => decide (m = ['a']) || decide (m = ['a', 'b'])] ['a', 'b', 'c'] = false := by decide

/-- C59 fails at one place: the record of the entry of an entry point compares the Boogie identifier, so a listed function whose
name is changed by escaping is missed. -/
theorem c59_record_entry_fails : ∃ (eps : List Str) (name : Str), isEntryPoint eps name = true ∧ recordsEntry eps name = false :=
  ⟨["a-b".toList], "a-b".toList, by decide, by decide +kernel⟩

/-- For names that escaping does not change, the two tests agree. -/
theorem c59_record_entry (eps : List Str) (name : Str) (h : ident name = name) :
    recordsEntry eps name = isEntryPoint eps name := by
  unfold recordsEntry; rw [h]

end Smack.Naming
