import Verif.Driver.Lemmas

/-
C48-C51: sub-property selection, verdicts, merged traces.
-/

namespace Smack.Driver

/-! ### C48: selection of memory-safety sub-properties -/

/-- A well-formed assertion line that satisfies every hypothesis below. -/
def exLine (attr : Option (List Char)) : AssertLine := ⟨"  ".toList, attr, "$i1 != 0".toList, [], ['\n']⟩

theorem exLine_wf (attr : Option (List Char)) (h : ∀ a, attr = some a → a ≠ [] ∧ '\n' ∉ a ∧ '}' ∉ a) : (exLine attr).Wf where
  indent := by
    show ∀ c ∈ "  ".toList, Blank c
    intro c hc
    exact (isWs_iff c).1 (by revert c; decide)
  attr := h
  expr_ne := ⟨'$', "i1 != 0".toList, rfl, (isWs_false_iff '$').1 (by decide), by decide⟩
  expr := by
    show '\n' ∉ "$i1 != 0".toList ∧ '}' ∉ "$i1 != 0".toList
    decide
  tail := by
    show '\n' ∉ ([] : List Char) ∧ '}' ∉ ([] : List Char) ∧ ';' ∉ ([] : List Char)
    decide
  eol := Or.inr rfl

example : (exLine (some "valid_free".toList)).text = "  assert {:valid_free} $i1 != 0;\n".toList := by decide

/-- What the selection does with every assertion of the program: exact characterisation. -/
theorem c48_selection_exact (check : Check) (l : AssertLine) (h : l.Wf) :
    ((hasMemorySafety check = true ∨ (∀ p ∈ memSafeSubprops, check p = false) ∨
        (∃ p ∈ memSafeSubprops, check p = true ∧ l.belongs p)) → selection check [l.text] = [l.text]) ∧
    (¬(hasMemorySafety check = true ∨ (∀ p ∈ memSafeSubprops, check p = false) ∨
        (∃ p ∈ memSafeSubprops, check p = true ∧ l.belongs p)) → selection check [l.text] = [l.disabled.text]) := by
  rw [selection]
  cases hm : hasMemorySafety check with
  | true => simp
  | false =>
    simp only [Bool.false_eq_true, if_false, false_or, List.map_cons, List.map_nil, selectLine_eq h]
    have hnil : selectedProps check = [] ↔ ∀ p ∈ memSafeSubprops, check p = false := by
      rw [selectedProps, List.filterMap_eq_nil_iff]
      constructor
      · intro hh p hp
        cases hc : check p with
        | false => rfl
        | true =>
          have := hh p (List.mem_filter.2 ⟨hp, hc⟩)
          simp only [memSafeSubprops, List.mem_cons, List.not_mem_nil, or_false] at hp
          rcases hp with rfl | rfl | rfl <;> cases this
      · intro hh p hp
        rw [List.mem_filter] at hp
        have := hh p hp.1
        rw [hp.2] at this; cases this
    have hmem : (∃ a, l.attr = some a ∧ a ∈ selectedProps check) ↔
        ∃ p ∈ memSafeSubprops, check p = true ∧ l.belongs p := by
      constructor
      · rintro ⟨a, ha, hs⟩
        have hs' := hs
        rw [selectedProps, List.mem_filterMap] at hs'
        obtain ⟨p, hp, hpa⟩ := hs'
        rw [List.mem_filter] at hp
        exact ⟨p, hp.1, hp.2, by rw [AssertLine.belongs, ha, hpa]⟩
      · rintro ⟨p, hp, hc, hb⟩
        rw [AssertLine.belongs] at hb
        cases hpa : p.attr with
        | none =>
          simp only [memSafeSubprops, List.mem_cons, List.not_mem_nil, or_false] at hp
          rcases hp with rfl | rfl | rfl <;> cases hpa
        | some a => exact ⟨a, by rw [hb, hpa], (mem_selectedProps hpa).2 ⟨hp, hc⟩⟩
    constructor
    · rintro (h1 | h2)
      · rw [if_pos (Or.inl (hnil.2 h1))]
      · rw [if_pos (Or.inr (hmem.2 h2))]
    · intro h1
      rw [if_neg]
      rintro (h2 | h2)
      · exact h1 (Or.inl (hnil.1 h2))
      · exact h1 (Or.inr (hmem.1 h2))

/-- The selection works line by line, in order. -/
theorem c48_selection_lines (check : Check) (a b : List (List Char)) :
    selection check (a ++ b) = selection check a ++ selection check b ∧
    (selection check a).length = a.length := by
  rw [selection, selection, selection]
  cases hasMemorySafety check <;> simp

/-- C48 for the requests where it holds: the property is a memory-safety sub-property itself, or none or all of the
sub-properties are requested. Missing: user assertions, overflow checks and Rust panics requested together with one
or two of the sub-properties; `c48_mixed_fails` shows that the claim is false there. -/
theorem c48_requested_kept_partial (check : Check) (p : Prp) (hp : check p = true) (l : AssertLine) (h : l.Wf)
    (hb : l.belongs p)
    (hr : p ∈ memSafeSubprops ∨ (∀ q ∈ memSafeSubprops, check q = false) ∨ ∀ q ∈ memSafeSubprops, check q = true) :
    selection check [l.text] = [l.text] := by
  refine (c48_selection_exact check l h).1 ?_
  rcases hr with hr | hr | hr
  · exact Or.inr (Or.inr ⟨p, hr, hp, hb⟩)
  · exact Or.inr (Or.inl hr)
  · exact Or.inl (by rw [hasMemorySafety, List.all_eq_true]; exact hr)

example : selection (fun p => p == .validFree) [(exLine (some "valid_free".toList)).text] =
    ["  assert {:valid_free} $i1 != 0;\n".toList] := by decide

/-- Lines that are no assertions are never touched. -/
theorem c48_other_lines_kept (check : Check) (line : List Char)
    (h : ∀ w r, (∀ c ∈ w, Blank c) → line ≠ w ++ ("assert".toList ++ r)) : selection check [line] = [line] := by
  have hm : matchAssert line = none := by
    rw [matchAssert, dropPrefix?_none]
    intro r e
    refine h (line.takeWhile isWs) r (fun c hc => (isWs_iff c).1 ?_) ?_
    · have := List.all_takeWhile (p := isWs) (l := line)
      exact List.all_eq_true.1 this c hc
    · rw [← e, List.takeWhile_append_dropWhile]
  rw [selection]
  cases hasMemorySafety check with
  | true => rfl
  | false => simp [selectLine, hm]

example : selection (fun p => p == .validFree) ["  assume $i1 != 0;\n".toList] = ["  assume $i1 != 0;\n".toList] := by decide

/-- Assertions of the sub-properties that are not requested are disabled when at least one other is requested. -/
theorem c48_unrequested_disabled (check : Check) (p q : Prp) (hp : p ∈ memSafeSubprops) (hcp : check p = false)
    (hq : q ∈ memSafeSubprops) (hcq : check q = true) (l : AssertLine) (h : l.Wf) (hb : l.belongs p) :
    selection check [l.text] = [l.disabled.text] := by
  refine (c48_selection_exact check l h).2 ?_
  rintro (h1 | h1 | ⟨r, hr, hcr, hbr⟩)
  · rw [hasMemorySafety, List.all_eq_true] at h1
    rw [h1 p hp] at hcp; cases hcp
  · rw [h1 q hq] at hcq; cases hcq
  · have : r = p := attr_injective (by rw [← hbr, ← hb])
    rw [this, hcp] at hcr; cases hcr

example : selection (fun p => p == .validFree) [(exLine (some "valid_deref".toList)).text] =
    ["  assert true;\n".toList] := by decide

/-- C48 fails: whenever a property that is not a memory-safety sub-property is requested together with some but not
all sub-properties, every assertion of that property is replaced by `assert true;` — e.g. the user's assertions
under `--check assertions valid-deref`. -/
theorem c48_mixed_fails (check : Check) (p : Prp) (_hp : check p = true) (hpm : p ∉ memSafeSubprops)
    (q : Prp) (hq : q ∈ memSafeSubprops) (hcq : check q = true)
    (q' : Prp) (hq' : q' ∈ memSafeSubprops) (hcq' : check q' = false)
    (l : AssertLine) (h : l.Wf) (hb : l.belongs p) :
    selection check [l.text] = [l.disabled.text] := by
  refine (c48_selection_exact check l h).2 ?_
  rintro (h1 | h1 | ⟨r, hr, _, hbr⟩)
  · rw [hasMemorySafety, List.all_eq_true] at h1
    rw [h1 q' hq'] at hcq'; cases hcq'
  · rw [h1 q hq] at hcq; cases hcq
  · have : r = p := attr_injective (by rw [← hbr, ← hb])
    exact hpm (this ▸ hr)

example : selection (fun p => p == .assertions || p == .validDeref) [(exLine none).text] =
    ["  assert true;\n".toList] := by decide

/-! ### C49: classification of the verifier's output -/

/-- "No errors" is reported exactly when the output mentions success and no time-out. -/
theorem c49_verified_exact (files : List Char → Option (List (List Char))) (ver : Verifier) (out : List Char) :
    verificationResult files ver out = some .verified ↔ ¬SaysTimeout out ∧ SaysSuccess out := by
  rw [← timeout_iff, ← verified_iff, verificationResult]
  by_cases h1 : reTimeout.search out = true
  · simp [h1]
  · by_cases h2 : reVerified.search out = true
    · simp [h1, h2]
    · by_cases h3 : reFailed.search out = true
      · simp only [h1, h2, h3, if_true]
        constructor
        · intro h
          exfalso
          revert h
          cases failingAttr files ver out with
          | none => intro h; cases h
          | some a =>
            rw [Option.map_some]
            intro h
            cases a with
            | none => cases h
            | some a =>
              have h := (kindOf_iff a .verified).1 (Option.some.inj h)
              rcases h with h | ⟨_, h⟩
              · revert h
                simp [kindTable]
              · cases h
        · rintro ⟨_, h⟩; cases h
      · simp [h1, h2, h3]

/-- A time-out is reported exactly when the output mentions one. -/
theorem c49_timeout_exact (files : List Char → Option (List (List Char))) (ver : Verifier) (out : List Char) :
    verificationResult files ver out = some .timeout ↔ SaysTimeout out := by
  rw [← timeout_iff, verificationResult]
  by_cases h1 : reTimeout.search out = true
  · simp [h1]
  · by_cases h2 : reVerified.search out = true
    · simp [h1, h2]
    · by_cases h3 : reFailed.search out = true
      · simp only [h1, h2, h3, if_true]
        constructor
        · intro h
          exfalso
          revert h
          cases failingAttr files ver out with
          | none => intro h; cases h
          | some a =>
            rw [Option.map_some]
            intro h
            cases a with
            | none => cases h
            | some a =>
              have h := (kindOf_iff a .timeout).1 (Option.some.inj h)
              rcases h with h | ⟨_, h⟩
              · revert h
                simp [kindTable]
              · cases h
        · intro h; cases h
      · simp [h1, h2, h3]

/-- An error is reported only for an output that mentions a failure and neither success nor a time-out. -/
theorem c49_error_only_on_failure (files : List Char → Option (List (List Char))) (ver : Verifier) (out : List Char)
    (r : VRes) (h : verificationResult files ver out = some r) (hr : r.isError = true) :
    SaysFailure out ∧ ¬SaysTimeout out ∧ ¬SaysSuccess out := by
  rw [← timeout_iff, ← verified_iff, ← failed_iff]
  rw [verificationResult] at h
  split at h
  · cases h; cases hr
  · split at h
    · cases h; cases hr
    · split at h
      · exact ⟨by assumption, by assumption, by assumption⟩
      · cases h; cases hr

/-- Conversely a mentioned failure without success or time-out is reported as an error (the attribute of the failing
assertion decides which), for the verifiers that need no file access. -/
theorem c49_failure_is_error (files : List Char → Option (List (List Char))) (ver : Verifier) (out : List Char)
    (hv : ver ≠ .boogie) (h1 : SaysFailure out) (h2 : ¬SaysTimeout out) (h3 : ¬SaysSuccess out) :
    ∃ r, verificationResult files ver out = some r ∧ r.isError = true := by
  rw [← timeout_iff] at h2
  rw [← verified_iff] at h3
  rw [← failed_iff] at h1
  have hk : ∀ a, (kindOf a).isError = true := by
    intro a
    cases a with
    | none => rfl
    | some a =>
      have := (kindOf_iff a _).1 rfl
      rcases this with h | ⟨_, h⟩
      · generalize kindOf (some a) = r at h
        simp only [kindTable, List.mem_cons, Prod.mk.injEq, List.not_mem_nil, or_false] at h
        rcases h with ⟨_, h⟩ | ⟨_, h⟩ | ⟨_, h⟩ | ⟨_, h⟩ | ⟨_, h⟩ <;> rw [h] <;> rfl
      · rw [h]; rfl
  rw [verificationResult, if_neg h2, if_neg h3, if_pos h1]
  cases ver with
  | boogie => exact absurd rfl hv
  | corral => exact ⟨_, rfl, hk _⟩
  | symbooglix => exact ⟨_, rfl, hk _⟩

/-- Otherwise the result is unknown. -/
theorem c49_unknown (files : List Char → Option (List (List Char))) (ver : Verifier) (out : List Char)
    (h1 : ¬SaysFailure out) (h2 : ¬SaysTimeout out) (h3 : ¬SaysSuccess out) :
    verificationResult files ver out = some .unknown := by
  rw [← timeout_iff] at h2
  rw [← verified_iff] at h3
  rw [← failed_iff] at h1
  rw [verificationResult, if_neg h2, if_neg h3, if_neg h1]

example : verificationResult (fun _ => none) .corral "Segmentation fault".toList = some .unknown := by decide +kernel
example : verificationResult (fun _ => none) .corral "Program has no bugs".toList = some .verified := by decide +kernel

/-- Corral: the kind of the first failing assertion is reported. -/
theorem c49_corral_kind (files : List Char → Option (List (List Char))) (pre a t eol : List Char) (r : VRes)
    (ha : a ≠ []) (han : '\n' ∉ a) (htn : '\n' ∉ t) (htb : '}' ∉ t) (heol : eol = [] ∨ ∃ r, eol = '\n' :: r)
    (hfirst : ∀ u v, pre ++ ("ASSERTION FAILS assert {:".toList ++ (a ++ '}' :: (t ++ eol))) =
      u ++ ("ASSERTION FAILS assert {:".toList ++ v) → pre.length ≤ u.length)
    (h1 : SaysFailure (pre ++ ("ASSERTION FAILS assert {:".toList ++ (a ++ '}' :: (t ++ eol)))))
    (h2 : ¬SaysTimeout (pre ++ ("ASSERTION FAILS assert {:".toList ++ (a ++ '}' :: (t ++ eol)))))
    (h3 : ¬SaysSuccess (pre ++ ("ASSERTION FAILS assert {:".toList ++ (a ++ '}' :: (t ++ eol))))) :
    verificationResult files .corral (pre ++ ("ASSERTION FAILS assert {:".toList ++ (a ++ '}' :: (t ++ eol)))) = some r ↔
      HasKind a r := by
  rw [← timeout_iff] at h2
  rw [← verified_iff] at h3
  rw [← failed_iff] at h1
  have hs : findAttr "ASSERTION FAILS assert {:".toList (pre ++ ("ASSERTION FAILS assert {:".toList ++ (a ++ '}' :: (t ++ eol)))) = some a := by
    rw [findAttr_skip _ hfirst, findAttr_here _ (by decide) ha han htn htb heol]
  rw [verificationResult, if_neg h2, if_neg h3, if_pos h1, failingAttr, hs, Option.map_some, Option.some.injEq, kindOf_iff]

example : verificationResult (fun _ => none) .corral
    "ASSERTION FAILS assert {:valid_free} x;\ncan fail".toList
    = some .invalidFree := by decide +kernel

/-- Corral: a failure without an attributed assertion is an assertion failure. -/
theorem c49_corral_plain (files : List Char → Option (List (List Char))) (out : List Char)
    (hno : ¬Occurs "ASSERTION FAILS assert {:".toList out)
    (h1 : SaysFailure out) (h2 : ¬SaysTimeout out) (h3 : ¬SaysSuccess out) :
    verificationResult files .corral out = some .assertionFailure := by
  rw [← timeout_iff] at h2
  rw [← verified_iff] at h3
  rw [← failed_iff] at h1
  rw [verificationResult, if_neg h2, if_neg h3, if_pos h1, failingAttr, findAttr_none hno]
  rfl

example : verificationResult (fun _ => none) .corral
    "ASSERTION FAILS assert x;\ncan fail".toList
    = some .assertionFailure := by decide +kernel

/-- Boogie: the kind of the assertion on the line of the Boogie file that the first error message names. -/
theorem c49_boogie_kind (files : List Char → Option (List (List Char))) (pre name n c rest : List Char) (r : VRes)
    (hpre : '(' ∉ pre) (hend : pre = [] ∨ ∃ u d, pre = u ++ [d] ∧ ¬FileChar d)
    (hname : ∀ x ∈ name, FileChar x) (hbpl : ∃ base, name = base ++ ".bpl".toList)
    (hn : PosNum n) (hc : c ≠ []) (hcd : ∀ x ∈ c, isDig x = true)
    (ls : List (List Char)) (hf : files name = some ls) (l : AssertLine) (hl : l.Wf) (hind : l.indent.all (· == ' '))
    (hline : ls[decValue n - 1]? = some l.text)
    (out : List Char) (hout : out = pre ++ (name ++ ('(' :: (n ++ (',' :: (c ++ (boogieMsg ++ rest)))))))
    (h1 : SaysFailure out) (h2 : ¬SaysTimeout out) (h3 : ¬SaysSuccess out) :
    verificationResult files .boogie out = some r ↔
      (match l.attr with | some a => HasKind a r | none => r = .assertionFailure) := by
  replace hend : pre = [] ∨ ∃ u d, pre = u ++ [d] ∧ isFileChar d = false := by
    rcases hend with h | ⟨u, d, e, hd⟩
    · exact Or.inl h
    · refine Or.inr ⟨u, d, e, ?_⟩
      cases hh : isFileChar d with
      | false => rfl
      | true => exact absurd ((isFileChar_iff d).1 hh) hd
  replace hname : ∀ x ∈ name, isFileChar x = true := fun x hx => (isFileChar_iff x).2 (hname x hx)
  rw [← timeout_iff] at h2
  rw [← verified_iff] at h3
  rw [← failed_iff] at h1
  have hn0 := posNum_pos hn
  obtain ⟨d, ds, hd1, hd2, hd3⟩ := hn
  have hnd : ∀ x ∈ n, isDig x = true := by
    intro x hx
    rw [hd1] at hx
    rcases List.mem_cons.1 hx with rfl | hx
    · simp only [isDig19, isDig, Bool.and_eq_true, decide_eq_true_eq] at hd2 ⊢
      refine ⟨?_, hd2.2⟩
      exact Char.le_trans (by decide) hd2.1
    · exact hd3 x hx
  have hne : name ≠ [] := by
    obtain ⟨base, hb⟩ := hbpl
    rw [hb]
    intro h
    have := (List.append_eq_nil_iff.1 h).2
    revert this; decide
  have herr : boogieErr out = some (name, natOf n) := by
    rw [hout, boogieErr_skip hpre hend]
    have := boogieErrHere_eq (r := rest) hne hname (by rw [hd1]; simp) hnd hc hcd
    cases hname' : name with
    | nil => exact absurd hname' hne
    | cons x name' =>
      rw [hname'] at this
      rw [List.cons_append, boogieErr, ← List.cons_append, this]
      rfl
  have hsuf : ".bpl".toList.isSuffixOf name = true := by
    obtain ⟨base, hb⟩ := hbpl
    rw [List.isSuffixOf_iff_suffix]
    exact ⟨base, hb.symm⟩
  have hattr : failingAttr files .boogie out = some l.attr := by
    rw [failingAttr, herr]
    dsimp only
    rw [if_pos hsuf, hf]
    dsimp only
    rw [pyIndexPred, if_neg hn0, natOf_eq, hline]
    dsimp only
    congr 1
    have hsp : ∀ x ∈ l.indent, x = ' ' := by
      intro x hx
      have := List.all_eq_true.1 hind x hx
      exact eq_of_beq this
    have hskip : ∀ y, findAttr "assert {:".toList (l.indent ++ y) = findAttr "assert {:".toList y := by
      intro y
      have : ∀ i : List Char, (∀ x ∈ i, x = ' ') → findAttr "assert {:".toList (i ++ y) = findAttr "assert {:".toList y := by
        intro i hi
        induction i with
        | nil => rfl
        | cons x i ih =>
          have hx := hi x List.mem_cons_self
          rw [List.cons_append, findAttr]
          have : dropPrefix? "assert {:".toList (x :: (i ++ y)) = none := by
            refine dropPrefix?_none fun r hr => ?_
            rw [hx] at hr
            have := congrArg List.head? hr
            revert this; simp
          rw [this]
          exact ih fun z hz => hi z (List.mem_cons_of_mem _ hz)
      exact this _ hsp
    cases ha : l.attr with
    | some a =>
      obtain ⟨ha1, ha2, ha3⟩ := hl.attr a ha
      have : l.text = l.indent ++ ("assert {:".toList ++ (a ++ '}' :: ((' ' :: l.expr ++ ';' :: l.tail) ++ l.eol))) := by
        simp [AssertLine.text, ha]
      rw [this, hskip, findAttr_here _ (by decide) ha1 ha2]
      · simp [hl.expr.1, hl.tail.1]
      · simp [hl.expr.2, hl.tail.2.1]
      · rcases hl.eol with h | h
        · exact Or.inl h
        · exact Or.inr ⟨[], h⟩
    | none =>
      refine findAttr_no_brace _ ?_
      have hi : '}' ∉ l.indent := by
        intro hm
        have := hsp _ hm
        revert this; decide
      have he : '}' ∉ l.eol := by rcases hl.eol with h | h <;> rw [h] <;> decide
      simp [AssertLine.text, ha, hi, he, hl.expr.2, hl.tail.2.1]
  rw [verificationResult, if_neg h2, if_neg h3, if_pos h1, hattr, Option.map_some, Option.some.injEq]
  cases l.attr with
  | some a => exact kindOf_iff a r
  | none => exact eq_comm

example : verificationResult (fun _ => some ["procedure p() {".toList, (exLine (some "overflow".toList)).text]) .boogie
    "a.bpl(2,3): Error: This assertion might not hold\n can fail".toList = some .overflow := by decide +kernel

/-- Distinct results have distinct exit codes. -/
theorem c49_codes_distinct (r s : VRes) (h : r.code = s.code) : r = s := by
  cases r <;> cases s <;> first | rfl | (revert h; decide)

/-- Exit code 0 and the message "SMACK found no errors…" belong to `VERIFIED` only. -/
theorem c49_no_errors_message (r : VRes) (u : Option (List Char)) :
    (r.code = 0 ↔ r = .verified) ∧ (Occurs "SMACK found no errors".toList (r.message u) → r = .verified) := by
  refine ⟨by cases r <;> decide, ?_⟩
  intro h
  by_cases hr : r = .verified
  · exact hr
  · have h2 := (hasSub_iff _ _).2 h
    rw [message_indep hr, message_no_success hr] at h2
    cases h2

/-- Every result has its own message. -/
theorem c49_messages_distinct (r s : VRes) (u : Option (List Char)) (h : r.message u = s.message u) : r = s := by
  by_cases hr : r = .verified
  · subst hr
    refine ((c49_no_errors_message s u).2 ?_).symm
    rw [← h]
    exact message_verified u
  · by_cases hs : s = .verified
    · subst hs
      refine (c49_no_errors_message r u).2 ?_
      rw [h]
      exact message_verified u
    · rw [message_indep hr, message_indep hs] at h
      cases r <;> cases s <;> first | rfl | (exfalso; revert h; decide +kernel)

/-- A message announces an error exactly for the results of a failed check: "SMACK found an error." or
"SMACK found an error: …". -/
theorem c49_error_message (r : VRes) (u : Option (List Char)) :
    r.isError = true ↔ ∃ t, r.message u = "SMACK found an error.".toList ++ t ∨ r.message u = "SMACK found an error: ".toList ++ t := by
  by_cases hr : r = .verified
  · subst hr
    refine ⟨fun h => (by cases h), ?_⟩
    rintro ⟨t, h | h⟩ <;>
    · rw [message_verified_eq, List.append_assoc] at h
      have h2 := congrArg (List.take 14) h
      rw [List.take_append_of_le_length (by decide), List.take_append_of_le_length (by decide)] at h2
      exact absurd h2 (by decide)
  · rw [message_indep hr]
    constructor
    · intro h
      cases r <;> first
        | exact ⟨[], Or.inl (by decide +kernel)⟩
        | exact absurd h (by decide)
        | exact ⟨"invalid pointer dereference.".toList, Or.inr (by decide +kernel)⟩
        | exact ⟨"invalid memory deallocation.".toList, Or.inr (by decide +kernel)⟩
        | exact ⟨"memory leak.".toList, Or.inr (by decide +kernel)⟩
        | exact ⟨"integer overflow.".toList, Or.inr (by decide +kernel)⟩
        | exact ⟨"Rust panic.".toList, Or.inr (by decide +kernel)⟩
    · rintro ⟨t, h⟩
      have h2 : (VRes.message none r).take 14 = "SMACK found an".toList := by
        rcases h with h | h <;> rw [h, List.take_append_of_le_length (by decide)] <;> decide
      cases r <;> first | rfl | (exfalso; revert h2; decide +kernel)

/-- Boogie's summary: verified with a positive number of procedures and no errors. -/
theorem c49_boogie_summary_verified (files : List Char → Option (List (List Char))) (ver : Verifier) (v : List Char) (hv : PosNum v) (b : Bool) :
    verificationResult files ver (boogieSummary v ['0'] b) = some .verified := by
  rw [c49_verified_exact]
  refine ⟨?_, Or.inl ⟨v, hv, "Boogie program verifier finished with ".toList, if b then ['s'] else [], ?_⟩⟩
  · exact summary_no_timeout (posNum_dig hv) (by decide) b
  · simp [summary_eq]

/-- Boogie's summary with errors is never "no errors", whatever the number of verified procedures. -/
theorem c49_boogie_summary_errors (files : List Char → Option (List (List Char))) (ver : Verifier) (v e : List Char)
    (hv : ∀ c ∈ v, isDig c = true) (he : PosNum e) (b : Bool) (hver : ver ≠ .boogie) :
    ∃ r, verificationResult files ver (boogieSummary v e b) = some r ∧ r.isError = true := by
  refine c49_failure_is_error files ver _ hver (Or.inl ⟨e, he, "Boogie program verifier finished with ".toList ++ v, if b then ['s'] else [], ?_⟩)
    (summary_no_timeout hv (posNum_dig he) b) (summary_no_success hv he b)
  simp [summary_eq]

example : verificationResult (fun _ => none) .corral (boogieSummary ['1', '2'] ['1', '0'] true) = some .assertionFailure := by
  decide +kernel

/-- C49 fails for inconclusive runs: an output whose summary counts inconclusive procedures (or any other trouble that
is not called a time-out) after "0 errors" is reported as verified. -/
theorem c49_inconclusive_fails (files : List Char → Option (List (List Char))) (ver : Verifier) (v n : List Char)
    (hv : PosNum v) (hn : PosNum n) :
    verificationResult files ver (boogieSummary v ['0'] true ++ (", ".toList ++ (n ++ " inconclusive".toList))) = some .verified := by
  rw [c49_verified_exact]
  refine ⟨?_, Or.inl ⟨v, hv, "Boogie program verifier finished with ".toList, 's' :: (", ".toList ++ (n ++ " inconclusive".toList)), ?_⟩⟩
  · exact inconclusive_no_timeout (posNum_dig hv) (posNum_dig hn)
  · simp [summary_eq]

/-- C49 fails for contradictory outputs: the success text wins over a failure text. -/
theorem c49_success_wins_fails (files : List Char → Option (List (List Char))) (ver : Verifier) :
    verificationResult files ver "can fail: no bugs".toList = some .verified ∧ SaysFailure "can fail: no bugs".toList := by
  constructor
  · rw [verificationResult, if_neg (by decide +kernel), if_pos (by decide +kernel)]
  · exact Or.inr (Or.inl ⟨[], ": no bugs".toList, by decide⟩)

/-! ### C50: the SV-COMP verdict -/

/-- The reported verdict is "verified" exactly when the verifier reported success without time-out, or it timed out after
exhausting recursion bound 13 or more. -/
theorem c50_verdict_exact (files : List Char → Option (List (List Char))) (out : List Char) :
    svcompResult files out = some .verified ↔ (¬SaysTimeout out ∧ SaysSuccess out) ∨ (SaysTimeout out ∧ ReachedBound 13 out) := by
  rw [← c49_verified_exact files .corral, ← c49_timeout_exact files .corral, svcompResult, ← unrollMax_iff (by decide)]
  cases hr : verificationResult files .corral out with
  | none => simp
  | some r =>
    cases r with
    | timeout =>
      by_cases h : unrollMax out ≥ loopUnrollBar
      · simp [h]; exact h
      · simp [h]; exact Nat.lt_of_not_le h
    | _ => simp

/-- C50 for the runs that do not time out. Missing: runs that time out, where the claim is false
(`c50_timeout_fails`). -/
theorem c50_verified_partial (files : List Char → Option (List (List Char))) (out : List Char) (ht : ¬SaysTimeout out)
    (h : svcompResult files out = some .verified) : SaysSuccess out := by
  rcases (c50_verdict_exact files out).1 h with h | h
  · exact h.2
  · exact absurd h.1 ht

/-- C50 fails: every run that is killed after exhausting a recursion bound of 13 or more is reported as verified,
although the verifier did not finish and reported no success. -/
theorem c50_timeout_fails (files : List Char → Option (List (List Char))) (out n : List Char) (hn : PosNum n)
    (hlast : ∀ u w, out ++ ("Verifying program while tracking".toList ++ ("\nExhausted recursion bound of ".toList ++ (n ++ "\ncorral timed out.".toList))) =
      u ++ ("Verifying program while tracking".toList ++ w) → u.length ≤ out.length)
    (hk : 13 ≤ decValue n) :
    svcompResult files (out ++ ("Verifying program while tracking".toList ++ ("\nExhausted recursion bound of ".toList ++ (n ++ "\ncorral timed out.".toList)))) = some .verified := by
  refine (c50_verdict_exact files _).2 (Or.inr ⟨Or.inr (Or.inr (Or.inl ?_)), ?_⟩)
  · exact ⟨out ++ ("Verifying program while tracking".toList ++ ("\nExhausted recursion bound of ".toList ++ (n ++ "\ncorral ".toList))), ".".toList, by simp⟩
  · exact ⟨out, _, "Verifying program while tracking\n".toList, n, "\ncorral timed out.".toList, rfl, hlast, by simp, hn,
      Or.inr ⟨'\n', "corral timed out.".toList, by decide, by decide⟩, hk⟩

example : svcompResult (fun _ => none)
    "Verifying program while tracking\nExhausted recursion bound of 13\ncorral timed out.".toList = some .verified := by
  rw [c50_verdict_exact]
  refine Or.inr ⟨Or.inr (Or.inr (Or.inl ((hasSub_iff _ _).1 (by decide +kernel)))), (unrollMax_iff (by decide)).1 (by decide +kernel)⟩

/-- With 12 unrollings the verdict stays "timed out". -/
theorem c50_below_bar (files : List Char → Option (List (List Char))) (out : List Char) (ht : SaysTimeout out)
    (hb : ¬ReachedBound 13 out) : svcompResult files out = some .timeout := by
  rw [← unrollMax_iff (by decide)] at hb
  rw [svcompResult, (c49_timeout_exact files .corral out).2 ht]
  exact if_neg hb

/-- The property file: a memory-safety property with the three parts selects the dereference check only, and then every
assertion about frees and leaks is replaced by `assert true;`. -/
theorem c50_memsafety_fails (prop : List Char) (check : Check) (h : Occurs "valid-deref".toList prop) :
    ∃ c, svcompCheck prop check = some c ∧ (∀ p, c p = true ↔ p = .validDeref) ∧
      ∀ l : AssertLine, l.Wf → (l.belongs .validFree ∨ l.belongs .memleak) → selection c [l.text] = [l.disabled.text] := by
  refine ⟨fun p => p == .validDeref, ?_, fun p => by simp, ?_⟩
  · rw [svcompCheck, if_pos ((hasSub_iff _ _).2 h)]
  · rintro l hl (hb | hb)
    · exact c48_unrequested_disabled _ .validFree .validDeref (by decide) (by decide) (by decide) (by decide) l hl hb
    · exact c48_unrequested_disabled _ .memleak .validDeref (by decide) (by decide) (by decide) (by decide) l hl hb

example : Occurs "valid-deref".toList "CHECK( init(main()), LTL(G valid-free) )\nCHECK( init(main()), LTL(G valid-deref) )".toList :=
  (hasSub_iff _ _).1 (by decide +kernel)

end Smack.Driver
