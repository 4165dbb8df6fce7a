/-
C76 and C77.
-/
import Verif.Dispatch.Lemmas
import Verif.Globals.Props

namespace Smack.Dispatch

open Naming (Str Rx shouldCheckFunction isRustPanic isRustNameMatch ident)
open Spec

/-! ## C76 -/

/-- Apart from the marker and the assertion function, the options and the calling function do not matter. -/
theorem choose_rest (o : Opts) (s : Site) (h1 : s.callee ≠ RUST_PANIC_MARKER) (h2 : s.callee ≠ "__VERIFIER_assert".toList) :
    choose o s = choose ⟨false, []⟩ { caller := [], callee := s.callee, contractArg := s.contractArg, inLoop := s.inLoop } := by
  have e1 : (s.callee == RUST_PANIC_MARKER) = false := beq_eq_false_iff_ne.2 h1
  have e2 : (s.callee == ASSERT_FN) = false := beq_eq_false_iff_ne.2 h2
  simp only [choose, e1, e2, Bool.and_false, Bool.false_and, Bool.false_eq_true, if_false]

/-- C76: each annotation function of smack.h stands for its annotation, wherever it is called. -/
theorem c76_annotations (o : Opts) (s : Site) (hs : s.asm = false) (n : String) (a : Act) (h : (n, a) ∈ annotations)
    (hn : s.callee = n.toList) : visitCall o s = some (a :: after s) := by
  refine visitCall_of o s hs (a := [a]) ?_
  have key : ∀ na ∈ annotations, na.1.toList ≠ RUST_PANIC_MARKER ∧ na.1.toList ≠ "__VERIFIER_assert".toList ∧
      ∀ c l : Bool, choose ⟨false, []⟩ { caller := [], callee := na.1.toList, contractArg := c, inLoop := l } = some (some [na.2]) := by
    decide +kernel
  obtain ⟨k1, k2, k3⟩ := key _ h
  rw [choose_rest o s (by rw [hn]; exact k1) (by rw [hn]; exact k2), hn, k3]

/-- C76: a contract function applied to an expression becomes a clause of the procedure or an assertion at the head of the loop. -/
theorem c76_contracts (o : Opts) (s : Site) (hs : s.asm = false) (n : String) (a : Act) (h : (n, a) ∈ contracts)
    (hn : s.callee = n.toList) (hc : s.contractArg = true) (hl : a = .invariant → s.inLoop = true) :
    visitCall o s = some (a :: after s) := by
  refine visitCall_of o s hs (a := [a]) ?_
  have key : ∀ na ∈ contracts, na.1.toList ≠ RUST_PANIC_MARKER ∧ na.1.toList ≠ "__VERIFIER_assert".toList ∧
      ∀ l : Bool, (na.2 = .invariant → l = true) →
        choose ⟨false, []⟩ { caller := [], callee := na.1.toList, contractArg := true, inLoop := l } = some (some [na.2]) := by
    decide +kernel
  obtain ⟨k1, k2, k3⟩ := key _ h
  rw [choose_rest o s (by rw [hn]; exact k1) (by rw [hn]; exact k2), hn, hc, k3 _ hl]

/-- What is chosen depends on two truth values and on the callee. -/
theorem choose_bools (o : Opts) (s : Site) : choose o s = choose ⟨o.rustPanics, if shouldCheckFunction o.checked s.caller then [] else
    [fun _ _ _ => false]⟩ { caller := [], callee := s.callee, contractArg := s.contractArg, inLoop := s.inLoop } := by
  have e1 : shouldCheckFunction [] [] = true := rfl
  have e2 : shouldCheckFunction [fun _ _ _ => false] [] = false := rfl
  cases h : shouldCheckFunction o.checked s.caller <;> simp only [choose, h, e1, e2, if_true, if_false, Bool.false_eq_true]

theorem marker_chosen : ∀ p q c l : Bool, choose ⟨p, if q then [] else [fun _ _ _ => false]⟩
    { caller := [], callee := RUST_PANIC_MARKER, contractArg := c, inLoop := l } =
      some (some [if p && q then .assertPanic else .call RUST_PANIC_MARKER]) := by decide +kernel

theorem assert_chosen : ∀ p q c l : Bool, choose ⟨p, if q then [] else [fun _ _ _ => false]⟩
    { caller := [], callee := "__VERIFIER_assert".toList, contractArg := c, inLoop := l } =
      some (if q then some [.call "__VERIFIER_assert".toList] else none) := by decide +kernel

theorem contracts_abort : ∀ na ∈ contracts, ∀ c l : Bool, (c = false ∨ na.2 = .invariant ∧ l = false) →
    choose ⟨false, []⟩ { caller := [], callee := na.1.toList, contractArg := c, inLoop := l } = none := by decide +kernel

theorem forall_abort : ∀ c l : Bool,
    choose ⟨false, []⟩ { caller := [], callee := "__CONTRACT_forall".toList, contractArg := c, inLoop := l } = none := by decide +kernel

theorem contracts_names : ∀ na ∈ contracts, na.1.toList ≠ RUST_PANIC_MARKER ∧ na.1.toList ≠ "__VERIFIER_assert".toList := by decide +kernel

theorem ite_none {c : Prop} [Decidable c] {α : Type} {x : α} {y : Option α} (h : (if c then some x else y) = none) : ¬ c ∧ y = none := by
  by_cases hc : c
  · rw [if_pos hc] at h; cases h
  · rw [if_neg hc] at h; exact ⟨hc, h⟩

theorem choose_none (o : Opts) (s : Site) (h : choose o s = none) : s.callee = CONTRACT_FORALL ∨
    ((s.callee = CONTRACT_REQUIRES ∨ s.callee = CONTRACT_ENSURES ∨ s.callee = CONTRACT_INVARIANT) ∧ s.contractArg = false) ∨
    (s.callee = CONTRACT_INVARIANT ∧ s.inLoop = false) := by
  unfold choose at h
  simp only at h
  replace h := (ite_none (ite_none (ite_none (ite_none (ite_none (ite_none (ite_none (ite_none (ite_none (ite_none h).2).2).2).2).2).2).2).2).2).2
  by_cases hf : (s.callee == CONTRACT_FORALL) = true
  · exact .inl (beq_iff_eq.1 hf)
  · rw [if_neg hf] at h
    by_cases hr : (s.callee == CONTRACT_REQUIRES || s.callee == CONTRACT_ENSURES || s.callee == CONTRACT_INVARIANT) = true
    · rw [if_pos hr] at h
      rw [Bool.or_eq_true, Bool.or_eq_true, beq_iff_eq, beq_iff_eq, beq_iff_eq, or_assoc] at hr
      cases hc : s.contractArg with
      | false => exact .inr (.inl ⟨hr, rfl⟩)
      | true =>
        rw [hc, if_neg (by decide)] at h
        obtain ⟨n1, h⟩ := ite_none h
        obtain ⟨n2, h⟩ := ite_none h
        obtain ⟨n3, -⟩ := ite_none h
        rcases hr with hr | hr | hr
        · exact absurd (beq_iff_eq.2 hr) n1
        · exact absurd (beq_iff_eq.2 hr) n2
        · exact .inr (.inr ⟨hr, by rwa [Bool.not_eq_true] at n3⟩)
    · rw [if_neg hr] at h
      cases h

/-- C76: translation stops at `forall`, at a contract function with another argument, and at an invariant outside of loops; everything else
is translated. -/
theorem c76_abort_iff (o : Opts) (s : Site) (hs : s.asm = false) :
    visitCall o s = none ↔ s.callee = "__CONTRACT_forall".toList ∨
      (∃ na ∈ contracts, s.callee = na.1.toList ∧ (s.contractArg = false ∨ na.2 = .invariant ∧ s.inLoop = false)) := by
  have hv : visitCall o s = none ↔ choose o s = none := by
    unfold visitCall
    rw [hs]
    cases h : choose o s with
    | none => simp
    | some a => cases a <;> simp
  rw [hv]
  constructor
  · intro h
    rcases choose_none o s h with h | ⟨h | h | h, hc⟩ | ⟨h, hl⟩
    · exact .inl h
    · exact .inr ⟨("__CONTRACT_requires", .requires), by decide, h, .inl hc⟩
    · exact .inr ⟨("__CONTRACT_ensures", .ensures), by decide, h, .inl hc⟩
    · exact .inr ⟨("__CONTRACT_invariant", .invariant), by decide, h, .inl hc⟩
    · exact .inr ⟨("__CONTRACT_invariant", .invariant), by decide, h, .inr ⟨rfl, hl⟩⟩
  · rintro (h | ⟨na, h, hn, hb⟩)
    · rw [choose_rest o s (by rw [h]; decide +kernel) (by rw [h]; decide +kernel), h]
      exact forall_abort _ _
    · rw [choose_rest o s (by rw [hn]; exact (contracts_names na h).1) (by rw [hn]; exact (contracts_names na h).2), hn]
      exact contracts_abort na h _ _ hb

/-- C76: a call of any other function is translated to a call, together with the assumption about external addresses and the record. The
condition is exact, see `c76_not_called`. -/
theorem c76_called (o : Opts) (s : Site) (h : Called o s) : visitCall o s = some (.call (ident s.callee) :: after s) := by
  obtain ⟨hs, hp, ha, ht, he, hc⟩ := h
  refine visitCall_of o s hs (a := [.call (ident s.callee)]) ?_
  have hf : ∀ t ∈ annotationTexts, contains t.toList s.callee = false := fun t h => (not_contains_iff _ _).2 (ht t h)
  have c1 : contains VALUE_PROC s.callee = false := hf "__SMACK_value" (by decide)
  have c2 : contains RETURN_VALUE_PROC s.callee = false := hf "__SMACK_return_value" (by decide)
  have c3 : contains MOD_PROC s.callee = false := hf "__SMACK_mod" (by decide)
  have c4 : contains CODE_PROC s.callee = false := hf "__SMACK_code" (by decide)
  have c5 : contains DECL_PROC s.callee = false := hf "__SMACK_decl" (by decide)
  have c6 : contains TOP_DECL_PROC s.callee = false := hf "__SMACK_top_decl" (by decide)
  have c7 : startsWith CONTRACT_EXPR (ident s.callee) = false := by
    rw [← Bool.not_eq_true, startsWith_iff]; exact he
  have n1 : (s.callee == INT_VARIABLE_FN) = false := beq_eq_false_iff_ne.2 (hc "__CONTRACT_int_variable" (by decide))
  have n2 : (s.callee == CONTRACT_FORALL) = false := beq_eq_false_iff_ne.2 (hc "__CONTRACT_forall" (by decide))
  have n3 : (s.callee == CONTRACT_REQUIRES) = false := beq_eq_false_iff_ne.2 (hc "__CONTRACT_requires" (by decide))
  have n4 : (s.callee == CONTRACT_ENSURES) = false := beq_eq_false_iff_ne.2 (hc "__CONTRACT_ensures" (by decide))
  have n5 : (s.callee == CONTRACT_INVARIANT) = false := beq_eq_false_iff_ne.2 (hc "__CONTRACT_invariant" (by decide))
  have p : (o.rustPanics && s.callee == RUST_PANIC_MARKER && shouldCheckFunction o.checked s.caller) = false := by
    rw [← Bool.not_eq_true, Bool.and_eq_true, Bool.and_eq_true, check_iff, beq_iff_eq]
    rintro ⟨⟨a, b⟩, c⟩
    exact hp ⟨a, b, c⟩
  have q : (s.callee == ASSERT_FN && !shouldCheckFunction o.checked s.caller) = false := by
    rw [← Bool.not_eq_true, Bool.and_eq_true, Bool.not_eq_true', check_false, beq_iff_eq]
    exact ha
  simp only [choose, p, q, c1, c2, c3, c4, c5, c6, c7, n1, n2,
    n3, n4, n5, Bool.or_self, Bool.false_eq_true, if_false]

theorem ite_call {c : Prop} [Decidable c] {x a : List Act} {y : Option (Option (List Act))} {z : Act}
    (h : (if c then some (some x) else y) = some (some a)) (hf : z ∈ a) (hx : z ∉ x) : ¬ c ∧ y = some (some a) := by
  by_cases hc : c
  · rw [if_pos hc] at h; cases h; exact absurd hf hx
  · rw [if_neg hc] at h; exact ⟨hc, h⟩

theorem ite_other {c : Prop} [Decidable c] {α : Type} {x y a : α} (h : (if c then x else y) = a) (hx : x ≠ a) : ¬ c ∧ y = a := by
  by_cases hc : c
  · rw [if_pos hc] at h; exact absurd h hx
  · rw [if_neg hc] at h; exact ⟨hc, h⟩

theorem choose_not_called (o : Opts) (s : Site) (h : ¬ Called o s) (hs : s.asm = false) (a : List Act) (hc : choose o s = some (some a))
    (f : Str) : .call f ∉ a := by
  intro hf
  apply h
  unfold choose at hc
  simp only at hc
  obtain ⟨n1, hc⟩ := ite_call hc hf (by simp)
  obtain ⟨n2, hc⟩ := ite_other hc (by simp)
  obtain ⟨n3, hc⟩ := ite_call hc hf (by simp)
  obtain ⟨n4, hc⟩ := ite_call hc hf (by simp)
  obtain ⟨n5, hc⟩ := ite_call hc hf (by simp)
  obtain ⟨n6, hc⟩ := ite_call hc hf (by simp)
  obtain ⟨n7, hc⟩ := ite_call hc hf (by simp)
  obtain ⟨n8, hc⟩ := ite_call hc hf (by simp)
  obtain ⟨n9, hc⟩ := ite_call hc hf (by simp)
  obtain ⟨n10, hc⟩ := ite_call hc hf (by simp)
  obtain ⟨n11, hc⟩ := ite_other hc (by simp)
  have n12 : ¬ (s.callee == CONTRACT_REQUIRES || s.callee == CONTRACT_ENSURES || s.callee == CONTRACT_INVARIANT) = true := by
    intro hr
    rw [if_pos hr] at hc
    obtain ⟨-, hc⟩ := ite_other hc (by simp)
    obtain ⟨-, hc⟩ := ite_call hc hf (by simp)
    obtain ⟨-, hc⟩ := ite_call hc hf (by simp)
    obtain ⟨-, hc⟩ := ite_call hc hf (by simp)
    cases hc
  rw [Bool.and_eq_true, Bool.and_eq_true, check_iff, beq_iff_eq] at n1
  rw [Bool.and_eq_true, Bool.not_eq_true', check_false, beq_iff_eq] at n2
  rw [contains_iff] at n3 n4 n5 n6 n7 n8
  rw [startsWith_iff] at n9
  rw [beq_iff_eq] at n10 n11
  rw [Bool.or_eq_true, Bool.or_eq_true, beq_iff_eq, beq_iff_eq, beq_iff_eq] at n12
  refine ⟨hs, fun ⟨x, y, z⟩ => n1 ⟨⟨x, y⟩, z⟩, n2, ?_, n9, ?_⟩
  · intro t ht
    simp only [annotationTexts, List.mem_cons, List.not_mem_nil, or_false] at ht
    rcases ht with rfl | rfl | rfl | rfl | rfl | rfl
    · exact n3
    · exact n4
    · exact n5
    · exact n6
    · exact n7
    · exact n8
  · intro t ht
    simp only [List.mem_cons, List.not_mem_nil, or_false] at ht
    rcases ht with rfl | rfl | rfl | rfl | rfl
    · exact n10
    · exact n11
    · exact fun e => n12 (.inl (.inl e))
    · exact fun e => n12 (.inl (.inr e))
    · exact fun e => n12 (.inr e)

/-- C76: in all other cases there is no call. -/
theorem c76_not_called (o : Opts) (s : Site) (h : ¬ Called o s) (l : List Act) (hl : visitCall o s = some l) (f : Str) : .call f ∉ l := by
  cases hs : s.asm with
  | true =>
    unfold visitCall at hl
    rw [hs, if_pos rfl, Option.some.injEq] at hl
    rw [← hl]; simp
  | false =>
    cases hc : choose o s with
    | none =>
      unfold visitCall at hl
      rw [hs, hc] at hl
      cases hl
    | some a =>
      cases a with
      | none =>
        unfold visitCall at hl
        rw [hs, hc] at hl
        cases hl
        simp
      | some a =>
        rw [visitCall_of o s hs hc, Option.some.injEq] at hl
        rw [← hl, List.mem_append]
        rintro (h' | h')
        · exact choose_not_called o s h hs a hc f h'
        · exact no_call_after s f h'

/-- C76: a function with an ordinary name is called. -/
theorem c76_ordinary_partial (o : Opts) (s : Site) (hs : s.asm = false) (h : Ordinary s.callee) :
    visitCall o s = some (.call (ident s.callee) :: after s) := by
  refine c76_called o s ⟨hs, ?_, fun e => h.assertion e.1, ?_, h.expr, ?_⟩
  · rintro ⟨-, e, -⟩
    refine h.smack ?_
    rw [e, ← contains_iff]; decide +kernel
  · intro t ht hin
    refine h.smack (List.IsInfix.trans ?_ hin)
    rw [← contains_iff]
    exact (by decide +kernel : ∀ t ∈ annotationTexts, contains "__SMACK_".toList t.toList = true) t ht
  · intro c hc e
    refine h.contract ?_
    rw [e, ← List.isPrefixOf_iff_prefix]
    exact (by decide +kernel : ∀ c ∈ ["__CONTRACT_int_variable", "__CONTRACT_forall", "__CONTRACT_requires", "__CONTRACT_ensures",
      "__CONTRACT_invariant"], ("__CONTRACT_".toList).isPrefixOf c.toList = true) c hc

/-- C76 fails: every function whose name contains one of the texts anywhere is never called, also if it is defined in the program. -/
theorem c76_substring_fails (o : Opts) (s : Site) (t : String) (ht : t ∈ annotationTexts) (a b : Str) (hn : s.callee = a ++ t.toList ++ b)
    (l : List Act) (hl : visitCall o s = some l) (f : Str) : .call f ∉ l := by
  refine c76_not_called o s ?_ l hl f
  intro h
  exact h.texts t ht ⟨a, b, hn.symm⟩

/-- C76 fails: no function whose name begins with `$expr` is called, and there is nothing in place of the call. -/
theorem c76_expr_fails (o : Opts) (s : Site) (hs : s.asm = false) (t : Str) (hn : s.callee = "$expr".toList ++ t)
    (ht : ∀ x ∈ annotationTexts, ¬ x.toList <:+: s.callee) : visitCall o s = some (after s) := by
  have hid : "$expr".toList <+: ident s.callee := by
    have : Naming.escape s.callee = "$expr".toList ++ Naming.escape t := by
      rw [hn]
      unfold Naming.escape
      rw [List.map_append]
      rfl
    unfold ident
    rw [this]
    split
    · exact ⟨Naming.escape t ++ ['_'], by simp⟩
    · exact List.prefix_append _ _
  refine visitCall_of o s hs (a := []) ?_
  have hf : ∀ t ∈ annotationTexts, contains t.toList s.callee = false := fun t h => (not_contains_iff _ _).2 (ht t h)
  have c1 : contains VALUE_PROC s.callee = false := hf "__SMACK_value" (by decide)
  have c2 : contains RETURN_VALUE_PROC s.callee = false := hf "__SMACK_return_value" (by decide)
  have c3 : contains MOD_PROC s.callee = false := hf "__SMACK_mod" (by decide)
  have c4 : contains CODE_PROC s.callee = false := hf "__SMACK_code" (by decide)
  have c5 : contains DECL_PROC s.callee = false := hf "__SMACK_decl" (by decide)
  have c6 : contains TOP_DECL_PROC s.callee = false := hf "__SMACK_top_decl" (by decide)
  have c7 : startsWith CONTRACT_EXPR (ident s.callee) = true := (startsWith_iff _ _).2 hid
  have head : ∀ x : Str, x.head? ≠ some '$' → s.callee ≠ x := by
    intro x hx e
    rw [← e, hn] at hx
    exact hx rfl
  rw [choose_rest o s (head _ (by decide +kernel)) (head _ (by decide +kernel))]
  simp only [choose, c1, c2, c3, c4, c5, c6, c7, beq_eq_false_iff_ne.2 (head RUST_PANIC_MARKER (by decide +kernel)),
    beq_eq_false_iff_ne.2 (head ASSERT_FN (by decide +kernel)), Bool.false_and, Bool.and_false, Bool.false_eq_true, if_false, if_true]

/-- C76: the assertion function is called in the functions to be checked, and skipped in others. -/
theorem c76_assertion (o : Opts) (s : Site) (hs : s.asm = false) (hn : s.callee = "__VERIFIER_assert".toList) :
    (Wanted o s.caller → visitCall o s = some (.call "__VERIFIER_assert".toList :: after s)) ∧
    (¬ Wanted o s.caller → visitCall o s = some []) := by
  have hc : choose o s = some (if shouldCheckFunction o.checked s.caller then some [.call "__VERIFIER_assert".toList] else none) := by
    rw [choose_bools, hn, assert_chosen]
  constructor
  · intro h
    rw [(check_iff _ _).2 h] at hc
    exact visitCall_of o s hs hc
  · intro h
    rw [(check_false _ _).2 h] at hc
    unfold visitCall
    rw [hs, hc]; rfl

/-- C76 fails: an invoked function is always called; annotations, contracts and panics have no effect, and assertions are not skipped. -/
theorem c76_invoke_fails (o : Opts) (s : Site) (hs : s.asm = false) (h : ¬ Called o s) :
    visitInvoke s = [.call (ident s.callee)] ∧ visitCall o s ≠ some (visitInvoke s) := by
  refine ⟨rfl, ?_⟩
  intro e
  exact c76_not_called o s h _ e (ident s.callee) (List.mem_cons_self ..)

/-- C76: inline assembly has no effect at all; its result is not assigned. -/
theorem c76_asm (o : Opts) (s : Site) (hs : s.asm = true) : visitCall o s = some [.skip] := by
  unfold visitCall; rw [hs]; rfl

/-- C76: for which calls the result is assumed to be an external address. -/
theorem c76_external_iff (o : Opts) (s : Site) (h : Called o s) (l : List Act) (hl : visitCall o s = some l) :
    .assumeExternal ∈ l ↔ External s := by
  rw [c76_called o s h, Option.some.injEq] at hl
  rw [← hl]
  unfold after
  by_cases he : External s
  · rw [if_pos he]; simp [he]
  · rw [if_neg he]
    split <;> simp [he]

/-- C76: for which calls the result is recorded. -/
theorem c76_record_iff (o : Opts) (s : Site) (h : Called o s) (l : List Act) (hl : visitCall o s = some l) (f : Str) :
    .record f ∈ l ↔ Recorded s ∧ f = ident s.callee := by
  rw [c76_called o s h, Option.some.injEq] at hl
  rw [← hl]
  unfold after
  by_cases he : Recorded s
  · rw [if_pos he]; split <;> simp [he]
  · rw [if_neg he]
    split <;> simp [he]

/-- C76 fails: a function that is only declared may return a null pointer, the address of a global, or heap memory, but the assumption excludes
all of them, in every module. -/
theorem c76_external_null_fails (o : Opts) (s : Site) (h : Called o s) (he : External s) (gs : List Globals.Global)
    (hs : ∀ g ∈ gs, Globals.Small g) :
    (∃ l, visitCall o s = some l ∧ .assumeExternal ∈ l) ∧
    ∀ p, Globals.isExternal gs p = true → p ≠ 0 ∧ p < 0 ∧ p ∉ Globals.addresses gs := by
  refine ⟨⟨_, c76_called o s h, (c76_external_iff o s h _ (c76_called o s h)).2 he⟩, ?_⟩
  intro p hp
  have h1 := Globals.final_le Globals.init gs hs
  have hp' : p < Globals.externsBottom gs := by simpa [Globals.isExternal] using hp
  have hneg : p < 0 := by
    unfold Globals.externsBottom Globals.globalsBottom Globals.final at hp'
    have e1 : Globals.init.globalsOffset = 0 := rfl
    have e2 : Globals.init.externsOffset = -32768 := rfl
    omega
  refine ⟨by omega, hneg, ?_⟩
  intro hmem
  obtain ⟨i, hi, hget⟩ := List.getElem_of_mem hmem
  have hi' : i < gs.length := by rw [← Globals.c16_every_global_placed gs]; exact hi
  have := (Globals.c16_isExternal gs hs i hi' p p (by rw [List.getElem?_eq_getElem hi, hget])).1
  rw [hp] at this
  cases this

/-! ## C77 -/

/-- C77: what the pass does to a function with a body: nothing if the name contains `__SMACK_`; the body of start-up and panic functions is
dropped; otherwise each instruction is treated on its own, and the order is kept. -/
theorem c77_function (f : Fn) (b : List Inst) (hb : f.body = some b) :
    ("__SMACK_".toList <:+: f.name → runOnFunction f = f) ∧
    (Dropped f.name → runOnFunction f = ⟨f.name, none⟩) ∧
    (¬ "__SMACK_".toList <:+: f.name → ¬ Dropped f.name →
      ∃ ls, Each (Fixed (decide (f.name = "main".toList))) b ls ∧ runOnFunction f = ⟨f.name, some ls.flatten⟩) := by
  have hd : (contains RUST_LANG_START_INTERNAL f.name || contains RUST_ENTRY f.name || isRustPanic f.name) = true ↔
      ("_ZN3std2rt19lang_start_internal".toList <:+: f.name ∨ "_ZN3std2rt10lang_start".toList <:+: f.name ∨ Panics f.name) := by
    rw [Bool.or_eq_true, Bool.or_eq_true, contains_iff, contains_iff, panic_iff, or_assoc]
    exact Iff.rfl
  refine ⟨?_, ?_, ?_⟩
  · intro h
    unfold runOnFunction
    simp only [hb, (contains_iff _ _).2 h, if_true]
  · rintro ⟨h1, h2⟩
    unfold runOnFunction
    simp only [hb, (not_contains_iff _ _).2 h1, hd.2 h2, if_true, Bool.false_eq_true, if_false]
  · intro h1 h2
    have h3 : (contains RUST_LANG_START_INTERNAL f.name || contains RUST_ENTRY f.name || isRustPanic f.name) = false := by
      rw [← Bool.not_eq_true, hd]
      exact fun h => h2 ⟨h1, h⟩
    by_cases hm : f.name = "main".toList
    · obtain ⟨ls, h4, h5⟩ := main_each b
      refine ⟨ls, by rw [decide_eq_true hm]; exact h4, ?_⟩
      unfold runOnFunction
      simp only [hb, (not_contains_iff _ _).2 h1, h3, beq_iff_eq.2 hm, if_true, Bool.false_eq_true, if_false, h5]
    · obtain ⟨ls, h4, h5⟩ := replace_each b
      refine ⟨ls, by rw [decide_eq_false hm]; exact h4, ?_⟩
      unfold runOnFunction
      simp only [hb, (not_contains_iff _ _).2 h1, h3, beq_eq_false_iff_ne.2 hm, Bool.false_eq_true, if_false, h5]

/-- `Fixed` determines the result. -/
theorem c77_deterministic (m : Bool) (i : Inst) (l l' : List Inst) (h : Fixed m i l) (h' : Fixed m i l') : l = l' := by
  induction h generalizing l' with
  | panic m n f g r hp hn =>
    cases h' with
    | panic => rfl
    | alloc _ _ _ _ _ k ha _ => exact absurd ha fun ha => panic_not_alloc hp ha
    | entry _ _ _ _ _ _ hl _ => exact absurd hl (hn rfl)
    | noMain _ _ _ _ hl _ => exact absurd hl (hn rfl)
    | call _ _ _ _ _ hnp _ _ => exact absurd hp hnp
  | alloc m n f g r k ha hn =>
    cases h' with
    | panic _ _ _ _ _ hp _ => exact absurd ha fun ha => panic_not_alloc hp ha
    | alloc _ _ _ _ _ k' ha' _ => rw [← allocCallee_for ha, allocCallee_for ha']
    | entry _ _ _ _ _ _ hl _ => exact absurd hl (hn rfl)
    | noMain _ _ _ _ hl _ => exact absurd hl (hn rfl)
    | call _ _ _ _ _ _ hna _ => exact absurd ha (hna _)
  | entry n f rm rr r l hl h1 ih =>
    cases h' with
    | panic _ _ _ _ _ _ hn => exact absurd hl (hn rfl)
    | alloc _ _ _ _ _ _ _ hn => exact absurd hl (hn rfl)
    | entry _ _ _ _ _ l2 _ h2 => rw [ih _ h2]
    | call _ _ _ _ _ _ _ hn => exact absurd hl (hn rfl)
  | noMain n f r l hl h1 ih =>
    cases h' with
    | panic _ _ _ _ _ _ hn => exact absurd hl (hn rfl)
    | alloc _ _ _ _ _ _ _ hn => exact absurd hl (hn rfl)
    | noMain _ _ _ l2 _ h2 => exact ih _ h2
    | call _ _ _ _ _ _ _ hn => exact absurd hl (hn rfl)
  | call m n f g r hp ha hn =>
    cases h' with
    | panic _ _ _ _ _ hp' _ => exact absurd hp' hp
    | alloc _ _ _ _ _ k ha' _ => exact absurd ha' (ha _)
    | entry _ _ _ _ _ _ hl _ => exact absurd hl (hn rfl)
    | noMain _ _ _ _ hl _ => exact absurd hl (hn rfl)
    | call => rfl
  | zero => cases h'; rfl
  | invoke => cases h'; rfl
  | other => cases h'; rfl

theorem marker_visited (o : Opts) (s : Site) (hs : s.asm = false) (hr : s.ret = .void) (hn : s.callee = RUST_PANIC_MARKER) :
    visitCall o s = some [if o.rustPanics && shouldCheckFunction o.checked s.caller then .assertPanic else .call RUST_PANIC_MARKER] := by
  have hc : choose o s = some (some [if o.rustPanics && shouldCheckFunction o.checked s.caller then .assertPanic else
      .call RUST_PANIC_MARKER]) := by
    rw [choose_bools, hn, marker_chosen]
  rw [visitCall_of o s hs hc]
  have : after s = [] := by
    unfold after
    rw [if_neg, if_neg]
    · rfl
    · exact fun h => h.1 hr
    · exact fun h => by rw [External, hr] at h; exact nomatch h.2.1
  rw [this]; rfl

/-- C77: with `--rust-panics`, each call of a panic function in a function to be checked is translated to `assert false`, and to nothing else;
otherwise to a call of the marker, which has no body. -/
theorem c77_panics_partial (o : Opts) (site : Nat → Site) (caller : Str) (n : Nat) (f : Str) (g : Option (Str × Ret)) (r : Ret)
    (hp : Panics f) :
    (o.rustPanics = true ∧ Wanted o caller →
      translate o caller site (fixInst (.call n f g r)) = .acts n (some [.assertPanic])) ∧
    (¬ (o.rustPanics = true ∧ Wanted o caller) →
      translate o caller site (fixInst (.call n f g r)) = .acts n (some [.call "__SMACK_RUST_PANIC_MARKER".toList])) := by
  rw [fixInst_panic n g r ((panic_iff f).2 hp)]
  have hv := marker_visited o { site n with asm := false, caller := caller, callee := RUST_PANIC_MARKER, ret := .void } rfl rfl rfl
  constructor
  · rintro ⟨h1, h2⟩
    show Out.acts n (visitCall o _) = _
    rw [hv, h1, (check_iff o caller).2 h2]; rfl
  · intro h
    show Out.acts n (visitCall o _) = _
    have : (o.rustPanics && shouldCheckFunction o.checked caller) = false := by
      rw [← Bool.not_eq_true, Bool.and_eq_true, check_iff]; exact h
    rw [hv, this]; rfl

/-- Assertions about panics come from nowhere else. -/
theorem c77_only_marker (o : Opts) (s : Site) (l : List Act) (hl : visitCall o s = some l) (h : .assertPanic ∈ l) :
    s.callee = "__SMACK_RUST_PANIC_MARKER".toList ∧ o.rustPanics = true ∧ Wanted o s.caller := by
  by_cases hc : o.rustPanics = true ∧ s.callee = "__SMACK_RUST_PANIC_MARKER".toList ∧ Wanted o s.caller
  · exact ⟨hc.2.1, hc.1, hc.2.2⟩
  · exfalso
    cases hs : s.asm with
    | true =>
      rw [c76_asm o s hs] at hl
      cases hl
      simp at h
    | false =>
      cases he : choose o s with
      | none =>
        unfold visitCall at hl
        rw [hs, he] at hl
        cases hl
      | some a =>
        cases a with
        | none =>
          unfold visitCall at hl
          rw [hs, he] at hl
          cases hl
          cases h
        | some a =>
          rw [visitCall_of o s hs he, Option.some.injEq] at hl
          rw [← hl, List.mem_append] at h
          rcases h with h | h
          · have p : (o.rustPanics && s.callee == RUST_PANIC_MARKER && shouldCheckFunction o.checked s.caller) = false := by
              rw [← Bool.not_eq_true, Bool.and_eq_true, Bool.and_eq_true, check_iff, beq_iff_eq]
              rintro ⟨⟨a, b⟩, c⟩
              exact hc ⟨a, b, c⟩
            unfold choose at he
            simp only [p, Bool.false_eq_true, if_false] at he
            obtain ⟨-, he⟩ := ite_other he (by simp)
            obtain ⟨-, he⟩ := ite_call he h (by simp)
            obtain ⟨-, he⟩ := ite_call he h (by simp)
            obtain ⟨-, he⟩ := ite_call he h (by simp)
            obtain ⟨-, he⟩ := ite_call he h (by simp)
            obtain ⟨-, he⟩ := ite_call he h (by simp)
            obtain ⟨-, he⟩ := ite_call he h (by simp)
            obtain ⟨-, he⟩ := ite_call he h (by simp)
            obtain ⟨-, he⟩ := ite_call he h (by simp)
            obtain ⟨-, he⟩ := ite_other he (by simp)
            by_cases hr : (s.callee == CONTRACT_REQUIRES || s.callee == CONTRACT_ENSURES || s.callee == CONTRACT_INVARIANT) = true
            · rw [if_pos hr] at he
              obtain ⟨-, he⟩ := ite_other he (by simp)
              obtain ⟨-, he⟩ := ite_call he h (by simp)
              obtain ⟨-, he⟩ := ite_call he h (by simp)
              obtain ⟨-, he⟩ := ite_call he h (by simp)
              cases he
            · rw [if_neg hr] at he
              cases he
              simp at h
          · exact no_panic_after s h

/-- C77 fails: a panic function reached by an `invoke` (as in any function with values to drop) is called, and after the pass it has no body:
the panic is not reported, with any options. -/
theorem c77_invoke_fails (o : Opts) (site : Nat → Site) (caller : Str) (n : Nat) (p : Fn) (hp : Panics p.name)
    (hs : ¬ "__SMACK_".toList <:+: p.name) :
    translate o caller site (fixInst (.invoke n p.name)) = .acts n (some [.call (ident p.name)]) ∧ (runOnFunction p).body = none := by
  refine ⟨rfl, ?_⟩
  cases hb : p.body with
  | none => unfold runOnFunction; simp only [hb]
  | some b => rw [(c77_function p b hb).2.1 ⟨hs, .inr (.inr hp)⟩]

/-- C77 fails: in a function whose name contains `__SMACK_`, the panics are left alone: no translated statement asserts anything. -/
theorem c77_smack_name_fails (o : Opts) (site : Nat → Site) (f : Fn) (b : List Inst) (hb : f.body = some b) (hn : "__SMACK_".toList <:+: f.name)
    (n : Nat) (p : Str) (hp : Panics p) (g : Option (Str × Ret)) (r : Ret) (hm : .call n p g r ∈ b) :
    ∃ outs, translateFn o site (runOnFunction f) = some outs ∧ ∃ a, .acts n a ∈ outs ∧ ∀ l, a = some l → .assertPanic ∉ l := by
  rw [(c77_function f b hb).1 hn]
  refine ⟨b.map (translate o f.name site), by unfold translateFn; rw [hb]; rfl, _, List.mem_map.2 ⟨_, hm, rfl⟩, ?_⟩
  intro l hl hin
  have := (c77_only_marker o _ l hl hin).1
  obtain ⟨q, hq, h, -, e⟩ := hp
  have this' : p = "__SMACK_RUST_PANIC_MARKER".toList := this
  have hpre : q.toList <+: "__SMACK_RUST_PANIC_MARKER".toList := by rw [← this', e]; exact List.prefix_append _ _
  rw [← List.isPrefixOf_iff_prefix] at hpre
  exact absurd hpre (by
    have : ∀ q ∈ panicPrefixes, ¬ q.toList.isPrefixOf "__SMACK_RUST_PANIC_MARKER".toList = true := by decide +kernel
    exact this q hq)

/-- C77: nothing but the panic functions (and the marker itself) leads to such an assertion. -/
theorem c77_only_panics (o : Opts) (site : Nat → Site) (caller : Str) (n : Nat) (f : Str) (g : Option (Str × Ret)) (r : Ret) (l : List Act)
    (h : translate o caller site (fixInst (.call n f g r)) = .acts n (some l)) (hin : .assertPanic ∈ l) :
    Panics f ∨ f = "__SMACK_RUST_PANIC_MARKER".toList := by
  cases hp : isRustPanic f with
  | true => exact .inl ((panic_iff f).1 hp)
  | false =>
    rw [fixInst_call n g r hp] at h
    have e : allocCallee f = "__SMACK_RUST_PANIC_MARKER".toList := (c77_only_marker o _ l (Out.acts.inj h).2 hin).1
    by_cases ha : ∃ k, AllocFor f k
    · exfalso
      obtain ⟨k, ha⟩ := ha
      rw [allocCallee_for ha] at e
      obtain ⟨kv, hkv, -, e2⟩ := (allocFor_iff f k).1 ha
      have : ∀ kv ∈ allocFns, kv.2 ≠ "__SMACK_RUST_PANIC_MARKER".toList := by decide +kernel
      exact this kv hkv (e2.trans e)
    · rw [allocCallee_none fun k h => ha ⟨k, h⟩] at e
      exact .inr e

/-- C77 fails: other functions of the library that panic are not recognised; calls of them are translated to calls. -/
theorem c77_unlisted_fails (o : Opts) (site : Nat → Site) (caller : Str) (n : Nat) (g : Option (Str × Ret)) (r : Ret) (x : String)
    (hx : x ∈ ["_ZN4core6result13unwrap_failed17h0123456789abcdefE", "_ZN4core6option13expect_failed17h0123456789abcdefE",
      "_ZN4core5slice5index22slice_index_order_fail17h0123456789abcdefE", "_ZN5alloc7raw_vec17capacity_overflow17h0123456789abcdefE"]) :
    ∃ l, translate o caller site (fixInst (.call n x.toList g r)) = .acts n (some l) ∧ .assertPanic ∉ l ∧ .call x.toList ∈ l := by
  have key : ∀ x ∈ ["_ZN4core6result13unwrap_failed17h0123456789abcdefE", "_ZN4core6option13expect_failed17h0123456789abcdefE",
      "_ZN4core5slice5index22slice_index_order_fail17h0123456789abcdefE", "_ZN5alloc7raw_vec17capacity_overflow17h0123456789abcdefE"],
      isRustPanic x.toList = false ∧ allocCallee x.toList = x.toList ∧ contains "__SMACK_".toList x.toList = false ∧
      ("__CONTRACT_".toList).isPrefixOf x.toList = false ∧ ("$expr".toList).isPrefixOf (ident x.toList) = false ∧
      x.toList ≠ "__VERIFIER_assert".toList ∧ ident x.toList = x.toList := by decide +kernel
  obtain ⟨k1, k2, k3, k4, k5, k6, k7⟩ := key x hx
  rw [fixInst_call n g r k1, k2]
  have hv := c76_ordinary_partial o { site n with asm := false, caller := caller, callee := x.toList, ret := r } rfl
    ⟨(not_contains_iff _ _).1 k3, (not_startsWith_iff _ _).1 k4, (not_startsWith_iff _ _).1 k5, k6⟩
  refine ⟨_, congrArg (Out.acts n) hv, ?_, ?_⟩
  · rw [List.mem_cons]
    rintro (h | h)
    · cases h
    · exact no_panic_after _ h
  · rw [k7]; exact List.mem_cons_self ..

/-- C77: a program without the special names is not changed. -/
theorem c77_unaffected (fs : List Fn) (hf : ∀ f ∈ fs, ¬ Dropped f.name)
    (hc : ∀ f ∈ fs, ∀ b, f.body = some b → ∀ n g r c, Inst.call n c g r ∈ b → ¬ Panics c ∧ (∀ k, ¬ AllocFor c k) ∧ ¬ LangStart c) :
    runOnModule fs = fs := by
  unfold runOnModule
  rw [List.map_congr_left (g := id), List.map_id]
  intro f hm
  cases hb : f.body with
  | none => unfold runOnFunction; simp only [hb, id]
  | some b =>
    by_cases hs : "__SMACK_".toList <:+: f.name
    · exact (c77_function f b hb).1 hs
    · obtain ⟨ls, h1, h2⟩ := (c77_function f b hb).2.2 hs (hf f hm)
      rw [h2, show id f = ⟨f.name, some b⟩ from by cases f; cases hb; rfl]
      have : ∀ (b : List Inst) ls, Each (Fixed (decide (f.name = "main".toList))) b ls →
          (∀ n g r c, Inst.call n c g r ∈ b → ¬ Panics c ∧ (∀ k, ¬ AllocFor c k) ∧ ¬ LangStart c) → ls.flatten = b := by
        intro b ls h
        induction h with
        | nil => intro _; rfl
        | @cons i l is ls hi _ ih =>
          intro hcs
          have hl : l = [i] := by
            refine c77_deterministic _ _ _ _ hi ?_
            cases i with
            | call n c g r =>
              obtain ⟨a, b, c⟩ := hcs n g r c (List.mem_cons_self ..)
              exact .call _ _ _ _ _ a b fun _ => c
            | zero => exact .zero _ _
            | invoke => exact .invoke _ _ _
            | other => exact .other _ _
          rw [List.flatten_cons, hl, ih fun n g r c h => hcs n g r c (List.mem_cons_of_mem _ h)]
          rfl
      rw [this b ls h1 (hc f hm b hb)]

/-! ## Examples -/

section Examples

def optsR : Opts := ⟨true, []⟩
/-- Only `main` is checked. -/
def optsMain : Opts := ⟨true, [fun _ m _ => m == "main".toList]⟩

/-- An undefined function that returns a pointer; a function of smack.h; a user function with an unlucky name. -/
example : visitCall optsR { caller := "main".toList, callee := "get_device".toList, isDecl := true, ret := .ptr, allocated := false } =
    some [.call "get_device".toList, .assumeExternal] := by decide +kernel
example : visitCall optsR { caller := "main".toList, callee := "__VERIFIER_nondet_int".toList, isDecl := true, ret := .other } =
    some [.call "__VERIFIER_nondet_int".toList, .record "__VERIFIER_nondet_int".toList] := by decide +kernel
example : visitCall optsR { caller := "main".toList, callee := "my__SMACK_code_generator".toList } = some [.code] := by decide +kernel
example : visitCall optsR { caller := "main".toList, callee := "$expression_eval".toList, ret := .other } = some [] := by decide +kernel
example : visitCall optsMain { caller := "helper".toList, callee := "__VERIFIER_assert".toList } = some [] ∧
    visitInvoke { caller := "helper".toList, callee := "__VERIFIER_assert".toList } = [.call "__VERIFIER_assert".toList] := by decide +kernel
example : visitCall optsR { caller := "f".toList, callee := "__CONTRACT_invariant".toList, contractArg := true } = none := by decide +kernel

/-- The hypotheses of `c76_external_null_fails`. -/
example : Called optsR { caller := "main".toList, callee := "get_device".toList, isDecl := true, ret := .ptr, allocated := false } ∧
    External { caller := "main".toList, callee := "get_device".toList, isDecl := true, ret := .ptr, allocated := false } := by
  refine ⟨⟨rfl, ?_, ?_, ?_, ?_, ?_⟩, ?_⟩
  · exact fun h => absurd h.2.1 (by decide +kernel)
  · exact fun h => absurd h.1 (by decide +kernel)
  · intro t ht
    rw [← contains_iff]
    exact (by decide +kernel : ∀ t ∈ annotationTexts, ¬ contains t.toList "get_device".toList = true) t ht
  · rw [← List.isPrefixOf_iff_prefix]; decide +kernel
  · decide +kernel
  · unfold External; decide +kernel

def panicName : Str := "_ZN4core9panicking5panic17h0123456789abcdefE".toList
def langStart : Str := "_ZN3std2rt10lang_start17h0123456789abcdefE".toList

theorem panicName_panics : Panics panicName :=
  ⟨"_ZN4core9panicking5panic17h", by decide, "0123456789abcdefE".toList, by decide, by decide +kernel⟩

/-- A small program: the panic becomes an assertion, `lang_start` a call of the real `main`, the allocation a call of the model, the invoked
panic stays a call. -/
example : (runOnModule [⟨panicName, some [.other 7]⟩,
      ⟨"main".toList, some [.call 1 langStart (some ("real_main".toList, .void)) .other, .other 2]⟩,
      ⟨"real_main".toList, some [.call 3 "__rust_alloc".toList none .ptr, .call 4 panicName none .void, .invoke 5 panicName]⟩]).map
        (translateFn optsR fun _ => { caller := [], callee := [], allocated := true }) =
    [none,
     some [.zero 1, .acts 1 (some [.call "real_main".toList]), .other 2],
     some [.acts 3 (some [.call "__smack_rust_prim_alloc".toList]), .acts 4 (some [.assertPanic]), .acts 5 (some [.call panicName])]] := by
  decide +kernel

end Examples

end Smack.Dispatch
