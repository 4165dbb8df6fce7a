import Verif.Annot.Spec
import Verif.Printer.DeclProps
/-!
# Lemmas for C98
-/
namespace Smack.Annot

open Smack.Printer Spec

theorem dec_digits (n : Nat) : ∀ c ∈ dec n, c.isDigit = true := fun c hc => Nat.isDigit_of_mem_toDigits (by decide) (by decide) hc

theorem dec_ne_nil (n : Nat) : dec n ≠ [] := by
  intro h
  have := Nat.length_toDigits_pos (b := 10) (n := n)
  unfold dec at h
  rw [h] at this
  exact absurd this (by decide)

theorem dec_value (n : Nat) : Nat.ofDigitChars 10 (dec n) 0 = n := Nat.ofDigitChars_toDigits (by decide) (by decide)

theorem readInt_dec (n : Nat) : readInt (dec n) = n := by
  have hv := dec_value n
  have hd := dec_digits n
  revert hv hd
  cases dec n with
  | nil =>
    intro hv _
    rw [Nat.ofDigitChars_nil] at hv
    subst hv
    rfl
  | cons c r =>
    intro hv hd
    have hc : c ≠ '-' := by
      intro e; subst e; exact absurd (hd '-' (by simp)) (by decide)
    unfold readInt
    split
    · rename_i h; exact absurd (List.cons.inj h).1 hc
    · exact_mod_cast hv

theorem readInt_decInt (z : Int) : readInt (decInt z) = z := by
  cases z with
  | ofNat n => exact readInt_dec n
  | negSucc n =>
    simp only [decInt, readInt, dec_value]
    omega

theorem decInt_wf (z : Int) : Spec.meaning (.int (decInt z)) = some (.num z) ∧ Printer.Spec.WF (.int (decInt z)) := by
  refine ⟨by simp [meaning, readInt_decInt], ?_⟩
  unfold Printer.Spec.WF
  cases z with
  | ofNat n => exact Or.inl ⟨dec_ne_nil n, dec_digits n⟩
  | negSucc n => exact Or.inr ⟨_, rfl, dec_ne_nil _, dec_digits _⟩

theorem small64 {v : Nat} (h : v < 2 ^ 63) : (BitVec.ofNat 64 v).toInt = v := by
  rw [BitVec.toInt_eq_toNat_cond, BitVec.toNat_ofNat, Nat.mod_eq_of_lt (by omega), if_pos (by omega)]

theorem large64 {v : Nat} (h : 2 ^ 63 ≤ v) (h' : v < 2 ^ 64) : (BitVec.ofNat 64 v).toInt = (v : Int) - 2 ^ 64 := by
  rw [BitVec.toInt_eq_toNat_cond, BitVec.toNat_ofNat, Nat.mod_eq_of_lt h', if_neg (by omega)]
  rfl

theorem small32 {v : Nat} (h : v < 2 ^ 31) : (BitVec.ofNat 32 v).toInt = v := by
  rw [BitVec.toInt_eq_toNat_cond, BitVec.toNat_ofNat, Nat.mod_eq_of_lt (by omega), if_pos (by omega)]

theorem ex_cons {α} (p : α → Prop) (a : α) (l : List α) : (∃ x ∈ a :: l, p x) ↔ p a ∨ ∃ x ∈ l, p x := by simp

theorem prefix_word {p k : Str} : p.isPrefixOf k = true ↔ p <+: k := List.isPrefixOf_iff_prefix

theorem isVisible_iff (k : Str) : isVisible k = true ↔ Visible k := by
  unfold isVisible Visible
  rw [Bool.or_eq_true, prefix_word, prefix_word]
  rfl

theorem sourceloc_hidden : isVisible ['s', 'o', 'u', 'r', 'c', 'e', 'l', 'o', 'c'] = false := by decide

theorem codeKind_eq : "verifier.code".toList = codeKind := rfl

theorem contains_iff (p s : Str) : contains p s = true ↔ p <:+: s := by
  induction s with
  | nil => simp [contains, List.isEmpty_iff]
  | cons c s ih => rw [contains, Bool.or_eq_true, ih, prefix_word, List.infix_cons_iff]

/-! ## What annotations say -/

theorem said_nil (k : Str) : said k [] = [] := rfl

theorem said_append (k : Str) (s t : List Stmt) : said k (s ++ t) = said k s ++ said k t := by simp [said]

theorem said_annot (k n : Str) (vs : List Expr) (ss : List Stmt) :
    said k (.assume_ [⟨n, vs⟩] (.bool true) :: ss) = (if n = k then [vs.map meaning] else []) ++ said k ss := by
  unfold said
  simp only [List.filterMap_cons, attrOf, List.filter_cons]
  by_cases h : n = k <;> simp [h]

theorem mdExprs_small {ops : List MdOp} {es : List Expr} (h : mdExprs ops = some es) (hs : ∀ o ∈ ops, Small o) :
    es.map meaning = ops.map mdVal := by
  induction ops generalizing es with
  | nil => simp only [mdExprs, Option.some.injEq] at h; subst h; rfl
  | cons o os ih =>
    simp only [mdExprs, Option.bind_eq_bind, Option.bind_eq_some_iff] at h
    obtain ⟨e, he, es', hes, h⟩ := h
    cases h
    rw [List.map_cons, List.map_cons, ih hes fun o ho => hs o (List.mem_cons_of_mem _ ho)]
    congr 1
    have hso := hs o (by simp)
    cases o with
    | int v =>
      simp only [mdExpr] at he
      split at he
      · cases he; rw [(decInt_wf _).1, small64 hso]; rfl
      · cases he
    | str s => cases he; rfl
    | other => cases he

theorem mdExprs_none (ops : List MdOp) : mdExprs ops = none ↔ ∃ o ∈ ops, ¬ Printable o := by
  induction ops with
  | nil => simp [mdExprs]
  | cons o os ih =>
    have ho : mdExpr o = none ↔ ¬ Printable o := by
      cases o with
      | int v => simp only [mdExpr, Printable]; split <;> simp_all
      | str s => simp [mdExpr, Printable]
      | other => simp [mdExpr, Printable]
    rw [ex_cons, ← ih, ← ho]
    simp only [mdExprs]
    cases mdExpr o with
    | none => simp
    | some e => cases mdExprs os <;> simp

theorem mdStmts_none (i : Inst) (ks : List Str) :
    mdStmts i ks = none ↔ ∃ k ∈ ks, Visible k ∧ ∃ ops, i.md k = some ops ∧ ∃ o ∈ ops, ¬ Printable o := by
  induction ks with
  | nil => simp [mdStmts]
  | cons k ks ih =>
    rw [ex_cons, ← ih, mdStmts]
    cases hm : i.md k with
    | none => simp
    | some ops =>
      by_cases hv : isVisible k = true
      · simp only [hv, if_true, (isVisible_iff k).mp hv, true_and, Option.some.injEq, exists_eq_left', ← mdExprs_none]
        cases mdExprs ops with
        | none => simp
        | some es => cases mdStmts i ks <;> simp
      · have hnv : ¬ Visible k := fun h => hv ((isVisible_iff k).mpr h)
        simp [hv, hnv]

/-- The statements of the metadata are annotations with their names. -/
theorem mdStmts_mem {i : Inst} {ks : List Str} {ss : List Stmt} (h : mdStmts i ks = some ss) :
    ∀ s ∈ ss, ∃ k ops es, k ∈ ks ∧ i.md k = some ops ∧ isVisible k = true ∧ mdExprs ops = some es ∧ s = .assume_ [⟨k, es⟩] (.bool true) := by
  induction ks generalizing ss with
  | nil => cases h; simp
  | cons k ks ih =>
    rw [mdStmts] at h
    cases hm : i.md k with
    | none =>
      rw [hm] at h
      intro s hs
      obtain ⟨k', ops, es, a, b⟩ := ih h s hs
      exact ⟨k', ops, es, List.mem_cons_of_mem _ a, b⟩
    | some ops =>
      rw [hm] at h
      dsimp only at h
      split at h
      · rename_i hv
        simp only [Option.bind_eq_bind, Option.bind_eq_some_iff] at h
        obtain ⟨es, he, ss', hss, h⟩ := h
        cases h
        intro s hs
        rcases List.mem_cons.mp hs with rfl | hs
        · exact ⟨k, ops, es, by simp, hm, hv, he, rfl⟩
        · obtain ⟨k', ops, es, a, b⟩ := ih hss s hs
          exact ⟨k', ops, es, List.mem_cons_of_mem _ a, b⟩
      · intro s hs
        obtain ⟨k', ops, es, a, b⟩ := ih h s hs
        exact ⟨k', ops, es, List.mem_cons_of_mem _ a, b⟩

theorem said_none {k : Str} {ss : List Stmt} (h : ∀ s ∈ ss, ∀ a, attrOf s = some a → a.name ≠ k) : said k ss = [] := by
  unfold said
  rw [List.map_eq_nil_iff, List.filter_eq_nil_iff]
  intro a ha
  obtain ⟨s, hs, e⟩ := List.mem_filterMap.mp ha
  simpa using h s hs a e

theorem mdStmts_said {i : Inst} {ks : List Str} {ss : List Stmt} (h : mdStmts i ks = some ss) (hn : ks.Nodup) (k : Str) (hk : k ∈ ks)
    (hv : isVisible k = true) (hs : ∀ ops, i.md k = some ops → ∀ o ∈ ops, Small o) :
    said k ss = match i.md k with | some ops => [ops.map mdVal] | none => [] := by
  induction ks generalizing ss with
  | nil => simp at hk
  | cons k' ks ih =>
    obtain ⟨hn1, hn2⟩ := List.nodup_cons.mp hn
    rw [mdStmts] at h
    by_cases hkk : k = k'
    · subst hkk
      have hrest : ∀ ss', mdStmts i ks = some ss' → said k ss' = [] := by
        intro ss' hss
        refine said_none fun s hs a ha e => ?_
        obtain ⟨k2, ops, es, a1, _, _, _, rfl⟩ := mdStmts_mem hss s hs
        simp only [attrOf, Option.some.injEq] at ha
        subst ha
        dsimp only at e
        subst e
        exact hn1 a1
      cases hm : i.md k with
      | none => rw [hm] at h; exact hrest _ h
      | some ops =>
        rw [hm] at h
        dsimp only at h
        rw [if_pos hv] at h
        simp only [Option.bind_eq_bind, Option.bind_eq_some_iff] at h
        obtain ⟨es, he, ss', hss, h⟩ := h
        cases h
        rw [said_annot, if_pos rfl, hrest _ hss, mdExprs_small he (hs _ hm)]
        rfl
    · have hk' : k ∈ ks := (List.mem_cons.mp hk).resolve_left hkk
      cases hm : i.md k' with
      | none => rw [hm] at h; exact ih h hn2 hk'
      | some ops =>
        rw [hm] at h
        dsimp only at h
        split at h
        · simp only [Option.bind_eq_bind, Option.bind_eq_some_iff] at h
          obtain ⟨es, he, ss', hss, h⟩ := h
          cases h
          rw [said_annot, if_neg (fun e => hkk e.symm), ih hss hn2 hk']
          rfl
        · exact ih h hn2 hk'

theorem annotate_cases {o : Bool} {ks : List Str} {i : Inst} {ss : List Stmt} (h : annotate o ks i = some ss)
    (hd : ¬ "llvm.dbg.".toList <:+: i.callee.getD []) :
    ∃ ms, mdStmts i ks = some ms ∧ ss = (match i.loc with | some l => if o then [locStmt l] else [] | none => []) ++ ms := by
  unfold annotate at h
  rw [if_neg] at h
  · simp only [Option.bind_eq_bind, Option.bind_eq_some_iff] at h
    obtain ⟨ms, hms, h⟩ := h
    cases h
    exact ⟨ms, hms, rfl⟩
  · rw [contains_iff]; exact hd

theorem said_loc (k : Str) (hv : isVisible k = true) (o : Bool) (l : Option Loc) :
    said k (match l with | some l => if o then [locStmt l] else [] | none => []) = [] := by
  cases l with
  | none => rfl
  | some l =>
    cases o with
    | false => rfl
    | true =>
      simp only [if_true, locStmt, said_annot, said_nil, List.append_nil]
      rw [if_neg]
      intro e
      rw [← e, sourceloc_hidden] at hv
      exact absurd hv (by decide)

end Smack.Annot
