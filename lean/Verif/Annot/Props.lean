import Verif.Annot.Lemmas
/-!
# C98: what the annotations of instructions say
-/
namespace Smack.Annot

open Smack.Printer Spec

/-- No annotations come from calls of the debug intrinsics. -/
theorem c98_debug (o : Bool) (ks : List Str) (i : Inst) (f : Str) (hf : i.callee = some f) (hp : "llvm.dbg.".toList <+: f) :
    annotate o ks i = some [] := by
  unfold annotate
  rw [if_pos]
  rw [contains_iff, hf]
  exact hp.isInfix

/-- Each metadata node with a name for the Boogie program is said once, with its operands in their order. -/
theorem c98_metadata (o : Bool) (ks : List Str) (i : Inst) (ss : List Stmt) (h : annotate o ks i = some ss) (hn : ks.Nodup)
    (hd : ¬ "llvm.dbg.".toList <:+: i.callee.getD []) (k : Str) (hk : k ∈ ks) (hv : Visible k)
    (hs : ∀ ops, i.md k = some ops → ∀ o ∈ ops, Small o) :
    said k ss = match i.md k with | some ops => [ops.map mdVal] | none => [] := by
  obtain ⟨ms, hms, rfl⟩ := annotate_cases h hd
  have hv' := (isVisible_iff k).mpr hv
  rw [said_append, said_loc k hv', mdStmts_said hms hn k hk hv' hs]
  rfl

/-- The source location is said first and once, if asked for and known. -/
theorem c98_location (o : Bool) (ks : List Str) (i : Inst) (ss : List Stmt) (h : annotate o ks i = some ss)
    (hd : ¬ "llvm.dbg.".toList <:+: i.callee.getD []) (hl : ∀ l, i.loc = some l → l.line < 2 ^ 31 ∧ l.col < 2 ^ 31) :
    said "sourceloc".toList ss =
      (match o, i.loc with | true, some l => [[some (.text l.file), some (.num l.line), some (.num l.col)]] | _, _ => []) ∧
    (∀ l, o = true → i.loc = some l → ∃ s t, ss = s :: t ∧ said "sourceloc".toList [s] ≠ []) := by
  obtain ⟨ms, hms, rfl⟩ := annotate_cases h hd
  have hm : said "sourceloc".toList ms = [] := by
    refine said_none fun s hs a ha e => ?_
    obtain ⟨k, ops, es, _, _, hv, _, rfl⟩ := mdStmts_mem hms s hs
    simp only [attrOf, Option.some.injEq] at ha
    subst ha
    dsimp only at e
    rw [e] at hv
    exact absurd sourceloc_hidden (by rw [show ['s', 'o', 'u', 'r', 'c', 'e', 'l', 'o', 'c'] = "sourceloc".toList from rfl, hv]; decide)
  rw [said_append, hm, List.append_nil]
  cases hi : i.loc with
  | none =>
    refine ⟨?_, fun l _ h => by cases h⟩
    cases o <;> rfl
  | some l =>
    cases o with
    | false => exact ⟨rfl, fun l h => by cases h⟩
    | true =>
      obtain ⟨h1, h2⟩ := hl l hi
      have e : said "sourceloc".toList [locStmt l] = [[some (.text l.file), some (.num l.line), some (.num l.col)]] := by
        rw [locStmt, said_annot, if_pos (show ['s', 'o', 'u', 'r', 'c', 'e', 'l', 'o', 'c'] = "sourceloc".toList from rfl)]
        simp only [List.map_cons, List.map_nil, (decInt_wf _).1, small32 h1, small32 h2, said_nil, List.append_nil]
        rfl
      refine ⟨e, fun l' _ hl' => ?_⟩
      cases hl'
      exact ⟨locStmt l, ms, rfl, by rw [e]; simp⟩

/-- Nothing else is said. -/
theorem c98_only (o : Bool) (ks : List Str) (i : Inst) (ss : List Stmt) (h : annotate o ks i = some ss) (s : Stmt) (hs : s ∈ ss) :
    ∃ a, s = .assume_ [a] (.bool true) ∧
      ((a.name = "sourceloc".toList ∧ o = true ∧ i.loc.isSome) ∨ (Visible a.name ∧ a.name ∈ ks ∧ i.md a.name ≠ none)) := by
  by_cases hd : "llvm.dbg.".toList <:+: i.callee.getD []
  · unfold annotate at h
    rw [if_pos (show contains ['l', 'l', 'v', 'm', '.', 'd', 'b', 'g', '.'] _ = true from (contains_iff _ _).mpr hd)] at h
    cases h
    simp at hs
  · obtain ⟨ms, hms, rfl⟩ := annotate_cases h hd
    rcases List.mem_append.mp hs with hs | hs
    · cases hi : i.loc with
      | none => rw [hi] at hs; simp at hs
      | some l =>
        rw [hi] at hs
        cases o with
        | false => simp at hs
        | true =>
          simp only [if_true, List.mem_singleton] at hs
          subst hs
          exact ⟨_, rfl, Or.inl ⟨rfl, rfl, rfl⟩⟩
    · obtain ⟨k, ops, es, hk, hm, hv, _, rfl⟩ := mdStmts_mem hms s hs
      exact ⟨_, rfl, Or.inr ⟨(isVisible_iff k).mp hv, hk, by dsimp only; rw [hm]; simp⟩⟩

/-- The translator stops exactly at metadata that it cannot print. -/
theorem c98_stops (o : Bool) (ks : List Str) (i : Inst) (hd : ¬ "llvm.dbg.".toList <:+: i.callee.getD []) :
    annotate o ks i = none ↔ ∃ k ∈ ks, Visible k ∧ ∃ ops, i.md k = some ops ∧ ∃ o ∈ ops, ¬ Printable o := by
  rw [← mdStmts_none]
  unfold annotate
  rw [if_neg (by rw [contains_iff]; exact hd)]
  cases mdStmts i ks <;> simp

/-- Integers with the highest of 64 bits are said as negative numbers. -/
theorem c98_large_fails (v : Nat) (h : 2 ^ 63 ≤ v) (h' : v < 2 ^ 64) :
    ∃ e, mdExpr (.int v) = some e ∧ meaning e = some (.num ((v : Int) - 2 ^ 64)) ∧ meaning e ≠ mdVal (.int v) := by
  refine ⟨.int (decInt (BitVec.ofNat 64 v).toInt), by simp [mdExpr, h'], ?_, ?_⟩
  · rw [(decInt_wf _).1, large64 h h']
  · rw [(decInt_wf _).1, large64 h h']
    simp only [mdVal, ne_eq, Option.some.injEq, Val.num.injEq]
    omega

/-- An addition at line 3 that is verifier code. -/
def sample : Inst :=
  { loc := some ⟨['a', '.', 'c'], 3, 7⟩, md := fun k => if k = codeKind then some [.int 1] else none, text := ['x', ' ', '=', ' ', 'a', 'd', 'd'], opc := .arith 13 }

example : annotate true [codeKind] sample = some [locStmt ⟨['a', '.', 'c'], 3, 7⟩, .assume_ [⟨codeKind, [.int ['1']]⟩] (.bool true)] := by rfl

example : ([codeKind] : List Str).Nodup ∧ ¬ "llvm.dbg.".toList <:+: sample.callee.getD [] ∧ Visible codeKind ∧
    (∀ ops, sample.md codeKind = some ops → ∀ o ∈ ops, Small o) :=
  ⟨by decide, by rw [← contains_iff]; decide, (isVisible_iff _).mp (by decide), fun ops h o ho => by
    cases h; rw [List.mem_singleton] at ho; subst ho; show 1 < 2 ^ 63; decide⟩

/-- A call of a debug intrinsic. -/
example : "llvm.dbg.".toList <+: "llvm.dbg.declare".toList := by rw [← prefix_word]; decide

/-- Metadata that cannot be printed. -/
example : annotate true [codeKind] { sample with md := fun _ => some [.other] } = none := by rfl

/-! ## Reading the annotations from the Boogie file -/

theorem mdExprs_wf {ops : List MdOp} {es : List Expr} (h : mdExprs ops = some es) (hq : ∀ s, MdOp.str s ∈ ops → '"' ∉ s) : Printer.Spec.WFs es := by
  induction ops generalizing es with
  | nil => cases h; trivial
  | cons o os ih =>
    simp only [mdExprs, Option.bind_eq_bind, Option.bind_eq_some_iff] at h
    obtain ⟨e, he, es', hes, h⟩ := h
    cases h
    refine ⟨?_, ih hes fun s hs => hq s (List.mem_cons_of_mem _ hs)⟩
    cases o with
    | int v =>
      simp only [mdExpr] at he
      split at he
      · cases he; exact (decInt_wf _).2
      · cases he
    | str s => cases he; exact hq s (by simp)
    | other => cases he

/-- Annotations without quotation marks in names of files and strings are read back from the text. -/
theorem c98_readable (o : Bool) (ks : List Str) (i : Inst) (ss : List Stmt) (h : annotate o ks i = some ss)
    (hk : ∀ k ∈ ks, Printer.Spec.NameOk k) (hf : ∀ l, i.loc = some l → '"' ∉ l.file)
    (hq : ∀ k ops s, i.md k = some ops → MdOp.str s ∈ ops → '"' ∉ s) (s : Stmt) (hs : s ∈ ss) (t : Str) :
    Printer.Spec.parseStmt (printStmt s ++ t) = some (s, t) := by
  refine c97_statement s ?_ t
  by_cases hd : "llvm.dbg.".toList <:+: i.callee.getD []
  · unfold annotate at h
    rw [if_pos (show contains ['l', 'l', 'v', 'm', '.', 'd', 'b', 'g', '.'] _ = true from (contains_iff _ _).mpr hd)] at h
    cases h
    simp at hs
  · obtain ⟨ms, hms, rfl⟩ := annotate_cases h hd
    rcases List.mem_append.mp hs with hs | hs
    · cases hi : i.loc with
      | none => rw [hi] at hs; simp at hs
      | some l =>
        rw [hi] at hs
        cases o with
        | false => simp at hs
        | true =>
          simp only [if_true, List.mem_singleton] at hs
          subst hs
          refine ⟨?_, trivial⟩
          intro a ha
          rw [List.mem_singleton] at ha
          subst ha
          exact ⟨⟨by simp, show ∀ c ∈ ['s', 'o', 'u', 'r', 'c', 'e', 'l', 'o', 'c'], Printer.Spec.atomChar c = true by decide⟩, hf l hi, (decInt_wf _).2, (decInt_wf _).2, trivial⟩
    · obtain ⟨k, ops, es, hkk, hm, hv, he, rfl⟩ := mdStmts_mem hms s hs
      refine ⟨?_, trivial⟩
      intro a ha
      rw [List.mem_singleton] at ha
      subst ha
      exact ⟨hk k hkk, mdExprs_wf he fun s hs => hq k ops s hm hs⟩

/-- A quotation mark in a string is printed as it is: the string is read up to it. -/
theorem c98_quote_fails (x y : Str) (hx : '"' ∉ x) :
    ∃ e, mdExpr (.str (x ++ '"' :: y)) = some e ∧ Printer.Spec.parseE (print e) = some (.str x, y ++ ['"']) := by
  refine ⟨_, rfl, ?_⟩
  have hv : ∀ c ∈ x, (decide (c ≠ '"')) = true := by
    intro c hc
    rw [decide_eq_true_eq]
    rintro rfl
    exact hx hc
  have hs : ∀ c ∈ ('"' :: (y ++ ['"'])).head?, (decide (c ≠ '"')) = false := by
    intro c hc
    have : c = '"' := by simpa using hc.symm
    subst this; decide
  have e : print (.str (x ++ '"' :: y)) = '"' :: (x ++ '"' :: (y ++ ['"'])) := by simp [print]
  rw [e, Printer.Spec.parseE.eq_def]
  simp only [takeWhile_append_stop hv hs, dropWhile_append_stop hv hs, expect_cons, bind, Option.bind]
  rfl

/-! ## Timing -/

theorem cost_known {tti : Query → Int} {i : Inst} (ht : Sane tti) (hm : HasMark i) (hs : NoStruct i) :
    cost tti i = some (match knownCost tti i with | some z => BitVec.ofInt 32 z | none => BitVec.ofInt 32 (-1)) := by
  obtain ⟨b, hb⟩ := hm
  rw [codeKind_eq] at hb
  unfold cost isMarked knownCost
  rw [codeKind_eq, hb]
  cases b with
  | true => simp
  | false =>
    obtain ⟨h1, h2⟩ := hs
    simp only [Bool.false_eq_true, if_false, Option.some.injEq, List.cons.injEq, MdOp.int.injEq, and_true,
      show ¬ (0 : Nat) = 1 by decide, Option.bind_eq_bind, Option.bind_some, show ((0 : Nat) == 1) = false from rfl]
    unfold costQuery
    cases ho : i.opc with
    | store => simp [h2 ho]
    | load => simp [h1 ho]
    | arith op =>
      have hk : ∀ o, operandInfo o = knownCost.kindOf o := fun o => by
        unfold operandInfo knownCost.kindOf
        cases o.constVec <;> cases o.splat <;> rfl
      simp [hk]
    | call => cases i.intrinsic <;> rfl
    | _ => rfl

theorem knownCost_range {tti : Query → Int} {i : Inst} (ht : Sane tti) {z : Int} (h : knownCost tti i = some z) : 0 ≤ z ∧ z < 2 ^ 32 - 1 := by
  unfold knownCost at h
  split at h
  · cases h; decide
  · split at h <;> first
      | (cases h; exact ht _)
      | (cases hi : i.intrinsic with
         | none => rw [hi] at h; cases h
         | some p => rw [hi] at h; cases h; exact ht _)
      | cases h

theorem ofInt_toNat {z : Int} (h : 0 ≤ z) (h' : z < 2 ^ 32 - 1) :
    ((BitVec.ofInt 32 z).toNat : Int) = z ∧ BitVec.ofInt 32 z ≠ BitVec.ofInt 32 (-1) := by
  have e : ((BitVec.ofInt 32 z).toNat : Int) = z := by
    rw [BitVec.toNat_ofInt]
    have : z % ((2 ^ 32 : Nat) : Int) = z := Int.emod_eq_of_lt h (by omega)
    omega
  refine ⟨e, fun h2 => ?_⟩
  rw [h2] at e
  have : ((BitVec.ofInt 32 (-1)).toNat : Int) = 2 ^ 32 - 1 := by decide
  omega

/-- The metadata that the pass leaves on an instruction. -/
def timed (tti : Query → Int) (i : Inst) : Str → Option (List MdOp) := fun k =>
  if k = costKind then (match knownCost tti i with | some z => some [.int z.toNat] | none => i.md k)
  else if k = nameKind then some [.str i.text] else i.md k

theorem knownCost_md {tti : Query → Int} {i : Inst} (md : Str → Option (List MdOp)) (h : md codeKind = i.md codeKind) :
    knownCost tti { i with md := md } = knownCost tti i := by
  unfold knownCost
  by_cases hb : i.md codeKind = some [.int 1]
  · exact (if_pos (h.trans hb)).trans (if_pos hb).symm
  · exact (if_neg (fun e => hb (h.symm.trans e))).trans (if_neg hb).symm

theorem timeInsts_spec {tti : Query → Int} (ht : Sane tti) {ks : List Str} {is : List Inst} (hm : ∀ i ∈ is, HasMark i) (hs : ∀ i ∈ is, NoStruct i) :
    ∃ ks', timeInsts tti ks is = some (ks', is.map fun i => { i with md := timed tti i }) ∧ (ks.Nodup → ks'.Nodup) ∧ (∀ k ∈ ks, k ∈ ks') ∧
      (∀ i ∈ is, nameKind ∈ ks' ∧ (knownCost tti i ≠ none → costKind ∈ ks')) ∧ ∀ k ∈ ks', k ∈ ks ∨ k = nameKind ∨ k = costKind := by
  induction is generalizing ks with
  | nil => exact ⟨ks, rfl, id, fun _ h => h, by simp, fun k h => Or.inl h⟩
  | cons i is ih =>
    have hins : ∀ (l : List Str) (k : Str), (l.Nodup → (if k ∈ l then l else l ++ [k]).Nodup) ∧ (∀ x ∈ l, x ∈ (if k ∈ l then l else l ++ [k])) ∧
        k ∈ (if k ∈ l then l else l ++ [k]) ∧ ∀ x ∈ (if k ∈ l then l else l ++ [k]), x ∈ l ∨ x = k := by
      intro l k
      by_cases hk : k ∈ l
      · simp only [if_pos hk]
        exact ⟨id, fun _ h => h, hk, fun x h => Or.inl h⟩
      · simp only [if_neg hk]
        refine ⟨fun hn => ?_, fun x h => List.mem_append_left _ h, by simp, fun x h => by simpa using h⟩
        rw [List.nodup_append]
        refine ⟨hn, by simp, ?_⟩
        intro a ha b hb e
        rw [List.mem_singleton] at hb
        subst hb; subst e
        exact hk ha
    obtain ⟨a1, a2, a3, a4⟩ := hins ks nameKind
    have hne : codeKind ≠ nameKind := by decide
    have hnc : nameKind ≠ costKind := by decide
    have hmi := hm i (by simp)
    have hc : cost tti (addNamingMetadata ks i).2 = some (match knownCost tti i with | some z => BitVec.ofInt 32 z | none => BitVec.ofInt 32 (-1)) := by
      have hmd : (fun x => if x = nameKind then some [MdOp.str i.text] else i.md x) codeKind = i.md codeKind := by dsimp only; rw [if_neg hne]
      rw [← knownCost_md (tti := tti) _ hmd]
      exact cost_known ht (by obtain ⟨b, hb⟩ := hmi; exact ⟨b, by rw [codeKind_eq] at hb ⊢; exact hmd.trans hb⟩) (hs i (by simp))
    have hstep : ∃ ks1, addTimingMetadata tti (addNamingMetadata ks i).1 (addNamingMetadata ks i).2 = some (ks1, { i with md := timed tti i }) ∧
        (ks.Nodup → ks1.Nodup) ∧ (∀ k ∈ ks, k ∈ ks1) ∧ nameKind ∈ ks1 ∧ (knownCost tti i ≠ none → costKind ∈ ks1) ∧
        ∀ k ∈ ks1, k ∈ ks ∨ k = nameKind ∨ k = costKind := by
      unfold addTimingMetadata
      rw [hc]
      cases hk : knownCost tti i with
      | none =>
        refine ⟨_, ?_, a1, a2, a3, fun h => absurd rfl h, fun k h => (a4 k h).imp_right Or.inl⟩
        simp only [Option.bind_eq_bind, Option.bind_some, ne_eq, not_true_eq_false, if_false]
        refine congrArg some (Prod.ext rfl ?_)
        show { i with md := _ } = { i with md := _ }
        congr 1
        funext x
        unfold timed
        rw [hk]
        by_cases hx : x = costKind
        · rw [if_pos hx, if_neg (by rw [hx]; exact hnc.symm)]
        · rw [if_neg hx]
      | some z =>
        obtain ⟨r1, r2⟩ := knownCost_range ht hk
        obtain ⟨r3, r4⟩ := ofInt_toNat r1 r2
        obtain ⟨b1, b2, b3, b4⟩ := hins (if nameKind ∈ ks then ks else ks ++ [nameKind]) costKind
        refine ⟨_, ?_, fun h => b1 (a1 h), fun k h => b2 k (a2 k h), b2 _ a3, fun _ => b3, fun k h => ?_⟩
        · simp only [Option.bind_eq_bind, Option.bind_some, ne_eq, r4, not_false_eq_true, if_true]
          refine congrArg some (Prod.ext rfl ?_)
          show { i with md := _ } = { i with md := _ }
          congr 1
          funext x
          unfold timed
          rw [hk]
          by_cases hx : x = costKind
          · rw [if_pos hx, if_pos hx]
            have : z.toNat = (BitVec.ofInt 32 z).toNat := by omega
            dsimp only
            rw [this]
          · rw [if_neg hx, if_neg hx]
            rfl
        · rcases b4 k h with h | h
          · exact (a4 k h).imp_right Or.inl
          · exact Or.inr (Or.inr h)
    obtain ⟨ks1, e1, c1, c2, c3, c4, c5⟩ := hstep
    obtain ⟨ks', e2, d1, d2, d3, d4⟩ := ih (ks := ks1) (fun i h => hm i (List.mem_cons_of_mem _ h)) (fun i h => hs i (List.mem_cons_of_mem _ h))
    refine ⟨ks', ?_, fun h => d1 (c1 h), fun k h => d2 k (c2 k h), ?_, fun k h => ?_⟩
    · rw [timeInsts, e1]
      simp only [Option.bind_eq_bind, Option.bind_some, e2]
      rfl
    · intro j hj
      rcases List.mem_cons.mp hj with rfl | hj
      · exact ⟨d2 _ c3, fun h => d2 _ (c4 h)⟩
      · exact d3 j hj
    · rcases d4 k h with h | h
      · exact c5 k h
      · exact Or.inr h

/-- The pass leaves the functions of SMACK alone. -/
theorem c98_own_functions (tti : Query → Int) (ks : List Str) (f : Str) (is : List Inst)
    (hf : "__SMACK".toList <+: f ∨ "__VERIFIER".toList <+: f) : runOnFunction tti ks f is = some (ks, is) := by
  unfold runOnFunction
  rw [if_pos]
  unfold isAutogenerated
  rw [Bool.or_eq_true, prefix_word, prefix_word]
  exact hf

/-- After the pass, each instruction of any other function says its text and its cost, if known. Other metadata are kept. -/
theorem c98_timing (tti : Query → Int) (ht : Sane tti) (ks : List Str) (hn : ks.Nodup) (f : Str) (is : List Inst)
    (hf : ¬ ("__SMACK".toList <+: f ∨ "__VERIFIER".toList <+: f)) (hm : ∀ i ∈ is, HasMark i) (hs : ∀ i ∈ is, NoStruct i)
    (hfresh : ∀ i ∈ is, i.md "smack.InstTimingCost.Int64".toList = none) :
    ∃ ks' is', runOnFunction tti ks f is = some (ks', is') ∧ ks'.Nodup ∧ is'.length = is.length ∧
      ∀ n (h : n < is.length) (h' : n < is'.length) (o : Bool) (ss : List Stmt), annotate o ks' is'[n] = some ss →
        ¬ "llvm.dbg.".toList <:+: is[n].callee.getD [] →
        said "smack.LLVMInstructionName".toList ss = [[some (.text is[n].text)]] ∧
        (said "smack.InstTimingCost.Int64".toList ss = match knownCost tti is[n] with | some z => [[some (.num z)]] | none => []) ∧
        ∀ k ∈ ks, Visible k → k ≠ "smack.LLVMInstructionName".toList → k ≠ "smack.InstTimingCost.Int64".toList →
          (∀ ops, is[n].md k = some ops → ∀ o ∈ ops, Small o) →
          said k ss = match is[n].md k with | some ops => [ops.map mdVal] | none => [] := by
  obtain ⟨ks', e, h1, h2, h3, h4⟩ := timeInsts_spec ht (ks := ks) hm hs
  refine ⟨ks', is.map fun i => { i with md := timed tti i }, ?_, h1 hn, List.length_map _, ?_⟩
  · unfold runOnFunction
    rw [if_neg, e]
    unfold isAutogenerated
    rw [Bool.or_eq_true, prefix_word, prefix_word]
    exact hf
  intro n h h' o ss ha hd
  rw [List.getElem_map] at ha
  have hmem := List.getElem_mem h
  obtain ⟨g1, g2⟩ := h3 _ hmem
  have hnk : "smack.LLVMInstructionName".toList = nameKind := rfl
  have hck : "smack.InstTimingCost.Int64".toList = costKind := rfl
  have hne : nameKind ≠ costKind := by decide
  rw [hnk, hck]
  refine ⟨?_, ?_, ?_⟩
  · have hmd : timed tti is[n] nameKind = some [.str is[n].text] := by
      unfold timed; rw [if_neg hne, if_pos rfl]
    rw [c98_metadata o ks' _ ss ha (h1 hn) hd nameKind g1 ((isVisible_iff _).mp (by decide))
      (fun ops ho p hp => by have ho := hmd.symm.trans ho; cases ho; rw [List.mem_singleton] at hp; subst hp; trivial)]
    dsimp only
    rw [hmd]
    rfl
  · cases hk : knownCost tti is[n] with
    | none =>
      have hmd : timed tti is[n] costKind = none := by
        unfold timed; rw [if_pos rfl, hk]; exact hfresh _ hmem
      refine said_none fun s hs a ha' e => ?_
      obtain ⟨a', rfl, h⟩ := c98_only o ks' _ ss ha s hs
      simp only [attrOf, Option.some.injEq] at ha'
      subst ha'
      rcases h with ⟨h, _⟩ | ⟨_, _, h⟩
      · rw [e] at h; exact absurd h (by decide)
      · rw [e] at h; exact h hmd
    | some z =>
      obtain ⟨r1, r2⟩ := knownCost_range ht hk
      have hmd : timed tti is[n] costKind = some [.int z.toNat] := by
        unfold timed; rw [if_pos rfl, hk]
      rw [c98_metadata o ks' _ ss ha (h1 hn) hd costKind (g2 (by rw [hk]; simp)) ((isVisible_iff _).mp (by decide))
        (fun ops ho p hp => by
          have ho := hmd.symm.trans ho; cases ho; rw [List.mem_singleton] at hp; subst hp; show z.toNat < 2 ^ 63; omega)]
      dsimp only
      rw [hmd]
      simp only [List.map_cons, List.map_nil, mdVal, Int.toNat_of_nonneg r1]
  · intro k hk hv hk1 hk2 hsm
    have hmd : timed tti is[n] k = is[n].md k := by
      unfold timed; rw [if_neg hk2, if_neg hk1]
    rw [c98_metadata o ks' _ ss ha (h1 hn) hd k (h2 k hk) hv (fun ops ho => hsm ops (by rw [← hmd]; exact ho))]
    dsimp only
    rw [hmd]

example : Sane (fun _ => 1) ∧ HasMark sample ∧ NoStruct sample ∧ sample.md "smack.InstTimingCost.Int64".toList = none ∧
    ¬ ("__SMACK".toList <+: ['m', 'a', 'i', 'n'] ∨ "__VERIFIER".toList <+: ['m', 'a', 'i', 'n']) :=
  ⟨fun _ => (by decide : (0 : Int) ≤ 1 ∧ (1 : Int) < 2 ^ 32 - 1), ⟨true, rfl⟩, by simp [NoStruct, sample], rfl, by rw [← prefix_word, ← prefix_word]; decide⟩

/-- Verifier code costs nothing; the same instruction otherwise costs what the cost model says. -/
example : knownCost (fun _ => 1) sample = some 0 ∧ knownCost (fun _ => 1) { sample with md := fun _ => some [.int 0] } = some 1 := by
  constructor <;> rfl

/-- A negative cost of -1 is taken for missing information. -/
theorem c98_minus_one_fails (ks : List Str) (i : Inst) (tti : Query → Int) (q : Query) (hm : i.md "verifier.code".toList = some [.int 0])
    (hq : costQuery i = .ask q) (ht : tti q = -1) : addTimingMetadata tti ks i = some (ks, i) := by
  have hc : cost tti i = some (BitVec.ofInt 32 (-1)) := by
    unfold cost isMarked
    rw [← codeKind_eq, hm]
    simp [hq, ht]
  unfold addTimingMetadata
  rw [hc]
  simp

example : costQuery sample = .ask (.arith 13 ⟨0, false⟩ .any .any) := rfl

/-! ## Costs of blocks -/

theorem total_append (k : Str) (s t : List Stmt) : total k (s ++ t) = total k s + total k t := by
  simp [total, said_append, List.sum_append]

theorem total_all {o : Bool} {ks : List Str} {is : List Inst} {ss : List Stmt} (h : annotateAll o ks is = some ss) (k : Str) (c : Inst → Int)
    (hc : ∀ i ∈ is, ∀ s, annotate o ks i = some s → total k s = c i) : total k ss = (is.map c).sum := by
  induction is generalizing ss with
  | nil => cases h; rfl
  | cons i is ih =>
    simp only [annotateAll, Option.bind_eq_bind, Option.bind_eq_some_iff] at h
    obtain ⟨s, hs, ss', hss, h⟩ := h
    cases h
    rw [total_append, hc i (by simp) s hs, ih hss fun i hi => hc i (List.mem_cons_of_mem _ hi)]
    rfl

/-- The numbers said about `k` in a block add up to those of its instructions, if it is not the entry of the function. -/
theorem c98_block_partial (o : Bool) (ks : List Str) (is : List Inst) (ss : List Stmt) (h : blockAnnotations o ks false is = some ss) (k : Str)
    (c : Inst → Int) (hc : ∀ i ∈ is, ∀ s, annotate o ks i = some s → total k s = c i) : total k ss = (is.map c).sum := by
  simp only [blockAnnotations, Bool.false_eq_true, if_false, Option.bind_eq_bind, Option.bind_some, Option.bind_eq_some_iff] at h
  obtain ⟨t, ht, h⟩ := h
  cases h
  exact total_all ht k c hc

/-- In the entry block the first instruction with a location counts twice. -/
theorem c98_entry_fails (o : Bool) (ks : List Str) (is js : List Inst) (j : Inst) (ss : List Stmt) (k : Str) (c : Inst → Int)
    (hi : ∀ i ∈ is, i.loc = none) (hj : j.loc.isSome) (hjd : j.dbg = false)
    (h : blockAnnotations o ks true (is ++ j :: js) = some ss)
    (hc : ∀ i ∈ is ++ j :: js, ∀ s, annotate o ks i = some s → total k s = c i) :
    total k ss = ((is ++ j :: js).map c).sum + c j ∧ (c j ≠ 0 → total k ss ≠ ((is ++ j :: js).map c).sum) := by
  suffices total k ss = ((is ++ j :: js).map c).sum + c j from ⟨this, fun h => by omega⟩
  have hf : (is ++ j :: js).find? (fun i => !i.dbg && i.loc.isSome) = some j := by
    rw [List.find?_append, List.find?_eq_none.mpr (fun i hm => by simp [hi i hm])]
    simp [hj, hjd]
  simp only [blockAnnotations, if_true, hf, Option.bind_eq_bind, Option.bind_eq_some_iff] at h
  obtain ⟨s, hs, t, ht, h⟩ := h
  cases h
  rw [total_append, total_all ht k c hc, hc j (by simp) s hs, Int.add_comm]

/-- An entry block with one instruction of cost 2. -/
example : ∃ ss, blockAnnotations true [costKind] true [{ sample with md := fun k => if k = costKind then some [.int 2] else none }] = some ss ∧ total costKind ss = 4 :=
  ⟨_, rfl, by decide⟩

end Smack.Annot
