/-
C85: the witness of the competition mode is a path from the entry to the violation with the inputs of the program.
C86: the steps of an error trace are those that the verifier reports, in order.
C87: the replay of an error trace gives the program the values of the trace.
-/
import Verif.Witness.Total
import Verif.Witness.Replay

namespace Smack.Witness

open Smack.Driver Smack.Witness.Spec

variable {fp : List Char → Option (Nat × List Char)}

/-! ## C85 -/

/-- The graph is a path: the nodes are `A0`, `A1`, …, and the edges lead from each node to the next. -/
theorem c85_path (hfp : FpOk fp) {hasBug pthread : Bool} {rs : List Raw} {w : St} (h : witness fp hasBug pthread rs = some w) :
    w.nodes = List.range (w.edges.length + 1) ∧ ∀ (n : Nat) e, w.edges[n]? = some e → e.source = n ∧ e.target = n + 1 := by
  have hp : Path w := by
    unfold witness at h
    split at h
    · exact path_walk (fun t ht => traces_word hfp ht) path_start h
    · injection h with h; exact h ▸ path_start
  exact ⟨hp.nodes, hp.edges⟩

/-- Contrary to what a violation witness must have, the graph never has a violation node: the steps at which the assertion fails are
left out of the list of steps (errtrace.py:152-155), while toSVCOMPformat.py:164 looks for such a step in that list. -/
theorem c85_violation_fails (hfp : FpOk fp) {hasBug pthread : Bool} {rs : List Raw} {w : St} (h : witness fp hasBug pthread rs = some w) :
    w.violation = [] := by
  unfold witness at h
  split at h
  · exact (path_walk (fun t ht => traces_word hfp ht) path_start h).violation
  · injection h with h; rw [← h]; rfl

/-- Otherwise the graph is as it should be. There is one if and only if in the files of the program, calls and returns match, and every
input is given to a function that is active. It then has the edge of one input after the other. (Names that contain `CALL`, `Done`,
`ASSERTION`, blanks, commas or `=` are left out; so is the violation node that is missing.) -/
theorem c85_witness_partial {ls : List Ln} (hwf : ∀ l ∈ ls, l.Wf) (w : St) :
    witness fp true false (ls.map Ln.raw) = some w ↔
      ∃ es s is, UserEvs ls es ∧ Walks ["main".toList] es s is ∧ w = ⟨List.range (is.length + 1), [], pathEdges 0 is, is.length, s⟩ := by
  show walk _ _ start = some w ↔ _
  rw [walk_lines hwf]
  constructor
  · rintro ⟨es, s, is, h1, h2, h3⟩
    exact ⟨es, s, is, h1, h2, by rw [h3, result_start]⟩
  · rintro ⟨es, s, is, h1, h2, h3⟩
    exact ⟨es, s, is, h1, h2, by rw [h3, result_start]⟩

/-- For programs with threads, the graph has only the entry node, whatever the trace is (so it does for programs that are verified, as it
should). -/
theorem c85_pthread_fails {hasBug pthread : Bool} (h : hasBug = false ∨ pthread = true) (rs : List Raw) :
    witness fp hasBug pthread rs = some ⟨[0], [], [], 0, ["main".toList]⟩ := by
  rcases h with rfl | rfl
  · cases pthread <;> rfl
  · cases hasBug <;> rfl

/-- No witness is written for a trace that returns from a function of the program whose name contains `CALL`: the return is taken for a
call as well (toSVCOMPformat.py:198-204), and the check of the call stack raises an exception. -/
theorem c85_call_name_fails (hfp : FpOk fp) {rs : List Raw} {r : Raw} {f : List Char} (hr : r ∈ rs) (hd : r.description = (Ev.ret f).text)
    (hu : ¬ OfLibrary r.file) (hc : Occurs "CALL".toList f) (hb : ∀ c ∈ f, ¬ Blank c) (hcomma : ',' ∉ f) (heq : '=' ∉ f)
    (hdone : ¬ Occurs "Done".toList f) (hass : ¬ Occurs "ASSERTION".toList f) (hi : ¬ Ignored f) : witness fp true false rs = none := by
  have hws : ∀ c ∈ f, isWs c = false := fun c hc => blank_ws (hb c hc)
  have hne : f ≠ [] := by
    rintro rfl
    exact not_occurs_of_char 'C' (by decide) (by simp) hc
  have ht : Tight f := tight_of hne hws
  have hsp : ' ' ∉ f := fun hm => hb ' ' hm (by unfold Blank; decide)
  have ho : ¬ Own f := fun h => hi (.inl h)
  have hT : Tight ("RETURN from ".toList ++ f) := prefix_tight 'R' _ rfl (by decide) ht
  have hstep : (⟨r.thread, r.file, r.line, r.column, "RETURN from ".toList ++ f, []⟩ : Step) ∈ traces fp rs := by
    unfold traces
    refine List.mem_flatMap.2 ⟨r, hr, ?_⟩
    have hrem : hasSub remark r.description = false := by
      refine hasSub_false fun h => ?_
      rw [hd, show (Ev.ret f).text = "RETURN from".toList ++ ' ' :: (f ++ ' ' :: []) from rfl] at h
      have h' : Occurs word _ := occurs_trans ⟨[], " FAILS".toList, by decide⟩ h
      rcases occurs_sep (by decide) h' with h1 | h1
      · exact absurd h1 (not_occurs_of_char 'S' (by decide) (by decide))
      · rcases occurs_sep (by decide) h1 with h1 | h1
        · exact hass h1
        · exact absurd h1 (not_occurs_of_char 'S' (by decide) (by simp))
    have hcm : ',' ∉ r.description := by
      rw [hd]
      intro hm
      rcases List.mem_append.1 hm with hm | hm
      · rcases List.mem_append.1 hm with hm | hm
        · exact absurd hm (by decide)
        · exact hcomma hm
      · exact absurd hm (by decide)
    unfold entries
    simp only [hrem, Bool.false_eq_true, if_false]
    rw [splitOn_none hcm, hd, show (Ev.ret f).text = ("RETURN from ".toList ++ f) ++ [' '] from rfl, List.map_singleton, strip_snoc hT (by decide)]
    have hsk : skipped ("RETURN from ".toList ++ f) = false := by
      rw [skipped_ret' ht hdone hass (internal_nows f hws)]; exact decide_eq_false ho
    have heq' : '=' ∉ "RETURN from ".toList ++ f := fun hm => by
      rcases List.mem_append.1 hm with hm | hm
      · exact absurd hm (by decide)
      · exact heq hm
    rw [List.filterMap_cons, hsk, transform_none heq', List.filterMap_nil]
    simp only [Bool.false_eq_true, if_false]
    rw [if_neg (by simpa using heq')]
    exact List.mem_singleton.2 rfl
  show walk _ _ _ = none
  exact walk_bad hu (fun st => addCall_bad hc ht (fun h => hi (.inr h))) (fun t ht => traces_word hfp ht) hstep

/-! ## C86 -/

/-- The steps are those that the verifier reports, in order, with their positions and threads, values as C constants, and without
the calls of SMACK's own procedures. -/
theorem c86_steps_partial {ls : List Ln} (hwf : ∀ l ∈ ls, l.Wf) :
    traces fp (ls.map Ln.raw) = ls.flatMap fun l => l.evs.filterMap (evStep l) := by
  induction ls with
  | nil => rfl
  | cons l ls ih =>
    have ih := ih fun l hl => hwf l (List.mem_cons_of_mem _ hl)
    unfold traces at *
    rw [List.map_cons, List.flatMap_cons, List.flatMap_cons, entries_line (hwf l List.mem_cons_self), ih]

/-- The position of the failure is that of the last step at which an assertion fails. -/
theorem c86_failsAt {ls : List Ln} (hwf : ∀ l ∈ ls, l.Wf) :
    ((∀ l ∈ ls, l.fails = none) → failsAt (ls.map Ln.raw) = none) ∧
    ∀ a l b, ls = a ++ l :: b → l.fails ≠ none → (∀ m ∈ b, m.fails = none) → failsAt (ls.map Ln.raw) = some (l.file, l.line, l.column) := by
  have hsub : ∀ l : Ln, l.Wf → hasSub remark l.raw.description = l.fails.isSome := by
    intro l hl
    unfold Ln.raw
    cases hf : l.fails with
    | none =>
      simp only [List.nil_append, Option.isSome_none]
      exact hasSub_false fun ho => word_commas hl.evs (occurs_trans ⟨[], " FAILS".toList, by decide⟩ ho)
    | some x =>
      exact (hasSub_iff _ _).2 ⟨[], x ++ [';', '\n'] ++ commas (l.evs.map Ev.text), by simp only [List.nil_append, List.append_assoc]; rfl⟩
  have hnone : ∀ (b : List Ln) acc, (∀ m ∈ b, m.Wf) → (∀ m ∈ b, m.fails = none) →
      (b.map Ln.raw).foldl (fun acc r => if hasSub remark r.description then some (r.file, r.line, r.column) else acc) acc = acc := by
    intro b
    induction b with
    | nil => intro acc _ _; rfl
    | cons m b ih =>
      intro acc hw hn
      rw [List.map_cons, List.foldl_cons, hsub m (hw m List.mem_cons_self), hn m List.mem_cons_self]
      exact ih acc (fun m hm => hw m (List.mem_cons_of_mem _ hm)) fun m hm => hn m (List.mem_cons_of_mem _ hm)
  refine ⟨hnone ls none hwf, ?_⟩
  rintro a l b rfl hl hb
  have hlw : l.Wf := hwf l (by simp)
  unfold failsAt
  rw [List.map_append, List.map_cons, List.foldl_append, List.foldl_cons, hsub l hlw, Option.isSome_iff_ne_none.2 hl]
  exact hnone b _ (fun m hm => hwf m (by simp [hm])) hb

/-- Values of anything whose name contains `Done` are left out. -/
theorem c86_done_fails {l : Ln} {x : List Char} {v : Value} (hl : l.fails = none) (he : l.evs = [.value x v]) (hv : v.Wf)
    (hx : Occurs "Done".toList x) (hc : ',' ∉ x) (ha : ¬ Occurs "ASSERTION".toList x) : entries fp l.raw = [] ∧ (l.evs.filterMap (evStep l)).length = 1 := by
  refine ⟨?_, by rw [he]; rfl⟩
  have hd : l.raw.description = x ++ " = ".toList ++ v.text := by
    unfold Ln.raw
    rw [hl, he]
    rfl
  have hrem : hasSub remark (x ++ " = ".toList ++ v.text) = false := hasSub_false fun ho => by
    rcases occurs_eq (by decide) (by decide) (by decide) (occurs_trans (p := word) ⟨[], " FAILS".toList, by decide⟩ ho) with h1 | h1
    · exact ha h1
    · exact not_occurs_of_char 'S' (by decide) (not_mem_text hv (by decide)) h1
  have hcm : ',' ∉ x ++ " = ".toList ++ v.text := fun hm => by
    rcases List.mem_append.1 hm with hm | hm
    · rcases List.mem_append.1 hm with hm | hm
      · exact hc hm
      · exact absurd hm (by decide)
    · exact not_mem_text hv (by decide) hm
  have hdone : Occurs "Done".toList (strip (x ++ " = ".toList ++ v.text)) := by
    obtain ⟨a, b, rfl⟩ := hx
    obtain ⟨_, s, c, hs, hcw⟩ := value_tight hv
    -- only the blanks at the start can be removed
    have e : (a ++ "Done".toList ++ b) ++ " = ".toList ++ v.text = a ++ ("Done".toList ++ b ++ " = ".toList ++ s ++ [c]) := by rw [hs]; simp
    rw [e]
    unfold strip
    have h1 : ∃ a', (a ++ ("Done".toList ++ b ++ " = ".toList ++ s ++ [c])).dropWhile isWs = a' ++ ("Done".toList ++ b ++ " = ".toList ++ s ++ [c]) := by
      clear e hrem hcm hd he ha hc
      induction a with
      | nil => exact ⟨[], dropWhile_id (by decide)⟩
      | cons d a ih =>
        rw [List.cons_append, List.dropWhile_cons]
        split
        · exact ih
        · exact ⟨d :: a, rfl⟩
    obtain ⟨a', h1⟩ := h1
    have h2 : (a' ++ ("Done".toList ++ b ++ " = ".toList ++ s ++ [c])).reverse = c :: (a' ++ ("Done".toList ++ b ++ " = ".toList ++ s)).reverse := by
      rw [← List.append_assoc, List.reverse_append]; rfl
    rw [h1, h2, dropWhile_id hcw, List.reverse_cons, List.reverse_reverse]
    exact ⟨a', b ++ " = ".toList ++ s ++ [c], by simp⟩
  have hsk : skipped (strip (x ++ " = ".toList ++ v.text)) = true := by
    unfold skipped
    rw [(hasSub_iff _ _).2 hdone]
    simp
  unfold entries
  rw [hd]
  simp only [hrem, Bool.false_eq_true, if_false]
  rw [splitOn_none hcm, List.map_singleton, List.filterMap_cons, hsk]
  rfl

/-! ## C87 -/

/-- The values are read as they are recorded. Every external function returns the values of its calls in the trace, in order;
the entry point is called with the parameters of its last call. (Each line has at most one record.) -/
theorem c87_values_partial {ls : List TLine} (hwf : ∀ l ∈ ls, l.Wf) (he : Entered (ls.filterMap TLine.rec?)) :
    ∃ st, extractValues (ls.map TLine.text) = some st ∧
      (∀ f, stub st f = if results f (ls.filterMap TLine.rec?) = [] then none else some (results f (ls.filterMap TLine.rec?))) ∧
      ∀ f vs, st.arguments.lookup f = some vs ↔ LastArgs f (ls.filterMap TLine.rec?) vs := by
  obtain ⟨st, h1, h2⟩ := holds_fold ls [] ⟨[], []⟩ holds_nil hwf he
  exact ⟨st, h1, h2.returns, h2.arguments⟩

/-- Without the entry, there is no replay: the first recorded parameter raises an exception. -/
theorem c87_no_entry {ls : List TLine} {pre f x v post : List Char} (hwf : ∀ l ∈ ls, l.Wf) (he : Entered (ls.filterMap TLine.rec?))
    (hl : (TLine.record pre (.arg f x v) post).Wf) (hn : ∀ w, Rec.entry f w ∉ ls.filterMap TLine.rec?) (more : List (List Char)) :
    extractValues (ls.map TLine.text ++ (TLine.record pre (.arg f x v) post).text :: more) = none := by
  obtain ⟨st, h1, h2⟩ := holds_fold ls [] ⟨[], []⟩ holds_nil hwf he
  rw [List.nil_append] at h2
  unfold extractValues
  rw [List.filterMap_append, List.filterMap_cons, extract_wf hl, List.foldlM_append, h1]
  simp only [TLine.rec?, Option.map_some, List.foldlM_cons, Option.bind_eq_bind, Option.bind_some]
  have hlook : st.arguments.lookup f = none := by
    cases hx : st.arguments.lookup f with
    | none => rfl
    | some vs =>
      obtain ⟨a, w, b, hr, _⟩ := (h2.arguments f vs).1 hx
      exact absurd (by rw [hr]; simp) (hn w)
  have ha : addValue st (Rec.arg f x v).key (Rec.arg f x v).value = none := by
    show addValue st (Rec.arg f x v).key v = none
    rw [addValue_arg st (hl.2.2.2 f (by simp [Rec.names])).1 (hl.2.2.2 x (by simp [Rec.names])).1, hlook]
  rw [ha]
  rfl

/-- Where a line reports another value after a recorded one, the recorded value is lost: it becomes part of the name, and the function
gets no value. -/
theorem c87_two_fails {pre f v x w post : List Char} (hf : ':' ∉ f ∧ '(' ∉ f) (hv : ':' ∉ v ∧ '(' ∉ v) (hx : ':' ∉ x ∧ '(' ∉ x) (hw : '=' ∉ w ∧ '(' ∉ w) (hp : ')' ∉ post) :
    extractValues [pre ++ "(smack:ext:".toList ++ f ++ " = ".toList ++ v ++ ", ".toList ++ x ++ " = ".toList ++ w ++ ")".toList ++ post] =
      some ⟨[], [(f ++ " = ".toList ++ v ++ ", ".toList ++ x, [w])]⟩ := by
  have hwf : (TLine.record pre (.ext (f ++ " = ".toList ++ v ++ ", ".toList ++ x) w) post).Wf := by
    refine ⟨hp, hw.2, hw.1, fun n hn => ?_⟩
    rw [List.mem_singleton.1 hn]
    have key : ∀ c : Char, c ∉ f → c ∉ v → c ∉ x → c ∉ " = ".toList → c ∉ ", ".toList → c ∉ f ++ " = ".toList ++ v ++ ", ".toList ++ x := by
      intro c h1 h2 h3 h4 h5 hm
      rcases List.mem_append.1 hm with hm | hm
      · rcases List.mem_append.1 hm with hm | hm
        · rcases List.mem_append.1 hm with hm | hm
          · rcases List.mem_append.1 hm with hm | hm
            · exact h1 hm
            · exact h4 hm
          · exact h2 hm
        · exact h5 hm
      · exact h3 hm
    exact ⟨key _ hf.1 hv.1 hx.1 (by decide) (by decide), key _ hf.2 hv.2 hx.2 (by decide) (by decide)⟩
  have ht : pre ++ "(smack:ext:".toList ++ f ++ " = ".toList ++ v ++ ", ".toList ++ x ++ " = ".toList ++ w ++ ")".toList ++ post =
      (TLine.record pre (.ext (f ++ " = ".toList ++ v ++ ", ".toList ++ x) w) post).text := by
    show _ = pre ++ "(".toList ++ ("smack:ext:".toList ++ (f ++ " = ".toList ++ v ++ ", ".toList ++ x)) ++ " = ".toList ++ w ++ ")".toList ++ post
    simp only [List.append_assoc]
    rfl
  rw [ht]
  unfold extractValues
  rw [List.filterMap_cons, extract_wf hwf]
  have := addValue_ext ⟨[], []⟩ (f := f ++ " = ".toList ++ v ++ ", ".toList ++ x) (v := w) (hwf.2.2.2 _ (by simp [Rec.names])).1
  simp only [TLine.rec?, Option.map_some, List.filterMap_nil, List.foldlM_cons, List.foldlM_nil, Rec.value, this]
  rfl

/-- Bit-vector values are copied to the C program as they are, although they are not C constants. -/
theorem c87_bv_fails {pre f d w post : List Char} (hf : ':' ∉ f ∧ '(' ∉ f) (hd : Numeral d ∧ Numeral w) (hp : ')' ∉ post) :
    ∃ st, extractValues [pre ++ "(smack:ext:".toList ++ f ++ " = ".toList ++ (Value.bv d w).text ++ ")".toList ++ post] = some st ∧
      stub st f = some [d ++ "bv".toList ++ w] ∧ ∀ n e, Numeral e → d ++ "bv".toList ++ w ≠ (Value.int n e).c := by
  have hnum : ∀ {c : Char}, isDig c = false → c ∉ (Value.bv d w).text ∨ c = 'b' ∨ c = 'v' := by
    intro c hc
    by_cases h1 : c = 'b'
    · exact .inr (.inl h1)
    by_cases h2 : c = 'v'
    · exact .inr (.inr h2)
    left
    intro hm
    simp only [Value.text, List.mem_append, List.mem_cons, List.not_mem_nil, or_false] at hm
    rcases hm with (hm | hm | hm) | hm
    · rw [hd.1.2 c hm] at hc; cases hc
    · exact h1 hm
    · exact h2 hm
    · rw [hd.2.2 c hm] at hc; cases hc
  have hwf : (TLine.record pre (.ext f (Value.bv d w).text) post).Wf := by
    refine ⟨hp, (hnum (c := '(') (by decide)).resolve_right (by decide), (hnum (c := '=') (by decide)).resolve_right (by decide), fun n hn => ?_⟩
    rw [List.mem_singleton.1 hn]
    exact hf
  obtain ⟨st, h1, h2, _⟩ := c87_values_partial (ls := [.record pre (.ext f (Value.bv d w).text) post]) (by simpa using hwf) (by
    rintro a g x v b h
    have hm : Rec.arg g x v ∈ [Rec.ext f (Value.bv d w).text] := by
      rw [show [Rec.ext f (Value.bv d w).text] = a ++ Rec.arg g x v :: b from h]; simp
    simp at hm)
  have ht : pre ++ "(smack:ext:".toList ++ f ++ " = ".toList ++ (Value.bv d w).text ++ ")".toList ++ post =
      (TLine.record pre (.ext f (Value.bv d w).text) post).text := by
    show _ = pre ++ "(".toList ++ ("smack:ext:".toList ++ f) ++ " = ".toList ++ (Value.bv d w).text ++ ")".toList ++ post
    simp only [List.append_assoc]
    rfl
  refine ⟨st, by rw [ht]; exact h1, ?_, ?_⟩
  · rw [h2 f]
    simp [results, TLine.rec?, Value.text]
  · intro n e hn he
    have hb : 'b' ∈ (Value.int n e).c := by rw [← he]; simp
    unfold Value.c at hb
    rcases List.mem_append.1 hb with hb | hb
    · cases n <;> simp at hb
    · exact absurd (hn.2 _ hb) (by decide)

/-- Values of type `int` are returned as they are. -/
theorem c87_int (v : Int) (h : -2147483648 ≤ v ∧ v < 2147483648) : stubValue v = v := by
  unfold stubValue
  rw [BitVec.toInt_ofInt]
  exact Int.bmod_eq_of_le (by omega) (by omega)

/-- Values of wider types are changed. -/
theorem c87_wide_fails (v : Int) (h : v < -2147483648 ∨ 2147483648 ≤ v) : stubValue v ≠ v := by
  intro he
  unfold stubValue at he
  have h1 := BitVec.toInt_lt (x := BitVec.ofInt 32 v)
  have h2 := BitVec.le_toInt (x := BitVec.ofInt 32 v)
  rw [he] at h1 h2
  simp only [Nat.reduceSub] at h1 h2
  omega

/-! ## Examples -/

/-- A trace: `main` calls `f`, which gets the input 5; then the assertion fails in the library. -/
def trace : List Ln :=
  [⟨"a.c".toList, 7, 3, 1, none, [.call "f".toList]⟩,
   ⟨"a.c".toList, 3, 11, 1, none, [.call "$alloc".toList, .value "smack:ext:__VERIFIER_nondet_int".toList (.int false "5".toList), .value "x".toList (.bv "7".toList "32".toList)]⟩,
   ⟨"/usr/share/smack/lib/smack.c".toList, 46, 3, 1, some "".toList, [.done]⟩,
   ⟨"a.c".toList, 4, 1, 1, none, [.ret "f".toList, .done]⟩]

def noFp : List Char → Option (Nat × List Char) := fun _ => none

theorem noFp_ok : FpOk noFp := fun _ _ _ h => by cases h

theorem name_of {x : List Char} (h : x ≠ [] ∧ x.all (fun c => !isWs c) = true ∧ ',' ∉ x ∧ '=' ∉ x ∧ hasSub "CALL".toList x = false ∧
    hasSub "Done".toList x = false ∧ hasSub "ASSERTION".toList x = false) : Name x := by
  obtain ⟨h1, h2, h3, h4, h5, h6, h7⟩ := h
  refine ⟨h1, fun c hc => ?_, h3, h4, fun ho => ?_, fun ho => ?_, fun ho => ?_⟩
  · rw [← isWs_iff]
    have := List.all_eq_true.1 h2 c hc
    simpa using this
  · rw [(hasSub_iff _ _).2 ho] at h5; cases h5
  · rw [(hasSub_iff _ _).2 ho] at h6; cases h6
  · rw [(hasSub_iff _ _).2 ho] at h7; cases h7

theorem trace_wf : ∀ l ∈ trace, l.Wf := by
  intro l hl
  simp only [trace, List.mem_cons, List.not_mem_nil, or_false] at hl
  rcases hl with rfl | rfl | rfl | rfl
  · refine ⟨by decide, fun e he => ?_, (by rintro x ⟨⟩)⟩
    simp only [List.mem_cons, List.not_mem_nil, or_false] at he
    subst he
    exact name_of (by decide)
  · refine ⟨by decide, fun e he => ?_, (by rintro x ⟨⟩)⟩
    simp only [List.mem_cons, List.not_mem_nil, or_false] at he
    rcases he with rfl | rfl | rfl
    · exact name_of (by decide)
    · exact ⟨name_of (by decide), by unfold Value.Wf Numeral; decide⟩
    · exact ⟨name_of (by decide), by unfold Value.Wf Numeral; decide⟩
  · refine ⟨by decide, fun e he => ?_, ?_⟩
    · simp only [List.mem_cons, List.not_mem_nil, or_false] at he
      subst he
      trivial
    · rintro x ⟨⟩; decide
  · refine ⟨by decide, fun e he => ?_, (by rintro x ⟨⟩)⟩
    simp only [List.mem_cons, List.not_mem_nil, or_false] at he
    rcases he with rfl | rfl
    · exact name_of (by decide)
    · trivial

/-- The witness for it: one edge, and no violation node. -/
example : witness noFp true false (trace.map Ln.raw) = some ⟨[0, 1], [], [⟨0, 1, 3, some ⟨"\\result == 5;".toList, "__VERIFIER_nondet_int".toList, "f".toList⟩⟩], 1,
    ["main".toList]⟩ := by decide +kernel

/-- Its steps and the position of the failure. -/
example : (traces noFp (trace.map Ln.raw)).map Step.description =
    ["CALL f".toList, "smack:ext:__VERIFIER_nondet_int = 5".toList, "x = 7UL".toList, "RETURN from f".toList] ∧
    failsAt (trace.map Ln.raw) = some ("/usr/share/smack/lib/smack.c".toList, 46, 3) := by decide +kernel

example : traces noFp (trace.map Ln.raw) = trace.flatMap fun l => l.evs.filterMap (evStep l) := c86_steps_partial trace_wf

/-- With a function named `CALLBACK` there is none. -/
example : witness noFp true false [⟨"a.c".toList, 7, 3, 1, "CALL CALLBACK".toList⟩, ⟨"a.c".toList, 9, 3, 1, "RETURN from CALLBACK ".toList⟩] = none :=
  c85_call_name_fails noFp_ok (r := ⟨"a.c".toList, 9, 3, 1, "RETURN from CALLBACK ".toList⟩) (f := "CALLBACK".toList) (by simp) rfl
    (by rw [← library_iff]; decide) ((hasSub_iff _ _).1 (by decide)) (by unfold Blank; decide) (by decide) (by decide)
    (by rw [← hasSub_iff]; decide) (by rw [← hasSub_iff]; decide) (by unfold Ignored; decide)

/-- A variable named `nDone`. -/
example : entries noFp (⟨"a.c".toList, 7, 3, 1, none, [.value "nDone".toList (.int false "1".toList)]⟩ : Ln).raw = [] :=
  (c86_done_fails rfl rfl (by unfold Value.Wf Numeral; decide) ((hasSub_iff _ _).1 (by decide)) (by decide) (by rw [← hasSub_iff]; decide)).1

/-- Values for the replay. -/
example : extractValues ["a.c(3,1): Trace: Thread=1  (smack:entry:main = -1024)".toList, "a.c(3,1): Trace: Thread=1  (smack:arg:main:argc = 2)".toList,
    "a.c(4,1): Trace: Thread=1  (smack:ext:nd = 5)".toList, "Total Time: 1 s".toList, "a.c(5,1): Trace: Thread=1  (smack:ext:nd = -3)".toList] =
    some ⟨[("main".toList, ["2".toList])], [("nd".toList, ["5".toList, "-3".toList])]⟩ := by decide +kernel

example : (TLine.record "a.c(4,1): Trace: Thread=1  ".toList (.ext "nd".toList "5".toList) []).Wf ∧
    Entered ([TLine.record [] (.entry "main".toList "1".toList) [], .record [] (.arg "main".toList "argc".toList "2".toList) []].filterMap TLine.rec?) := by
  refine ⟨⟨by decide, by decide, by decide, fun n hn => ?_⟩, ?_⟩
  · rw [List.mem_singleton.1 hn]; decide
  · intro a f x v b h
    have h' : [Rec.entry "main".toList "1".toList, Rec.arg "main".toList "argc".toList "2".toList] = a ++ Rec.arg f x v :: b := h
    cases a with
    | nil => injection h' with h1 _; cases h1
    | cons r a =>
      rw [List.cons_append] at h'
      injection h' with h1 h2
      cases a with
      | nil =>
        rw [List.nil_append] at h2
        injection h2 with h2 _
        injection h2 with h2 _ _
        exact ⟨"1".toList, by rw [← h1, ← h2]; simp⟩
      | cons r' a =>
        rw [List.cons_append] at h2
        injection h2 with _ h2
        simp at h2

/-- The result of `nd` is lost. -/
example : extractValues ["(smack:ext:nd = 5, x = 7)".toList] = some ⟨[], [("nd = 5, x".toList, ["7".toList])]⟩ :=
  c87_two_fails (pre := []) (f := "nd".toList) (v := "5".toList) (x := "x".toList) (w := "7".toList) (post := []) (by decide) (by decide) (by decide) (by decide) (by decide)

end Smack.Witness
