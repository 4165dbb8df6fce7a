import Verif.OvfPass.Sim

namespace Smack.OvfPass

open Smack.Cfg Smack.Cfg.Spec Smack.OvfPass.Spec Smack.Overflow

variable {M : Type} {P : Params Val M} {tab : Table} {fn : Fn Val} {base : Nat} {o : Opts}

/-! ## One instruction -/

/-- The four facts about one instruction. -/
structure StepSim (P : Params Val M) (tab : Table) (o : Opts) (base : Nat) (fn : Fn Val) (b i : Nat) (ins : Instr Val)
    (ρ ρ' : Env Val) (m : M) : Prop where
  fwd : ∀ v m', (required P tab o.overflow o.checked).sem ins.op (ins.args.map (eval ρ)) m (some (v, m')) →
    ∃ ρ₁', Exec (after P tab) (code tab o base fn ins) ρ' m ρ₁' m' ∧ Inv tab base fn b (i + 1) (setOpt ρ ins.dst v) ρ₁'
  bwd : ∀ ρ₁' m', Exec (after P tab) (code tab o base fn ins) ρ' m ρ₁' m' →
    ∃ v, (required P tab o.overflow o.checked).sem ins.op (ins.args.map (eval ρ)) m (some (v, m')) ∧
      Inv tab base fn b (i + 1) (setOpt ρ ins.dst v) ρ₁'
  failFwd : (required P tab o.overflow o.checked).sem ins.op (ins.args.map (eval ρ)) m none →
    ∃ out', SameOutcome tab o.overflow (.fail ins.op (ins.args.map (eval ρ)) m) out' ∧ ExecFail (after P tab) (code tab o base fn ins) ρ' m out'
  failBwd : ∀ out', ExecFail (after P tab) (code tab o base fn ins) ρ' m out' →
    (required P tab o.overflow o.checked).sem ins.op (ins.args.map (eval ρ)) m none ∧
      SameOutcome tab o.overflow (.fail ins.op (ins.args.map (eval ρ)) m) out'

theorem step_plain (hs : Ssa fn) (hsh : Shape tab base fn) (hu : NoPairUse tab base fn) {b i : Nat} {ρ ρ' : Env Val}
    (h : Inv tab base fn b i ρ ρ') {ins : Instr Val} (hat : At fn b i ins) (m : M)
    (h1 : ∀ op s bits, tab ins.op ≠ .ovf op s bits) (h2 : replacement tab base fn ins = none)
    (h3 : tab ins.op = .ubsan → o.overflow = false) (h4 : expand tab o base fn ins = [⟨ins.dst, 16 * ins.op, ins.args⟩]) :
    StepSim P tab o base fn b i ins ρ ρ' m := by
  have hargs := args_eq hs hsh hu h hat h2
  have hcode : code tab o base fn ins = [⟨ins.dst, 16 * ins.op, ins.args.map (substOpd tab base fn)⟩] := by
    simp only [code, h4, List.map_cons, List.map_nil, substInstr]
  have hsem : ∀ r, (after P tab).sem (16 * ins.op) ((ins.args.map (substOpd tab base fn)).map (eval ρ')) m r ↔
      (required P tab o.overflow o.checked).sem ins.op (ins.args.map (eval ρ)) m r := by
    intro r
    rw [hargs, old_sem, required_plain h1 h3]
  refine ⟨?_, ?_, ?_, ?_⟩
  · intro v m' hv
    refine ⟨setOpt ρ' ins.dst v, ?_, h.plain hs hsh hat h1 h2 v⟩
    rw [hcode, exec_one]
    exact ⟨v, (hsem _).2 hv, rfl⟩
  · intro ρ₁' m' he
    rw [hcode, exec_one] at he
    obtain ⟨v, hv, rfl⟩ := he
    exact ⟨v, (hsem _).1 hv, h.plain hs hsh hat h1 h2 v⟩
  · intro hf
    refine ⟨.fail (16 * ins.op) (ins.args.map (eval ρ)) m, .fail _ _ _ h1 h3, ?_⟩
    rw [hcode, fail_one]
    refine ⟨(hsem _).2 hf, ?_⟩
    show _ = Outcome.fail _ ((ins.args.map (substOpd tab base fn)).map (eval ρ')) m
    rw [hargs]
  · intro out' hf
    rw [hcode, fail_one] at hf
    obtain ⟨hf, rfl⟩ := hf
    refine ⟨(hsem _).1 hf, ?_⟩
    show SameOutcome tab o.overflow _ (Outcome.fail _ ((ins.args.map (substOpd tab base fn)).map (eval ρ')) m)
    rw [hargs]
    exact .fail _ _ _ h1 h3

theorem step_removed (hs : Ssa fn) {b i : Nat} {ρ ρ' : Env Val}
    (h : Inv tab base fn b i ρ ρ') {ins : Instr Val} (hat : At fn b i ins) (m : M) {e y : Var} (he : ins.dst = some e)
    (hr : replacement tab base fn ins = some y) (h4 : expand tab o base fn ins = []) :
    StepSim P tab o base fn b i ins ρ ρ' m := by
  have hcode : code tab o base fn ins = [] := by simp only [code, h4, List.map_nil]
  obtain ⟨d, hargs, ho, hy⟩ := replacement_some hr
  have hav : Avail fn b i d := by
    obtain ⟨blk, hb, hi⟩ := hat
    exact hs.body b blk i ins hb hi (.var d) (by rw [hargs]; exact List.mem_singleton.2 rfl)
  obtain ⟨w, v, f, hd, h3, h6⟩ := h.pair hs hav ho
  have hev : ins.args.map (eval ρ) = [.pair w v f] := by rw [hargs]; simp only [List.map_cons, List.map_nil, eval, hd]
  have hsem : ∀ r, (required P tab o.overflow o.checked).sem ins.op (ins.args.map (eval ρ)) m r ↔ r = some (ρ' y, m) := by
    intro r
    rw [hev]
    rcases hy with ⟨ht, rfl⟩ | ⟨ht, rfl⟩
    · simp only [required, ht, llvm, component, h3]
    · simp only [required, ht, llvm, component, h6]
  refine ⟨?_, ?_, ?_, ?_⟩
  · intro v' m' hv
    have := (hsem _).1 hv
    simp only [Option.some.injEq, Prod.mk.injEq] at this
    obtain ⟨rfl, rfl⟩ := this
    exact ⟨ρ', by rw [hcode]; exact .nil _ _, h.removed hs hat he hr rfl⟩
  · intro ρ₁' m' hx
    rw [hcode] at hx
    cases hx
    exact ⟨ρ' y, (hsem _).2 rfl, h.removed hs hat he hr rfl⟩
  · intro hf
    exact absurd ((hsem _).1 hf) (by simp)
  · intro out' hf
    rw [hcode] at hf
    cases hf

theorem step_ubsan (hsh : Shape tab base fn) {b i : Nat} {ρ ρ' : Env Val} {ins : Instr Val} (m : M) {d : Var}
    (ht : tab ins.op = .ubsan) (hov : o.overflow = true) (h4 : expand tab o base fn ins = expandUbsan o base ins.op d) :
    StepSim P tab o base fn b i ins ρ ρ' m := by
  have hcode : code tab o base fn ins = expandUbsan o base ins.op d := by simp only [code, h4, code_ubsan hsh]
  have hsem : ∀ r, (required P tab o.overflow o.checked).sem ins.op (ins.args.map (eval ρ)) m r ↔ o.checked = true ∧ r = none := by
    intro r
    simp only [required, ht, hov, if_true]
  refine ⟨?_, ?_, ?_, ?_⟩
  · intro v m' hv
    exact absurd ((hsem _).1 hv).2 (by simp)
  · intro ρ₁' m' hx
    rw [hcode] at hx
    exact absurd hx (ubsan_exec ht)
  · intro hf
    refine ⟨_, .check _ _ _ hov (.inr ht), ?_⟩
    rw [hcode, ubsan_fail ht]
    exact ⟨((hsem _).1 hf).1, rfl⟩
  · intro out' hf
    rw [hcode, ubsan_fail ht] at hf
    obtain ⟨hc, rfl⟩ := hf
    exact ⟨(hsem _).2 ⟨hc, rfl⟩, .check _ _ _ hov (.inr ht)⟩

theorem step_ovf (hs : Ssa fn) (hsh : Shape tab base fn) (hu : NoPairUse tab base fn) {b i : Nat} {ρ ρ' : Env Val}
    (h : Inv tab base fn b i ρ ρ') (hreach : Reach fn b) {ins : Instr Val} (hat : At fn b i ins) (m : M)
    {op : Overflow.Op} {s : Bool} {bits : Nat} {d : Var} {X Y : Opd Val} (ht : tab ins.op = .ovf op s bits) (hbits : 1 ≤ bits)
    (hd : ins.dst = some d) (hargs : ins.args = [X, Y]) (h4 : expand tab o base fn ins = expandOvf o base ins.op d X Y) :
    StepSim P tab o base fn b i ins ρ ρ' m := by
  have hcode : code tab o base fn ins =
      seven ins.op (newVar base d) (substOpd tab base fn X) (substOpd tab base fn Y) ++
        (if o.overflow && o.checked then addCheck ins.op (newVar base d 7) 7 [.var (newVar base d 6)] else []) := by
    unfold code
    rw [h4]; exact code_ovf hsh ins.op d X Y
  have heq := args_eq hs hsh hu h hat (replacement_not_ovf ht)
  rw [hargs] at heq
  simp only [List.map_cons, List.map_nil, List.cons.injEq, and_true] at heq
  obtain ⟨hX, hY⟩ := heq
  have hYne : substOpd tab base fn Y ≠ .var (newVar base d 0) := by
    obtain ⟨blk, hb, hi⟩ := hat
    exact subst_ne_first (hsh.argLt b blk ins hb (List.mem_of_getElem? hi) Y (by rw [hargs]; simp)) d
  have hdet : ∀ {ρ₁ : Env Val} {m₁ : M} {ρ₂ : Env Val} {m₂ : M},
      Exec (after P tab) (seven ins.op (newVar base d) (substOpd tab base fn X) (substOpd tab base fn Y)) ρ' m ρ₁ m₁ →
      Exec (after P tab) (seven ins.op (newVar base d) (substOpd tab base fn X) (substOpd tab base fn Y)) ρ' m ρ₂ m₂ → ρ₁ = ρ₂ ∧ m₁ = m₂ :=
    fun a b => new_det (fun i hi => (seven_ops i hi).1) a b
  -- the operands have the right width in both, or neither is executed
  have hsem : ∀ r, (required P tab o.overflow o.checked).sem ins.op (ins.args.map (eval ρ)) m r ↔
      ∃ fits v, Intrinsic op s bits (ins.args.map (eval ρ)) fits v ∧ r = if o.overflow && o.checked && !fits then none else some (v, m) := by
    intro r
    simp only [required, ht]
  have hvals : ins.args.map (eval ρ) = [eval ρ X, eval ρ Y] := by rw [hargs]; rfl
  have hint : ∀ fits v, Intrinsic op s bits (ins.args.map (eval ρ)) fits v → ∃ x y : BitVec bits,
      eval ρ X = .word bits x ∧ eval ρ Y = .word bits y ∧ fits = decide (Fits bits s (op.apply (number s x) (number s y))) ∧
      v = .pair bits (BitVec.ofInt bits (op.apply (number s x) (number s y))) (!fits) := by
    rintro fits v ⟨x, y, ha, hf, hv⟩
    rw [hvals] at ha
    simp only [List.cons.injEq, and_true] at ha
    refine ⟨x, y, ha.1, ha.2, ?_, hv⟩
    rw [Bool.eq_iff_iff, hf, decide_eq_true_eq]
  have hint' : ∀ x y : BitVec bits, eval ρ X = .word bits x → eval ρ Y = .word bits y →
      Intrinsic op s bits (ins.args.map (eval ρ)) (decide (Fits bits s (op.apply (number s x) (number s y))))
        (.pair bits (BitVec.ofInt bits (op.apply (number s x) (number s y))) (!decide (Fits bits s (op.apply (number s x) (number s y))))) := by
    intro x y hx hy
    exact ⟨x, y, by rw [hvals, hx, hy], by rw [decide_eq_true_eq], rfl⟩
  have chain : ∀ x y : BitVec bits, eval ρ X = .word bits x → eval ρ Y = .word bits y → _ := fun x y hx hy =>
    seven_fwd (P := P) ht hbits (base := base) (d := d) m (hX.trans hx) (hY.trans hy) hYne
  -- with the check
  have hfin : ∀ (x y : BitVec bits), eval ρ X = .word bits x → eval ρ Y = .word bits y → ∀ ρ₁ : Env Val, ∀ ρ₂ : Env Val,
      (∀ z, (∀ j, j < 8 → z ≠ newVar base d j) → ρ₁ z = ρ' z) →
      ρ₁ (newVar base d 3) = .word bits (BitVec.ofInt bits (op.apply (number s x) (number s y))) →
      ρ₁ (newVar base d 6) = .word 1 (BitVec.ofBool (!decide (Fits bits s (op.apply (number s x) (number s y))))) →
      (ρ₂ = ρ₁ ∨ ∃ v, ρ₂ = setOpt ρ₁ (some (newVar base d 7)) v) →
      Inv tab base fn b (i + 1) (setOpt ρ ins.dst (.pair bits (BitVec.ofInt bits (op.apply (number s x) (number s y)))
        (!decide (Fits bits s (op.apply (number s x) (number s y)))))) ρ₂ := by
    intro x y hx hy ρ₁ ρ₂ hk h3 h6 h2
    rcases h2 with rfl | ⟨v, rfl⟩
    · exact h.ovf hs hreach hat hd ht hk h3 h6
    · refine h.ovf hs hreach hat hd ht ?_ ?_ ?_
      · intro z hz
        rw [set_ne _ (hz 7 (by omega))]
        exact hk z hz
      · rw [set_ne _ (newVar_ne _ _ (by omega))]; exact h3
      · rw [set_ne _ (newVar_ne _ _ (by omega))]; exact h6
  refine ⟨?_, ?_, ?_, ?_⟩
  · intro v m' hv
    obtain ⟨fits, v', hi, hr⟩ := (hsem _).1 hv
    obtain ⟨x, y, hx, hy, rfl, rfl⟩ := hint _ _ hi
    obtain ⟨ρ₁, hex, hk, h3, h6⟩ := chain x y hx hy
    rw [hcode]
    cases hc : (o.overflow && o.checked) with
    | false =>
      simp only [hc, Bool.false_and, Bool.false_eq_true, if_false, Option.some.injEq, Prod.mk.injEq] at hr
      obtain ⟨rfl, rfl⟩ := hr
      simp only [Bool.false_eq_true, if_false, List.append_nil]
      exact ⟨ρ₁, hex, hfin x y hx hy ρ₁ ρ₁ hk h3 h6 (.inl rfl)⟩
    | true =>
      simp only [hc, Bool.true_and] at hr
      split at hr
      · simp at hr
      · rename_i hf
        simp only [Option.some.injEq, Prod.mk.injEq] at hr
        obtain ⟨rfl, rfl⟩ := hr
        simp only [if_true]
        refine ⟨setOpt ρ₁ (some (newVar base d 7)) (.word 32 ((BitVec.ofBool (!decide (Fits bits s (op.apply (number s x) (number s y))))).setWidth 32)),
          exec_append.2 ⟨ρ₁, m', hex, (check_exec ht h6).2 ⟨?_, rfl, rfl⟩⟩, ?_⟩
        · simpa using hf
        · exact hfin x y hx hy ρ₁ _ hk h3 h6 (.inr ⟨_, rfl⟩)
  · intro ρ₁' m' hx
    rw [hcode] at hx
    obtain ⟨ρ₁, m₁, h7, hrest⟩ := exec_append.1 hx
    obtain ⟨x, y, ex, ey⟩ := seven_bwd ht hYne h7
    rw [hX] at ex
    rw [hY] at ey
    obtain ⟨ρ₂, hex, hk, h3, h6⟩ := chain x y ex ey
    obtain ⟨rfl, rfl⟩ := hdet h7 hex
    refine ⟨.pair bits (BitVec.ofInt bits (op.apply (number s x) (number s y))) (!decide (Fits bits s (op.apply (number s x) (number s y)))), ?_, ?_⟩
    · refine (hsem _).2 ⟨_, _, hint' x y ex ey, ?_⟩
      cases hc : (o.overflow && o.checked) with
      | false =>
        rw [hc] at hrest
        simp only [Bool.false_eq_true, if_false] at hrest
        cases hrest
        rfl
      | true =>
        rw [hc, if_pos rfl] at hrest
        obtain ⟨hf, rfl, _⟩ := (check_exec ht h6).1 hrest
        rw [hf]; rfl
    · cases hc : (o.overflow && o.checked) with
      | false =>
        rw [hc] at hrest
        simp only [Bool.false_eq_true, if_false] at hrest
        cases hrest
        exact hfin x y ex ey _ _ hk h3 h6 (.inl rfl)
      | true =>
        rw [hc, if_pos rfl] at hrest
        obtain ⟨_, rfl, rfl⟩ := (check_exec ht h6).1 hrest
        exact hfin x y ex ey ρ₁ _ hk h3 h6 (.inr ⟨_, rfl⟩)
  · intro hf
    obtain ⟨fits, v', hi, hr⟩ := (hsem _).1 hf
    obtain ⟨x, y, hx, hy, rfl, rfl⟩ := hint _ _ hi
    obtain ⟨ρ₁, hex, hk, h3, h6⟩ := chain x y hx hy
    split at hr
    · rename_i hc
      simp only [Bool.and_eq_true] at hc
      refine ⟨_, .check _ _ _ hc.1.1 (.inl ⟨op, s, bits, ht⟩), ?_⟩
      rw [hcode, if_pos (by simp [hc.1])]
      exact fail_append.2 (.inr ⟨ρ₁, m, hex, (check_fail ht h6).2 ⟨hc.2, rfl⟩⟩)
    · simp at hr
  · intro out' hx
    rw [hcode] at hx
    rcases fail_append.1 hx with h7 | ⟨ρ₁, m₁, h7, hrest⟩
    · exact absurd h7 (new_no_fail seven_ops)
    · obtain ⟨x, y, ex, ey⟩ := seven_bwd ht hYne h7
      rw [hX] at ex
      rw [hY] at ey
      obtain ⟨ρ₂, hex, hk, h3, h6⟩ := chain x y ex ey
      obtain ⟨rfl, rfl⟩ := hdet h7 hex
      cases hc : (o.overflow && o.checked) with
      | false =>
        rw [hc] at hrest
        simp only [Bool.false_eq_true, if_false] at hrest
        cases hrest
      | true =>
        rw [hc, if_pos rfl] at hrest
        obtain ⟨hf, rfl⟩ := (check_fail ht h6).1 hrest
        refine ⟨(hsem _).2 ⟨_, _, hint' x y ex ey, ?_⟩, .check _ _ _ (Bool.and_eq_true_iff.1 hc).1 (.inl ⟨op, s, bits, ht⟩)⟩
        rw [hf]
        simp [hc]

theorem step_sim (hs : Ssa fn) (hsh : Shape tab base fn) (hu : NoPairUse tab base fn) {b i : Nat} {ρ ρ' : Env Val}
    (h : Inv tab base fn b i ρ ρ') (hreach : Reach fn b) {ins : Instr Val} (hat : At fn b i ins) (m : M) :
    StepSim P tab o base fn b i ins ρ ρ' m := by
  rcases code_cases hsh o hat with ⟨op, s, bits, d, x, y, ht, hb, hd, ha, he⟩ | ⟨d, ht, ho, _, he⟩ | ⟨e, y, hd, hr, he⟩ | ⟨h1, h2, h3, h4⟩
  · exact step_ovf hs hsh hu h hreach hat m ht hb hd ha he
  · exact step_ubsan hsh m ht ho he
  · exact step_removed hs h hat m hd hr he
  · exact step_plain hs hsh hu h hat m h1 h2 h3 h4

/-! ## The instructions of a block -/

theorem at_of {b : Nat} {blk : Block Val} (hb : fn[b]? = some blk) {pre is : List (Instr Val)} {ins : Instr Val}
    (hp : blk.body = pre ++ ins :: is) : At fn b pre.length ins := ⟨blk, hb, by rw [hp]; simp⟩

theorem body_ok (hs : Ssa fn) (hsh : Shape tab base fn) (hu : NoPairUse tab base fn) {b : Nat} (hreach : Reach fn b)
    {blk : Block Val} (hb : fn[b]? = some blk) : ∀ (is pre : List (Instr Val)) (ρ ρ' : Env Val) (m : M), blk.body = pre ++ is →
    Inv tab base fn b pre.length ρ ρ' →
      (∀ ρ₁ m₁, Exec (required P tab o.overflow o.checked) is ρ m ρ₁ m₁ →
        ∃ ρ₁', Exec (after P tab) (is.flatMap (code tab o base fn)) ρ' m ρ₁' m₁ ∧ Inv tab base fn b blk.body.length ρ₁ ρ₁') ∧
      (∀ ρ₁' m₁, Exec (after P tab) (is.flatMap (code tab o base fn)) ρ' m ρ₁' m₁ →
        ∃ ρ₁, Exec (required P tab o.overflow o.checked) is ρ m ρ₁ m₁ ∧ Inv tab base fn b blk.body.length ρ₁ ρ₁') ∧
      (∀ out, ExecFail (required P tab o.overflow o.checked) is ρ m out →
        ∃ out', SameOutcome tab o.overflow out out' ∧ ExecFail (after P tab) (is.flatMap (code tab o base fn)) ρ' m out') ∧
      (∀ out', ExecFail (after P tab) (is.flatMap (code tab o base fn)) ρ' m out' →
        ∃ out, SameOutcome tab o.overflow out out' ∧ ExecFail (required P tab o.overflow o.checked) is ρ m out) := by
  intro is
  induction is with
  | nil =>
    intro pre ρ ρ' m hp hinv
    have hl : pre.length = blk.body.length := by rw [hp]; simp
    rw [hl] at hinv
    refine ⟨?_, ?_, ?_, ?_⟩
    · intro ρ₁ m₁ h; cases h; exact ⟨ρ', .nil _ _, hinv⟩
    · intro ρ₁ m₁ h; cases h; exact ⟨ρ, .nil _ _, hinv⟩
    · intro out h; cases h
    · intro out h; cases h
  | cons ins is ih =>
    intro pre ρ ρ' m hp hinv
    have hstep := step_sim (P := P) (o := o) hs hsh hu hinv hreach (at_of hb hp) m
    have hp' : blk.body = (pre ++ [ins]) ++ is := by rw [hp]; simp
    have hl : (pre ++ [ins]).length = pre.length + 1 := by simp
    simp only [List.flatMap_cons]
    refine ⟨?_, ?_, ?_, ?_⟩
    · intro ρ₁ m₁ h
      cases h with
      | cons _ _ _ _ v m' _ _ hsem hr =>
        obtain ⟨ρ₁', he, hi⟩ := hstep.fwd v m' hsem
        obtain ⟨ρ₂', h2, h3⟩ := (ih (pre ++ [ins]) _ ρ₁' m' hp' (by rw [hl]; exact hi)).1 _ _ hr
        exact ⟨ρ₂', exec_append.2 ⟨ρ₁', m', he, h2⟩, h3⟩
    · intro ρ₁' m₁ h
      obtain ⟨ρ₂', m', h1, h2⟩ := exec_append.1 h
      obtain ⟨v, hv, hi⟩ := hstep.bwd _ _ h1
      obtain ⟨ρ₁, h3, h4⟩ := (ih (pre ++ [ins]) _ ρ₂' m' hp' (by rw [hl]; exact hi)).2.1 _ _ h2
      exact ⟨ρ₁, .cons _ _ _ _ v m' _ _ hv h3, h4⟩
    · intro out h
      cases h with
      | here _ _ _ _ hsem =>
        obtain ⟨out', h1, h2⟩ := hstep.failFwd hsem
        exact ⟨out', h1, fail_append.2 (.inl h2)⟩
      | there _ _ _ _ v m' _ hsem hr =>
        obtain ⟨ρ₁', he, hi⟩ := hstep.fwd v m' hsem
        obtain ⟨out', h2, h3⟩ := (ih (pre ++ [ins]) _ ρ₁' m' hp' (by rw [hl]; exact hi)).2.2.1 _ hr
        exact ⟨out', h2, fail_append.2 (.inr ⟨ρ₁', m', he, h3⟩)⟩
    · intro out' h
      rcases fail_append.1 h with h1 | ⟨ρ₂', m', h1, h2⟩
      · obtain ⟨h3, h4⟩ := hstep.failBwd _ h1
        exact ⟨_, h4, .here _ _ _ _ h3⟩
      · obtain ⟨v, hv, hi⟩ := hstep.bwd _ _ h1
        obtain ⟨out, h3, h4⟩ := (ih (pre ++ [ins]) _ ρ₂' m' hp' (by rw [hl]; exact hi)).2.2.2 _ h2
        exact ⟨out, h3, .there _ _ _ _ v m' _ hv h4⟩

/-! ## Terminators and phi nodes -/

theorem Inv.useEnd (hs : Ssa fn) {b : Nat} {blk : Block Val} (hb : fn[b]? = some blk) {ρ ρ' : Env Val}
    (h : Inv tab base fn b blk.body.length ρ ρ') {u : Opd Val}
    (ha : OpdIs (AvailEnd fn b) u) (hl : OpdIs (· < base) u) (hno : ∀ d, u = .var d → isOvf tab fn d = false) :
    eval ρ' (substOpd tab base fn u) = eval ρ u := by
  refine h.use hs ?_ hl hno
  cases u with
  | const v => trivial
  | var x => exact avail_of_end hb ha

theorem next_eq (hs : Ssa fn) (hsh : Shape tab base fn) (hu : NoPairUse tab base fn) {b : Nat} {blk : Block Val} (hb : fn[b]? = some blk)
    {ρ ρ' : Env Val} (h : Inv tab base fn b blk.body.length ρ ρ') (m : M) :
    next (after P tab) ρ' m (substTerm tab base fn blk.term) = next (required P tab o.overflow o.checked) ρ m blk.term ∧
    leave (after P tab) ρ' m (substTerm tab base fn blk.term) = leave (required P tab o.overflow o.checked) ρ m blk.term := by
  have key : ∀ u ∈ Term.uses blk.term, eval ρ' (substOpd tab base fn u) = eval ρ u := fun u hm =>
    h.useEnd hs hb (hs.term b blk hb u hm) (hsh.termLt b blk hb u hm) (hu.2.1 b blk hb u hm)
  cases ht : blk.term with
  | ret v =>
    cases v with
    | none => exact ⟨rfl, rfl⟩
    | some v =>
      rw [ht] at key
      have := key v (by simp [Term.uses])
      simp only [substTerm, next, leave, Option.map_some, this]
      exact ⟨trivial, rfl⟩
  | br t => exact ⟨rfl, rfl⟩
  | cbr c t f =>
    rw [ht] at key
    have := key c (by simp [Term.uses])
    simp only [substTerm, next, leave, this]
    exact ⟨rfl, trivial⟩
  | switch c cs d =>
    rw [ht] at key
    have := key c (by simp [Term.uses])
    simp only [substTerm, next, leave, this]
    exact ⟨trivial, trivial⟩
  | invoke n u => exact ⟨rfl, rfl⟩
  | resume v =>
    rw [ht] at key
    have := key v (by simp [Term.uses])
    simp only [substTerm, next, leave, this]
    exact ⟨trivial, rfl⟩
  | unreachable => exact ⟨rfl, rfl⟩

theorem lookup_subst (inc : List (Nat × Opd Val)) (b : Nat) :
    (inc.map fun q => (q.1, substOpd tab base fn q.2)).lookup b = (inc.lookup b).map (substOpd tab base fn) := by
  induction inc with
  | nil => rfl
  | cons q inc ih =>
    obtain ⟨c, u⟩ := q
    simp only [List.map_cons, List.lookup_cons]
    cases b == c with
    | true => rfl
    | false => exact ih

theorem find_subst (phis : List (Phi Val)) (x : Var) :
    (phis.map (substPhi tab base fn)).find? (fun p => p.var = x) = (phis.find? (fun p => p.var = x)).map (substPhi tab base fn) := by
  induction phis with
  | nil => rfl
  | cons p phis ih =>
    simp only [List.map_cons, List.find?_cons]
    have : (substPhi tab base fn p).var = p.var := rfl
    rw [this]
    split
    · rfl
    · exact ih

theorem enter_other {phis : List (Phi Val)} {x : Var} (h : x ∉ phis.map (·.var)) (ρ : Env Val) (b : Nat) :
    enter ρ b phis x = ρ x := by
  unfold enter
  have : phis.find? (fun p => p.var = x) = none := by
    rw [List.find?_eq_none]
    intro p hp he
    exact h (List.mem_map.2 ⟨p, hp, by simpa using he⟩)
  rw [this]

theorem enter_subst_other {phis : List (Phi Val)} {x : Var} (h : x ∉ phis.map (·.var)) (ρ : Env Val) (b : Nat) :
    enter ρ b (phis.map (substPhi tab base fn)) x = ρ x := by
  apply enter_other
  rw [List.map_map]
  exact h

theorem enter_inv (hs : Ssa fn) (hsh : Shape tab base fn) (hu : NoPairUse tab base fn) {b t : Nat} {blk blk' : Block Val}
    (hb : fn[b]? = some blk) (ht : fn[t]? = some blk') (he : Edge fn b t) {ρ ρ' : Env Val}
    (h : Inv tab base fn b blk.body.length ρ ρ') :
    Inv tab base fn t 0 (enter ρ b blk'.phis) (enter ρ' b (blk'.phis.map (substPhi tab base fn))) := by
  have hnew : ∀ y, base ≤ y → enter ρ' b (blk'.phis.map (substPhi tab base fn)) y = ρ' y := by
    intro y hy
    apply enter_subst_other
    intro hm
    have hlt := hsh.dstLt y t ⟨blk', ht, .inl hm⟩
    exact absurd hlt (Nat.not_lt.2 hy)
  have hpos : ∀ b' i' ins, At fn b' i' ins → (b' ≠ b ∧ Avoid fn b' b) ∨ (b' = b ∧ blk.body.length ≤ i') →
      (b' ≠ t ∧ Avoid fn b' t) ∨ (b' = t ∧ 0 ≤ i') := by
    rintro b' i' ins hat (⟨_, h2⟩ | ⟨rfl, h2⟩)
    · by_cases hbt : b' = t
      · exact .inr ⟨hbt, by omega⟩
      · exact .inl ⟨hbt, .step b t h2 he (fun e => hbt e.symm)⟩
    · obtain ⟨blk₂, hb₂, hi⟩ := hat
      rw [hb] at hb₂; cases hb₂
      rw [List.getElem?_eq_none h2] at hi
      simp at hi
  refine ⟨?_, ?_, ?_⟩
  · intro x hx hsp
    unfold enter
    rw [find_subst]
    cases hf : blk'.phis.find? (fun p => p.var = x) with
    | none => exact h.same x hx hsp
    | some p =>
      have hp := List.mem_of_find?_eq_some hf
      obtain ⟨u, hl, ha⟩ := hs.phi b t blk' he ht p hp
      simp only [Option.map_some, substPhi, lookup_subst, hl]
      have hq : (b, u) ∈ p.inc := mem_of_lookup hl
      exact h.useEnd hs hb ha (hsh.phiLt t blk' ht p hp (b, u) hq) (fun d hd => hu.2.2 t blk' ht p hp (b, u) hq d hd)
  · intro b' i' ins d op s bits hat hd htb
    rcases h.pairs b' i' ins d op s bits hat hd htb with h1 | h1
    · exact .inl (h1.congr (enter_other (hat.not_phi hs hd ht) _ _) (hnew _ (new_ge _ _)) (hnew _ (new_ge _ _)))
    · exact .inr (hpos _ _ _ hat h1)
  · intro b' i' ins e y hat hd hr
    rcases h.comps b' i' ins e y hat hd hr with h1 | h1
    · left
      rw [hnew _ (replacement_ge hr), enter_other (hat.not_phi hs hd ht)]
      exact h1
    · exact .inr (hpos _ _ _ hat h1)

/-! ## Runs -/

theorem next_edge {ρ : Env Val} {m : M} {b t : Nat} {blk : Block Val} (hb : fn[b]? = some blk) {Q : Params Val M}
    (h : next Q ρ m blk.term = some t) : Edge fn b t := ⟨blk, hb, next_mem h⟩

theorem pass_get {b : Nat} {blk : Block Val} (hb : fn[b]? = some blk) :
    (fn.map (passBlock tab o base fn))[b]? = some (passBlock tab o base fn blk) := by rw [List.getElem?_map, hb]; rfl

theorem run_fwd (hs : Ssa fn) (hsh : Shape tab base fn) (hu : NoPairUse tab base fn) {b : Nat} {ρ : Env Val} {m : M}
    {out : Outcome Val M} (h : Run (required P tab o.overflow o.checked) fn b ρ m out) : ∀ ρ', Reach fn b →
      Inv tab base fn b 0 ρ ρ' → ∃ out', SameOutcome tab o.overflow out out' ∧ Run (after P tab) (fn.map (passBlock tab o base fn)) b ρ' m out' := by
  induction h with
  | fail b blk ρ m out hb hf =>
    intro ρ' hr hi
    obtain ⟨out', h1, h2⟩ := (body_ok (P := P) (o := o) hs hsh hu hr hb blk.body [] ρ ρ' m rfl hi).2.2.1 _ hf
    exact ⟨out', h1, .fail b _ ρ' m out' (pass_get hb) h2⟩
  | leave b blk ρ m ρ₁ m₁ out hb he hl =>
    intro ρ' hr hi
    obtain ⟨ρ₁', h1, h2⟩ := (body_ok (P := P) (o := o) hs hsh hu hr hb blk.body [] ρ ρ' m rfl hi).1 _ _ he
    have := (next_eq (P := P) (o := o) hs hsh hu hb h2 m₁).2
    refine ⟨out, ?_, .leave b _ ρ' m ρ₁' m₁ out (pass_get hb) h1 (this.trans hl)⟩
    cases out with
    | ret v m => exact .ret _ _
    | fail k args m => cases ht : blk.term <;> rw [ht] at hl <;> simp [Spec.leave] at hl
  | step b blk ρ m ρ₁ m₁ t blk' out hb he hn ht _ ih =>
    intro ρ' hr hi
    obtain ⟨ρ₁', h1, h2⟩ := (body_ok (P := P) (o := o) hs hsh hu hr hb blk.body [] ρ ρ' m rfl hi).1 _ _ he
    have hnx := (next_eq (P := P) (o := o) hs hsh hu hb h2 m₁).1
    have hedge := next_edge hb hn
    obtain ⟨out', h3, h4⟩ := ih _ (.step b t hr hedge) (enter_inv hs hsh hu hb ht hedge h2)
    exact ⟨out', h3, .step b _ ρ' m ρ₁' m₁ t _ out' (pass_get hb) h1 (hnx.trans hn) (pass_get ht) h4⟩

theorem run_bwd (hs : Ssa fn) (hsh : Shape tab base fn) (hu : NoPairUse tab base fn) {b : Nat} {ρ' : Env Val} {m : M}
    {out' : Outcome Val M} (h : Run (after P tab) (fn.map (passBlock tab o base fn)) b ρ' m out') : ∀ ρ, Reach fn b →
      Inv tab base fn b 0 ρ ρ' → ∃ out, SameOutcome tab o.overflow out out' ∧ Run (required P tab o.overflow o.checked) fn b ρ m out := by
  have get : ∀ {b : Nat} {blk₂ : Block Val}, (fn.map (passBlock tab o base fn))[b]? = some blk₂ →
      ∃ blk, fn[b]? = some blk ∧ blk₂ = passBlock tab o base fn blk := by
    intro b blk₂ h
    rw [List.getElem?_map] at h
    cases hb : fn[b]? with
    | none => rw [hb] at h; simp at h
    | some blk => rw [hb] at h; simp only [Option.map_some, Option.some.injEq] at h; exact ⟨blk, rfl, h.symm⟩
  induction h with
  | fail b blk₂ ρ' m out' hb₂ hf =>
    intro ρ hr hi
    obtain ⟨blk, hb, rfl⟩ := get hb₂
    obtain ⟨out, h1, h2⟩ := (body_ok (P := P) (o := o) hs hsh hu hr hb blk.body [] ρ ρ' m rfl hi).2.2.2 _ hf
    exact ⟨out, h1, .fail b _ ρ m out hb h2⟩
  | leave b blk₂ ρ' m ρ₁' m₁ out' hb₂ he hl =>
    intro ρ hr hi
    obtain ⟨blk, hb, rfl⟩ := get hb₂
    obtain ⟨ρ₁, h1, h2⟩ := (body_ok (P := P) (o := o) hs hsh hu hr hb blk.body [] ρ ρ' m rfl hi).2.1 _ _ he
    have hl' := ((next_eq (P := P) (o := o) hs hsh hu hb h2 m₁).2).symm.trans hl
    refine ⟨out', ?_, .leave b _ ρ m ρ₁ m₁ out' hb h1 hl'⟩
    cases out' with
    | ret v m => exact .ret _ _
    | fail k args m => cases ht : blk.term <;> rw [ht] at hl' <;> simp [Spec.leave] at hl'
  | step b blk₂ ρ' m ρ₁' m₁ t blk₂' out' hb₂ he hn ht₂ _ ih =>
    intro ρ hr hi
    obtain ⟨blk, hb, rfl⟩ := get hb₂
    obtain ⟨blk', ht, rfl⟩ := get ht₂
    obtain ⟨ρ₁, h1, h2⟩ := (body_ok (P := P) (o := o) hs hsh hu hr hb blk.body [] ρ ρ' m rfl hi).2.1 _ _ he
    have hn' := ((next_eq (P := P) (o := o) hs hsh hu hb h2 m₁).1).symm.trans hn
    have hedge := next_edge hb hn'
    obtain ⟨out, h3, h4⟩ := ih _ (.step b t hr hedge) (enter_inv hs hsh hu hb ht hedge h2)
    exact ⟨out, h3, .step b _ ρ m ρ₁ m₁ t _ out hb h1 hn' ht h4⟩

theorem init_inv (ρ : Env Val) : Inv tab base fn 0 0 ρ ρ := by
  have hpos : ∀ b' i' : Nat, (b' ≠ 0 ∧ Avoid fn b' 0) ∨ (b' = 0 ∧ 0 ≤ i') := by
    intro b' i'
    by_cases h : b' = 0
    · exact .inr ⟨h, by omega⟩
    · exact .inl ⟨h, .entry (fun e => h e.symm)⟩
  exact ⟨fun _ _ _ => rfl, fun _ _ _ _ _ _ _ _ _ _ => .inr (hpos _ _), fun _ _ _ _ _ _ _ _ => .inr (hpos _ _)⟩

end Smack.OvfPass
