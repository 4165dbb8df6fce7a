/-
The simulation of programs whose functions call each other, given that of the operations that are not calls.
-/
import Verif.E2EMod.Spec
import Verif.E2EMod.Step
import Verif.E2EBv.Restrict

set_option linter.unusedSectionVars false

namespace Smack.E2EMod

open Smack.Cfg Smack.Cfg.Spec
open Smack.E2E (mapOpd mapInstr mapPhi mapTerm mapBlock mapFn mapFn_get mapFn_get_inv)
open Smack.E2EBv (restrict Grows lastMem run_grows exec_grows execFail_grows leave_grows)

/-! ## Failures -/

section
variable {V M : Type} [DecidableEq V] {C : Calls V} {ok : Nat → Env V → Prop} {u : V} {P Q : Params V M}

theorem calls_zero {op : Nat} {args : List V} {m : M} {r : Option (V × M)} :
    (calls C ok u P 0).sem op args m r ↔ C.callee op = none ∧ P.sem op args m r := by
  simp only [calls]
  cases C.callee op <;> simp

theorem calls_leaf {n op : Nat} (h : C.callee op = none) {args : List V} {m : M} {r : Option (V × M)} :
    (calls C ok u P n).sem op args m r ↔ P.sem op args m r := by
  cases n <;> simp only [calls, h]

theorem calls_call {n op g : Nat} (h : C.callee op = some g) {args : List V} {m : M} {r : Option (V × M)} :
    (calls C ok u P (n + 1)).sem op args m r ↔ ∃ ρ o, Enter C ok g ρ args ∧ Body C (calls C ok u P n) g ρ m o ∧ r = result u o := by
  simp only [calls, h]

theorem calls_call0 {op g : Nat} (h : C.callee op = some g) {args : List V} {m : M} {r : Option (V × M)} :
    ¬ (calls C ok u P 0).sem op args m r := by
  simp only [calls, h]
  exact fun h => h

theorem calls_one (n : Nat) : (calls C ok u P n).one = P.one := by cases n <;> rfl
theorem calls_exn (n : Nat) : (calls C ok u P n).exn = P.exn := by cases n <;> rfl
theorem calls_setExn (n : Nat) : (calls C ok u P n).setExn = P.setExn := by cases n <;> rfl
theorem calls_setExnVal (n : Nat) : (calls C ok u P n).setExnVal = P.setExnVal := by cases n <;> rfl

theorem result_none {o : Outcome V M} : none = result u o ↔ ∃ op l m, o = .fail op l m := by
  cases o <;> simp [result]

theorem result_some {o : Outcome V M} {x : V × M} (h : some x = result u o) : ∃ v, o = .ret v x.2 ∧ x.1 = v.getD u := by
  cases o with
  | ret v m => simp only [result, Option.some.injEq] at h; subst h; exact ⟨v, rfl, rfl⟩
  | fail => cases h

/-- An execution that fails somewhere fails in the body of its function. -/
theorem PExec.body {n g : Nat} {ρ : Env V} {m : M} {op : Nat} {l : List V} {m' : M} (h : PExec C ok u P n g ρ m (.fail op l m')) :
    ∃ op l m', Body C (calls C ok u P n) g ρ m (.fail op l m') := by
  cases h with
  | here _ _ _ _ _ _ _ h => exact ⟨_, _, _, h⟩
  | inside n _ _ _ op l m' h _ _ _ _ hb => exact ⟨_, _, _, hb⟩

/-- A failure in the body of a function has a cause. -/
theorem exists_pexec {n : Nat} : ∀ {g : Nat} {ρ : Env V} {m : M} {op : Nat} {l : List V} {m' : M},
    Body C (calls C ok u P n) g ρ m (.fail op l m') → ∃ op l m', C.callee op = none ∧ P.sem op l m' none ∧ PExec C ok u P n g ρ m (.fail op l m') := by
  induction n with
  | zero =>
    intro g ρ m op l m' h
    obtain ⟨d, hd, hr⟩ := id h
    have := calls_zero.1 (run_sem hr)
    exact ⟨op, l, m', this.1, this.2, .here _ _ _ _ _ _ _ h this.1⟩
  | succ n ih =>
    intro g ρ m op l m' h
    obtain ⟨d, hd, hr⟩ := id h
    have hs := run_sem hr
    cases hc : C.callee op with
    | none => exact ⟨op, l, m', hc, (calls_leaf hc).1 hs, .here _ _ _ _ _ _ _ h hc⟩
    | some f =>
      obtain ⟨ρ', o, he, hb, ho⟩ := (calls_call hc).1 hs
      obtain ⟨op1, l1, m1, rfl⟩ := result_none.1 ho
      obtain ⟨op2, l2, m2, q0, q1, q2⟩ := ih hb
      exact ⟨op2, l2, m2, q0, q1, .inside _ _ _ _ _ _ _ _ _ _ _ _ h hc he q2⟩

/-! ### Changing the operations -/

/-- `Q` has the operations of `P` that lead to memories satisfying `R`. -/
structure Covers (P Q : Params V M) (R : M → Prop) : Prop where
  one : P.one = Q.one
  exn : P.exn = Q.exn
  setExn : P.setExn = Q.setExn
  setExnVal : P.setExnVal = Q.setExnVal
  sem : ∀ op args m v m', P.sem op args m (some (v, m')) → R m' → Q.sem op args m (some (v, m'))

variable {R : M → Prop} {le : M → M → Prop}

theorem Covers.exec (h : Covers P Q R) (G : Grows P le) {is : List (Instr V)} {ρ : Env V} {m : M} {ρ₁ : Env V} {m₁ : M}
    (he : Exec P is ρ m ρ₁ m₁) (hR : ∀ m', le m' m₁ → R m') : Exec Q is ρ m ρ₁ m₁ := by
  induction he with
  | nil => exact .nil _ _
  | cons i is ρ m v m' ρ₂ m₂ hs hr ih => exact .cons _ _ _ _ _ _ _ _ (h.sem _ _ _ _ _ hs (hR _ (exec_grows G hr))) (ih hR)

theorem Covers.execFail (h : Covers P Q R) (G : Grows P le) {is : List (Instr V)} {ρ : Env V} {m : M} {o : Outcome V M}
    (he : ExecFail P is ρ m o) (hR : ∀ m', le m' (lastMem o) → R m')
    (hf : ∀ op l m', o = .fail op l m' → P.sem op l m' none → Q.sem op l m' none) : ExecFail Q is ρ m o := by
  induction he with
  | here i is ρ m hs => exact .here _ _ _ _ (hf _ _ _ rfl hs)
  | there i is ρ m v m' o hs hr ih => exact .there _ _ _ _ _ _ _ (h.sem _ _ _ _ _ hs (hR _ (execFail_grows G hr))) (ih hR hf)

theorem Covers.run (h : Covers P Q R) (G : Grows P le) {fn : Fn V} {b : Nat} {ρ : Env V} {m : M} {o : Outcome V M} (he : Run P fn b ρ m o)
    (hR : ∀ m', le m' (lastMem o) → R m') (hf : ∀ op l m', o = .fail op l m' → P.sem op l m' none → Q.sem op l m' none) : Run Q fn b ρ m o := by
  induction he with
  | fail b blk ρ m o hb h1 => exact .fail b _ _ _ _ hb (h.execFail G h1 hR hf)
  | leave b blk ρ m ρ₁ m₁ o hb h1 h2 =>
    refine .leave b _ _ _ _ _ _ hb (h.exec G h1 fun m' h => hR _ (G.trans _ _ _ h (leave_grows G h2))) ?_
    rw [← h2]
    cases blk.term <;> simp only [Spec.leave, h.setExn, h.setExnVal]
  | step b blk ρ m ρ₁ m₁ t blk' o hb h1 h2 ht hr ih =>
    refine .step b _ _ _ _ _ t _ _ hb (h.exec G h1 fun m' h => hR _ (G.trans _ _ _ h (run_grows G hr))) ?_ ht (ih hR hf)
    rw [← h2]
    cases blk.term <;> simp only [Spec.next, h.one, h.exn]

theorem grows_calls (G : Grows P le) (n : Nat) : Grows (calls C ok u P n) le := by
  induction n with
  | zero => exact ⟨G.refl, G.trans, fun op args m v m' h => G.sem _ _ _ _ _ (calls_zero.1 h).2, G.exn, G.exnVal⟩
  | succ n ih =>
    refine ⟨G.refl, G.trans, fun op args m v m' h => ?_, G.exn, G.exnVal⟩
    cases hc : C.callee op with
    | none => exact G.sem _ _ _ _ _ ((calls_leaf hc).1 h)
    | some g =>
      obtain ⟨ρ, o, _, ⟨d, _, hb⟩, ho⟩ := (calls_call hc).1 h
      obtain ⟨w, rfl, _⟩ := result_some ho
      exact run_grows ih hb

theorem covers_calls (h : Covers P Q R) (G : Grows P le) (hR : ∀ m m', le m m' → R m' → R m) (n : Nat) :
    Covers (calls C ok u P n) (calls C ok u Q n) R := by
  induction n with
  | zero =>
    refine ⟨h.one, h.exn, h.setExn, h.setExnVal, fun op args m v m' hs hm => ?_⟩
    exact calls_zero.2 ⟨(calls_zero.1 hs).1, h.sem _ _ _ _ _ (calls_zero.1 hs).2 hm⟩
  | succ n ih =>
    refine ⟨h.one, h.exn, h.setExn, h.setExnVal, fun op args m v m' hs hm => ?_⟩
    cases hc : C.callee op with
    | none => exact (calls_leaf hc).2 (h.sem _ _ _ _ _ ((calls_leaf hc).1 hs) hm)
    | some g =>
      obtain ⟨ρ, o, he, ⟨d, hd, hb⟩, ho⟩ := (calls_call hc).1 hs
      obtain ⟨w, rfl, hv⟩ := result_some ho
      exact (calls_call hc).2 ⟨ρ, _, he, ⟨d, hd, ih.run (grows_calls G n) hb (fun m₁ h => hR _ _ h hm) (fun _ _ _ h => by cases h)⟩, ho⟩

/-- An execution of the program with the operations of `P` is one with those of `Q`, if it stays in `R` and the last operation fails in both. -/
theorem pexec_covers (h : Covers P Q R) (G : Grows P le) (hR : ∀ m m', le m m' → R m' → R m) {n g : Nat} {ρ : Env V} {m : M} {o : Outcome V M}
    (he : PExec C ok u P n g ρ m o) (hm : R (lastMem o)) (hf : ∀ op l m', o = .fail op l m' → P.sem op l m' none → Q.sem op l m' none) :
    PExec C ok u Q n g ρ m o := by
  have hc := fun n => covers_calls (C := C) (ok := ok) (u := u) h G hR n
  have hG := fun n => grows_calls (C := C) (ok := ok) (u := u) G n
  induction he with
  | ret n g ρ m v m' hb =>
    obtain ⟨d, hd, hb⟩ := hb
    exact .ret _ _ _ _ _ _ ⟨d, hd, (hc n).run (hG n) hb (fun m₁ h => hR _ _ h hm) (fun _ _ _ h => by cases h)⟩
  | here n g ρ m op l m' hb hcal =>
    obtain ⟨d, hd, hb⟩ := hb
    refine .here _ _ _ _ _ _ _ ⟨d, hd, (hc n).run (hG n) hb (fun m₁ h => hR _ _ h hm) ?_⟩ hcal
    intro op' l' m'' e hs
    cases e
    exact (calls_leaf hcal).2 (hf _ _ _ rfl ((calls_leaf hcal).1 hs))
  | inside n g ρ m op l m' f ρ' op' l' m'' hb hcal hent hx ih =>
    have ih := ih hm hf
    obtain ⟨d, hd, hb⟩ := hb
    have hle : le m' m'' := by
      have : ∀ {n g : Nat} {ρ : Env V} {m : M} {o : Outcome V M}, PExec C ok u P n g ρ m o → le m (lastMem o) := by
        intro n g ρ m o h
        induction h with
        | ret n g ρ m v m' hb => obtain ⟨_, _, hb⟩ := hb; exact run_grows (hG n) hb
        | here n g ρ m op l m' hb _ => obtain ⟨_, _, hb⟩ := hb; exact run_grows (hG n) hb
        | inside n g ρ m op l m' f ρ' op' l' m'' hb _ _ _ ih => obtain ⟨_, _, hb⟩ := hb; exact G.trans _ _ _ (run_grows (hG (n + 1)) hb) ih
      exact this hx
    refine .inside _ _ _ _ _ _ _ _ _ _ _ _ ⟨d, hd, (hc (n + 1)).run (hG (n + 1)) hb (fun m₁ h => hR _ _ (G.trans _ _ _ h hle) hm) ?_⟩ hcal hent ih
    intro op₁ l₁ m₁ e _
    cases e
    obtain ⟨a, b, c, hbody⟩ := ih.body
    exact (calls_call hcal).2 ⟨ρ', _, hent, hbody, rfl⟩

theorem PExec.grows (G : Grows P le) {n g : Nat} {ρ : Env V} {m : M} {o : Outcome V M} (h : PExec C ok u P n g ρ m o) : le m (lastMem o) := by
  have hG := fun n => grows_calls (C := C) (ok := ok) (u := u) G n
  induction h with
  | ret n g ρ m v m' hb => obtain ⟨_, _, hb⟩ := hb; exact run_grows (hG n) hb
  | here n g ρ m op l m' hb _ => obtain ⟨_, _, hb⟩ := hb; exact run_grows (hG n) hb
  | inside n g ρ m op l m' f ρ' op' l' m'' hb _ _ _ ih => obtain ⟨_, _, hb⟩ := hb; exact G.trans _ _ _ (run_grows (hG (n + 1)) hb) ih

theorem sameOk_calls (h : SameOk P Q) (n : Nat) : SameOk (calls C ok u P n) (calls C ok u Q n) := by
  have hc : Covers P Q (fun _ => True) := ⟨h.one, h.exn, h.setExn, h.setExnVal, fun _ _ _ _ _ hs _ => h.sem _ _ _ _ hs⟩
  have G : Grows P (fun _ _ => True) := ⟨fun _ => trivial, fun _ _ _ _ _ => trivial, fun _ _ _ _ _ _ => trivial, fun _ _ => trivial, fun _ _ => trivial⟩
  have := covers_calls (C := C) (ok := ok) (u := u) hc G (fun _ _ _ _ => trivial) n
  exact ⟨this.one, this.exn, this.setExn, this.setExnVal, fun _ _ _ x hs => this.sem _ _ _ x.1 x.2 hs trivial⟩
end

/-! ## Simulation -/

section
variable {V W M M' : Type} [DecidableEq V] [DecidableEq W]

/-- What is needed of the program. -/
structure ProgSim (C : Calls V) (okP : Nat → Env V → Prop) (okQ : Nat → Env W → Prop) (u : V) (u' : W) (P U : Params V M) (Q : Params W M') (k : V → W)
    (RE : Nat → Env V → Env W → Prop) (RM : M → M' → Prop) (RV : Nat → Option V → Option W → Prop) (RA : Nat → List V → List W → Prop) : Prop where
  same : SameOk P U
  ctl : ∀ (g : Nat) d, C.funcs[g]? = some d → CtlSim P Q k d.body (RE g) RM (RV g)
  leaf : ∀ (g : Nat) d, C.funcs[g]? = some d → ∀ (b : Nat) blk, d.body[b]? = some blk → ∀ i ∈ blk.body, C.callee i.op = none →
    StepSim P U Q k i (RE g) RM RA
  args : ∀ (g : Nat) d, C.funcs[g]? = some d → ∀ (b : Nat) blk, d.body[b]? = some blk → ∀ i ∈ blk.body, ∀ f, C.callee i.op = some f →
    ∀ ρ σ, RE g ρ σ → RA i.op (i.args.map (eval ρ)) ((mapInstr k i).args.map (eval σ))
  res : ∀ (g : Nat) d, C.funcs[g]? = some d → ∀ (b : Nat) blk, d.body[b]? = some blk → ∀ i ∈ blk.body, ∀ f, C.callee i.op = some f →
    ∀ ρ σ v w, RE g ρ σ → RV f v w → RE g (setOpt ρ i.dst (v.getD u)) (setOpt σ i.dst (w.getD u'))
  entryFwd : ∀ op f l l' ρ, C.callee op = some f → RA op l l' → Enter C okP f ρ l → ∃ σ, RE f ρ σ ∧ Enter (mapCalls k C) okQ f σ l'
  entryBwd : ∀ op f l l' σ, C.callee op = some f → RA op l l' → Enter (mapCalls k C) okQ f σ l' → ∃ ρ, RE f ρ σ ∧ Enter C okP f ρ l

variable {C : Calls V} {okP : Nat → Env V → Prop} {okQ : Nat → Env W → Prop} {u : V} {u' : W} {P U : Params V M} {Q : Params W M'} {k : V → W}
  {RE : Nat → Env V → Env W → Prop} {RM : M → M' → Prop} {RV : Nat → Option V → Option W → Prop} {RA : Nat → List V → List W → Prop}

theorem mapCalls_get {g : Nat} {d : FnDef V} (h : C.funcs[g]? = some d) : (mapCalls k C).funcs[g]? = some ⟨d.params, mapFn k d.body, d.loops⟩ := by
  simp [mapCalls, h]

theorem mapCalls_inv {g : Nat} {d' : FnDef W} (h : (mapCalls k C).funcs[g]? = some d') :
    ∃ d, C.funcs[g]? = some d ∧ d' = ⟨d.params, mapFn k d.body, d.loops⟩ := by
  simp only [mapCalls, List.getElem?_map, Option.map_eq_some_iff] at h
  obtain ⟨d, h1, h2⟩ := h
  exact ⟨d, h1, h2.symm⟩

theorem ctl_calls {fn : Fn V} {g : Nat} (H : CtlSim P Q k fn (RE g) RM (RV g)) (n : Nat) :
    CtlSim (calls C okP u P n) (calls (mapCalls k C) okQ u' Q n) k fn (RE g) RM (RV g) where
  enter := H.enter
  cond := by rw [calls_one, calls_one]; exact H.cond
  ret := H.ret
  exn := by rw [calls_setExn, calls_setExn]; exact H.exn
  term := H.term

/-- The simulation of the instructions, calls included. -/
theorem prog_step (H : ProgSim C okP okQ u u' P U Q k RE RM RV RA) (n : Nat) :
    ∀ (g : Nat) d, C.funcs[g]? = some d → ∀ (b : Nat) blk, d.body[b]? = some blk → ∀ i ∈ blk.body,
      StepSim (calls C okP u P n) (calls C okP u U n) (calls (mapCalls k C) okQ u' Q n) k i (RE g) RM RA := by
  induction n with
  | zero =>
    intro g d hd b blk hb i hi
    cases hc : C.callee i.op with
    | none =>
      have L := H.leaf g d hd b blk hb i hi hc
      have hc' : (mapCalls k C).callee i.op = none := hc
      refine ⟨?_, ?_, ?_, ?_⟩
      · intro ρ σ m m' h1 h2 v m₁ hs
        obtain ⟨w, m₁', q1, q2⟩ := L.fwd ρ σ m m' h1 h2 v m₁ ((calls_leaf hc).1 hs)
        exact ⟨w, m₁', (calls_leaf hc').2 q1, q2⟩
      · intro ρ σ m m' h1 h2 hs
        obtain ⟨q1, q2⟩ := L.fwdFail ρ σ m m' h1 h2 ((calls_leaf hc).1 hs)
        exact ⟨(calls_leaf hc').2 q1, q2⟩
      · intro ρ σ m m' h1 h2 w m₁' hs
        rcases L.bwd ρ σ m m' h1 h2 w m₁' ((calls_leaf hc').1 hs) with q | ⟨v, m₁, q1, q2⟩
        · exact .inl ((calls_leaf hc).2 q)
        · exact .inr ⟨v, m₁, (calls_leaf hc).2 q1, q2⟩
      · intro ρ σ m m' h1 h2 hs
        rcases L.bwdFail ρ σ m m' h1 h2 ((calls_leaf hc').1 hs) with q | ⟨q1, q2⟩
        · exact .inl ((calls_leaf hc).2 q)
        · exact .inr ⟨(calls_leaf hc).2 q1, q2⟩
    | some f =>
      have hc' : (mapCalls k C).callee i.op = some f := hc
      exact ⟨fun _ _ _ _ _ _ _ _ h => absurd h (calls_call0 hc), fun _ _ _ _ _ _ h => absurd h (calls_call0 hc),
        fun _ _ _ _ _ _ _ _ h => absurd h (calls_call0 hc'), fun _ _ _ _ _ _ h => absurd h (calls_call0 hc')⟩
  | succ n ih =>
    intro g d hd b blk hb i hi
    cases hc : C.callee i.op with
    | none =>
      have L := H.leaf g d hd b blk hb i hi hc
      have hc' : (mapCalls k C).callee i.op = none := hc
      refine ⟨?_, ?_, ?_, ?_⟩
      · intro ρ σ m m' h1 h2 v m₁ hs
        obtain ⟨w, m₁', q1, q2⟩ := L.fwd ρ σ m m' h1 h2 v m₁ ((calls_leaf hc).1 hs)
        exact ⟨w, m₁', (calls_leaf hc').2 q1, q2⟩
      · intro ρ σ m m' h1 h2 hs
        obtain ⟨q1, q2⟩ := L.fwdFail ρ σ m m' h1 h2 ((calls_leaf hc).1 hs)
        exact ⟨(calls_leaf hc').2 q1, q2⟩
      · intro ρ σ m m' h1 h2 w m₁' hs
        rcases L.bwd ρ σ m m' h1 h2 w m₁' ((calls_leaf hc').1 hs) with q | ⟨v, m₁, q1, q2⟩
        · exact .inl ((calls_leaf hc).2 q)
        · exact .inr ⟨v, m₁, (calls_leaf hc).2 q1, q2⟩
      · intro ρ σ m m' h1 h2 hs
        rcases L.bwdFail ρ σ m m' h1 h2 ((calls_leaf hc').1 hs) with q | ⟨q1, q2⟩
        · exact .inl ((calls_leaf hc).2 q)
        · exact .inr ⟨(calls_leaf hc).2 q1, q2⟩
    | some f =>
      have hc' : (mapCalls k C).callee i.op = some f := hc
      have hU : SameOk (calls C okP u P n) (calls C okP u U n) := sameOk_calls H.same n
      have A := H.args g d hd b blk hb i hi f hc
      have Rs := H.res g d hd b blk hb i hi f hc
      refine ⟨?_, ?_, ?_, ?_⟩
      · intro ρ σ m m' h1 h2 v m₁ hs
        obtain ⟨ρ', o, he, ⟨d', hd', hr⟩, ho⟩ := (calls_call hc).1 hs
        obtain ⟨v', rfl, hv⟩ := result_some ho
        obtain ⟨σ', hE, he'⟩ := H.entryFwd _ _ _ _ _ hc (A ρ σ h1) he
        obtain ⟨o', q1, q2⟩ := run_fwd (ctl_calls (H.ctl f d' hd') n) (ih f d' hd') hr σ' m' hE h2
        cases q2 with
        | ret _ w _ m₁' hvw hm =>
          refine ⟨w.getD u', m₁', (calls_call hc').2 ⟨σ', _, he', ⟨_, mapCalls_get hd', q1⟩, rfl⟩, hm, ?_⟩
          simp only at hv
          rw [hv]; exact Rs ρ σ v' w h1 hvw
      · intro ρ σ m m' h1 h2 hs
        obtain ⟨ρ', o, he, ⟨d', hd', hr⟩, ho⟩ := (calls_call hc).1 hs
        obtain ⟨op, l, m₀, rfl⟩ := result_none.1 ho
        obtain ⟨σ', hE, he'⟩ := H.entryFwd _ _ _ _ _ hc (A ρ σ h1) he
        obtain ⟨o', q1, q2⟩ := run_fwd (ctl_calls (H.ctl f d' hd') n) (ih f d' hd') hr σ' m' hE h2
        cases q2 with
        | fail => exact ⟨(calls_call hc').2 ⟨σ', _, he', ⟨_, mapCalls_get hd', q1⟩, rfl⟩, A ρ σ h1⟩
      · intro ρ σ m m' h1 h2 w m₁' hs
        obtain ⟨σ', o', he', ⟨d₁, hd₁, hr⟩, ho⟩ := (calls_call hc').1 hs
        obtain ⟨d', hd', rfl⟩ := mapCalls_inv hd₁
        obtain ⟨w', rfl, hw⟩ := result_some ho
        obtain ⟨ρ', hE, he⟩ := H.entryBwd _ _ _ _ _ hc (A ρ σ h1) he'
        rcases run_bwd hU (ctl_calls (H.ctl f d' hd') n) (ih f d' hd') hr ρ' m hE h2 with ⟨op, l, m₀, q⟩ | ⟨o, q1, q2⟩
        · exact .inl ((calls_call hc).2 ⟨ρ', _, he, ⟨d', hd', q⟩, rfl⟩)
        · cases q2 with
          | ret v _ m₁ _ hvw hm =>
            refine .inr ⟨v.getD u, m₁, (calls_call hc).2 ⟨ρ', _, he, ⟨d', hd', q1⟩, rfl⟩, hm, ?_⟩
            simp only at hw
            rw [hw]; exact Rs ρ σ v w' h1 hvw
      · intro ρ σ m m' h1 h2 hs
        obtain ⟨σ', o', he', ⟨d₁, hd₁, hr⟩, ho⟩ := (calls_call hc').1 hs
        obtain ⟨d', hd', rfl⟩ := mapCalls_inv hd₁
        obtain ⟨op, l, m₀, rfl⟩ := result_none.1 ho
        obtain ⟨ρ', hE, he⟩ := H.entryBwd _ _ _ _ _ hc (A ρ σ h1) he'
        rcases run_bwd hU (ctl_calls (H.ctl f d' hd') n) (ih f d' hd') hr ρ' m hE h2 with ⟨op, l, m₀, q⟩ | ⟨o, q1, q2⟩
        · exact .inl ((calls_call hc).2 ⟨ρ', _, he, ⟨d', hd', q⟩, rfl⟩)
        · cases q2 with
          | fail => exact .inr ⟨(calls_call hc).2 ⟨ρ', _, he, ⟨d', hd', q1⟩, rfl⟩, A ρ σ h1⟩

/-- Every execution of the program has a counterpart. -/
theorem pexec_fwd (H : ProgSim C okP okQ u u' P U Q k RE RM RV RA) {n g : Nat} {ρ : Env V} {m : M} {o : Outcome V M}
    (h : PExec C okP u P n g ρ m o) : ∀ σ m', RE g ρ σ → RM m m' → ∃ o', PExec (mapCalls k C) okQ u' Q n g σ m' o' ∧ Out RM (RV g) RA o o' := by
  induction h with
  | ret n g ρ m v m₁ hb =>
    intro σ m' h1 h2
    obtain ⟨d, hd, hr⟩ := hb
    obtain ⟨o', q1, q2⟩ := run_fwd (ctl_calls (H.ctl g d hd) n) (prog_step H n g d hd) hr σ m' h1 h2
    cases q2 with
    | ret _ w _ m₁' hv hm => exact ⟨_, .ret _ _ _ _ _ _ ⟨_, mapCalls_get hd, q1⟩, .ret _ _ _ _ hv hm⟩
  | here n g ρ m op l m₁ hb hc =>
    intro σ m' h1 h2
    obtain ⟨d, hd, hr⟩ := hb
    obtain ⟨o', q1, q2⟩ := run_fwd (ctl_calls (H.ctl g d hd) n) (prog_step H n g d hd) hr σ m' h1 h2
    cases q2 with
    | fail _ _ l' _ m₁' hv hm => exact ⟨_, .here _ _ _ _ _ _ _ ⟨_, mapCalls_get hd, q1⟩ hc, .fail _ _ _ _ _ hv hm⟩
  | inside n g ρ m op l m₁ f ρ' op' l₁ m₂ hb hc he hx ih =>
    intro σ m' h1 h2
    obtain ⟨d, hd, hr⟩ := hb
    obtain ⟨o', q1, q2⟩ := run_fwd (ctl_calls (H.ctl g d hd) (n + 1)) (prog_step H (n + 1) g d hd) hr σ m' h1 h2
    cases q2 with
    | fail _ _ l' _ m₁' hv hm =>
      obtain ⟨σ', hE, he'⟩ := H.entryFwd _ _ _ _ _ hc hv he
      obtain ⟨o', r1, r2⟩ := ih σ' m₁' hE hm
      cases r2 with
      | fail _ _ l₁' _ m₂' hv' hm' =>
        exact ⟨_, .inside _ _ _ _ _ _ _ _ _ _ _ _ ⟨_, mapCalls_get hd, q1⟩ hc he' r1, .fail _ _ _ _ _ hv' hm'⟩

/-- Every execution of the translated program comes from one of the program, unless that has a failure of the other kind. -/
theorem pexec_bwd (H : ProgSim C okP okQ u u' P U Q k RE RM RV RA) {n g : Nat} {σ : Env W} {m' : M'} {o' : Outcome W M'}
    (h : PExec (mapCalls k C) okQ u' Q n g σ m' o') : ∀ ρ m, RE g ρ σ → RM m m' →
      (∃ op l m₀, C.callee op = none ∧ U.sem op l m₀ none ∧ PExec C okP u U n g ρ m (.fail op l m₀)) ∨
      ∃ o, PExec C okP u P n g ρ m o ∧ Out RM (RV g) RA o o' := by
  have hU := fun n => sameOk_calls (C := C) (ok := okP) (u := u) H.same n
  induction h with
  | ret n g σ m' w m₁' hb =>
    intro ρ m h1 h2
    obtain ⟨d₁, hd₁, hr⟩ := hb
    obtain ⟨d, hd, rfl⟩ := mapCalls_inv hd₁
    rcases run_bwd (hU n) (ctl_calls (H.ctl g d hd) n) (prog_step H n g d hd) hr ρ m h1 h2 with ⟨op, l, m₀, q⟩ | ⟨o, q1, q2⟩
    · exact .inl (exists_pexec ⟨d, hd, q⟩)
    · cases q2 with
      | ret v _ m₁ _ hv hm => exact .inr ⟨_, .ret _ _ _ _ _ _ ⟨_, hd, q1⟩, .ret _ _ _ _ hv hm⟩
  | here n g σ m' op l' m₁' hb hc =>
    intro ρ m h1 h2
    obtain ⟨d₁, hd₁, hr⟩ := hb
    obtain ⟨d, hd, rfl⟩ := mapCalls_inv hd₁
    rcases run_bwd (hU n) (ctl_calls (H.ctl g d hd) n) (prog_step H n g d hd) hr ρ m h1 h2 with ⟨op, l, m₀, q⟩ | ⟨o, q1, q2⟩
    · exact .inl (exists_pexec ⟨d, hd, q⟩)
    · cases q2 with
      | fail _ l _ m₁ _ hv hm => exact .inr ⟨_, .here _ _ _ _ _ _ _ ⟨_, hd, q1⟩ hc, .fail _ _ _ _ _ hv hm⟩
  | inside n g σ m' op l' m₁' f σ' op' l₁' m₂' hb hc he' hx ih =>
    intro ρ m h1 h2
    obtain ⟨d₁, hd₁, hr⟩ := hb
    obtain ⟨d, hd, rfl⟩ := mapCalls_inv hd₁
    have hc' : C.callee op = some f := hc
    rcases run_bwd (hU (n + 1)) (ctl_calls (H.ctl g d hd) (n + 1)) (prog_step H (n + 1) g d hd) hr ρ m h1 h2 with ⟨op, l, m₀, q⟩ | ⟨o, q1, q2⟩
    · exact .inl (exists_pexec ⟨d, hd, q⟩)
    · cases q2 with
      | fail _ l _ m₁ _ hv hm =>
        obtain ⟨ρ', hE, he⟩ := H.entryBwd _ _ _ _ _ hc' hv he'
        rcases ih ρ' m₁ hE hm with ⟨op₂, l₂, m₂, q3, q4, q5⟩ | ⟨o, r1, r2⟩
        · refine .inl ⟨op₂, l₂, m₂, q3, q4, .inside _ _ _ _ op l m₁ f ρ' _ _ _ ⟨d, hd, (hU (n + 1)).run q1 ?_⟩ hc' he q5⟩
          intro op₃ l₃ m₃ e _
          cases e
          obtain ⟨_, _, _, hbody⟩ := q5.body
          exact (calls_call hc').2 ⟨ρ', _, he, hbody, rfl⟩
        · cases r2 with
          | fail _ l₂ _ m₂ _ hv' hm' =>
            exact .inr ⟨_, .inside _ _ _ _ _ _ _ _ _ _ _ _ ⟨_, hd, q1⟩ hc' he r1, .fail _ _ _ _ _ hv' hm'⟩
end

/-! ## The generated code -/

section
variable {V M : Type} [DecidableEq V] {C : Calls V} {ok : Nat → Env V → Prop} {u : V} {P : Params V M} {code : FnDef V → Gen V}

theorem enter_iff {g : Nat} {σ : Env V} {args : List V} : BEnter C ok g σ args ↔ Enter C ok g σ args := by
  constructor
  · rintro ⟨d, h1, h2, h3⟩; exact ⟨h2, d, h1, h3.symm⟩
  · rintro ⟨h2, d, h1, h3⟩; exact ⟨d, h1, h2, h3.symm⟩

theorem returned_eq (o : Outcome V M) : returned u o = result u o := by
  cases o with
  | ret v m => cases v <;> rfl
  | fail => rfl

/-- The generated code of a function executes like the function. -/
def CodeOk (C : Calls V) (code : FnDef V → Gen V) : Prop :=
  ∀ (M : Type) (P : Params V M) (g : Nat) d, C.funcs[g]? = some d → ∀ σ m o,
    Run P d.body 0 σ m o ↔ ∃ k, BRun P (code d) k (code d (.real 0)) ⟨σ, m, none⟩ o

theorem bcalls_eq (H : CodeOk C code) (n : Nat) : bcalls C ok u code P n = calls C ok u P n := by
  induction n with
  | zero =>
    have : ∀ op args m r, (bcalls C ok u code P 0).sem op args m r = (calls C ok u P 0).sem op args m r := fun op args m r =>
      propext (calls_zero.symm)
    have hs : (bcalls C ok u code P 0).sem = (calls C ok u P 0).sem := by funext op args m r; exact this op args m r
    show { P with sem := (bcalls C ok u code P 0).sem } = { P with sem := (calls C ok u P 0).sem }
    rw [hs]
  | succ n ih =>
    have : ∀ op args m r, (bcalls C ok u code P (n + 1)).sem op args m r ↔ (calls C ok u P (n + 1)).sem op args m r := by
      intro op args m r
      simp only [bcalls, calls]
      cases hc : C.callee op with
      | none => exact Iff.rfl
      | some g =>
        simp only [ih]
        constructor
        · rintro ⟨d, σ, k, o, hd, he, hr, hx⟩
          exact ⟨σ, o, enter_iff.1 he, ⟨d, hd, (H M _ g d hd σ m o).2 ⟨k, hr⟩⟩, by rw [hx, returned_eq]⟩
        · rintro ⟨σ, o, he, ⟨d, hd, hr⟩, hx⟩
          obtain ⟨k, hk⟩ := (H M _ g d hd σ m o).1 hr
          exact ⟨d, σ, k, o, hd, enter_iff.2 he, hk, by rw [hx, returned_eq]⟩
    have hs : (bcalls C ok u code P (n + 1)).sem = (calls C ok u P (n + 1)).sem := by
      funext op args m r; exact propext (this op args m r)
    show { P with sem := (bcalls C ok u code P (n + 1)).sem } = { P with sem := (calls C ok u P (n + 1)).sem }
    rw [hs]

theorem bexec_iff (H : CodeOk C code) {n g : Nat} {σ : Env V} {m : M} {o : Outcome V M} :
    BExec C ok u code P n g σ m o ↔ PExec C ok u P n g σ m o := by
  constructor
  · intro h
    induction h with
    | ret n g d σ m k v m' hd hr =>
      rw [bcalls_eq H] at hr
      exact .ret _ _ _ _ _ _ ⟨d, hd, (H M _ g d hd _ _ _).2 ⟨k, hr⟩⟩
    | here n g d σ m k op l m' hd hr hc =>
      rw [bcalls_eq H] at hr
      exact .here _ _ _ _ _ _ _ ⟨d, hd, (H M _ g d hd _ _ _).2 ⟨k, hr⟩⟩ hc
    | inside n g d σ m k op l m' h σ' op' l' m'' hd hr hc he _ ih =>
      rw [bcalls_eq H] at hr
      exact .inside _ _ _ _ _ _ _ _ _ _ _ _ ⟨d, hd, (H M _ g d hd _ _ _).2 ⟨k, hr⟩⟩ hc (enter_iff.1 he) ih
  · intro h
    induction h with
    | ret n g σ m v m' hb =>
      obtain ⟨d, hd, hr⟩ := hb
      obtain ⟨k, hk⟩ := (H M _ g d hd _ _ _).1 hr
      exact .ret _ _ d _ _ k _ _ hd (by rw [bcalls_eq H]; exact hk)
    | here n g σ m op l m' hb hc =>
      obtain ⟨d, hd, hr⟩ := hb
      obtain ⟨k, hk⟩ := (H M _ g d hd _ _ _).1 hr
      exact .here _ _ d _ _ k _ _ _ hd (by rw [bcalls_eq H]; exact hk) hc
    | inside n g σ m op l m' f σ' op' l' m'' hb hc he _ ih =>
      obtain ⟨d, hd, hr⟩ := hb
      obtain ⟨k, hk⟩ := (H M _ g d hd _ _ _).1 hr
      exact .inside _ _ d _ _ k _ _ _ _ _ _ _ _ hd (by rw [bcalls_eq H]; exact hk) hc (enter_iff.2 he) ih
end

/-! ## Kinds of failures -/

/-- The operations with the failures of those satisfying `C`. -/
def only {V M : Type} (P : Params V M) (C : Nat → Prop) : Params V M :=
  { P with sem := fun op args m r => P.sem op args m r ∧ (r = none → C op) }

section
variable {V M : Type} [DecidableEq V] {C : Calls V} {ok : Nat → Env V → Prop} {u : V} {P Q : Params V M}

theorem covers_restrict (R : M → Prop) : Covers P (restrict P R) R :=
  ⟨rfl, rfl, rfl, rfl, fun _ _ _ _ _ h1 h2 => ⟨h1, fun _ _ e => by cases e; exact h2⟩⟩

theorem covers_only (D : Nat → Prop) : Covers P (only P D) (fun _ => True) :=
  ⟨rfl, rfl, rfl, rfl, fun _ _ _ _ _ h1 _ => ⟨h1, fun e => by cases e⟩⟩

theorem grows_true : Grows P (fun _ _ => True) :=
  ⟨fun _ => trivial, fun _ _ _ _ _ => trivial, fun _ _ _ _ _ _ => trivial, fun _ _ => trivial, fun _ _ => trivial⟩

theorem pexec_only {D : Nat → Prop} {n g : Nat} {ρ : Env V} {m : M} {o : Outcome V M} (h : PExec C ok u P n g ρ m o)
    (ho : ∀ op l m', o = .fail op l m' → D op) : PExec C ok u (only P D) n g ρ m o :=
  pexec_covers (covers_only D) grows_true (fun _ _ _ _ => trivial) h trivial fun op l m' e hs => ⟨hs, fun _ => ho op l m' e⟩

theorem pexec_of_only {D : Nat → Prop} {n g : Nat} {ρ : Env V} {m : M} {o : Outcome V M} (h : PExec C ok u (only P D) n g ρ m o) :
    PExec C ok u P n g ρ m o := by
  have hc : Covers (only P D) P (fun _ => True) := ⟨rfl, rfl, rfl, rfl, fun _ _ _ _ _ h1 _ => h1.1⟩
  exact pexec_covers hc grows_true (fun _ _ _ _ => trivial) h trivial fun op l m' e hs => hs.1

theorem pexec_of_restrict {R : M → Prop} {n g : Nat} {ρ : Env V} {m : M} {o : Outcome V M} (h : PExec C ok u (restrict P R) n g ρ m o) :
    PExec C ok u P n g ρ m o := by
  have hc : Covers (restrict P R) P (fun _ => True) := ⟨rfl, rfl, rfl, rfl, fun _ _ _ _ _ h1 _ => h1.1⟩
  exact pexec_covers hc grows_true (fun _ _ _ _ => trivial) h trivial fun op l m' e hs => hs.1

theorem pexec_restrict_mono {R R' : M → Prop} (hR : ∀ m, R m → R' m) {n g : Nat} {ρ : Env V} {m : M} {o : Outcome V M}
    (h : PExec C ok u (restrict P R) n g ρ m o) : PExec C ok u (restrict P R') n g ρ m o := by
  have hc : Covers (restrict P R) (restrict P R') (fun _ => True) :=
    ⟨rfl, rfl, rfl, rfl, fun _ _ _ _ _ h1 _ => ⟨h1.1, fun v m e => hR _ (h1.2 v m e)⟩⟩
  exact pexec_covers hc grows_true (fun _ _ _ _ => trivial) h trivial fun op l m' e hs => ⟨hs.1, fun v m e => hR _ (hs.2 v m e)⟩

theorem pexec_restrict {le : M → M → Prop} (G : Grows P le) {n g : Nat} {ρ : Env V} {m : M} {o : Outcome V M} (h : PExec C ok u P n g ρ m o) :
    PExec C ok u (restrict P (fun m' => le m' (E2EBv.lastMem o))) n g ρ m o :=
  pexec_covers (covers_restrict _) G (fun _ _ h1 h2 => G.trans _ _ _ h1 h2) h (G.refl _) fun op l m' e hs => ⟨hs, fun _ _ e => by cases e⟩
end

end Smack.E2EMod
