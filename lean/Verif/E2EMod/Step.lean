/-
The simulation of one function whose operations may fail in two ways, one of which is preserved by the translation.
-/
import Verif.E2E.Sim
import Verif.Cfg.Props

set_option linter.unusedSectionVars false

namespace Smack.E2EMod

open Smack.Cfg Smack.Cfg.Spec
open Smack.E2E (mapOpd mapInstr mapPhi mapTerm mapBlock mapFn mapFn_get mapFn_get_inv)

/-! ## Executions of the same operations -/

section
variable {V M : Type} [DecidableEq V]

/-- The same operations as far as they do not fail. -/
structure SameOk (P Q : Params V M) : Prop where
  one : P.one = Q.one
  exn : P.exn = Q.exn
  setExn : P.setExn = Q.setExn
  setExnVal : P.setExnVal = Q.setExnVal
  sem : ∀ op args m x, P.sem op args m (some x) → Q.sem op args m (some x)

variable {P Q : Params V M}

theorem SameOk.next (h : SameOk P Q) (ρ : Env V) (m : M) (t : Term V) : next P ρ m t = next Q ρ m t := by
  cases t <;> simp only [Spec.next, h.one, h.exn]

theorem SameOk.leave (h : SameOk P Q) (ρ : Env V) (m : M) (t : Term V) : leave P ρ m t = leave Q ρ m t := by
  cases t <;> simp only [Spec.leave, h.setExn, h.setExnVal]

theorem SameOk.exec (h : SameOk P Q) {is : List (Instr V)} {ρ : Env V} {m : M} {ρ₁ : Env V} {m₁ : M} (he : Exec P is ρ m ρ₁ m₁) :
    Exec Q is ρ m ρ₁ m₁ := by
  induction he with
  | nil => exact .nil _ _
  | cons i is ρ m v m' ρ₂ m₂ hs _ ih => exact .cons _ _ _ _ _ _ _ _ (h.sem _ _ _ _ hs) ih

theorem SameOk.execFail (h : SameOk P Q) {is : List (Instr V)} {ρ : Env V} {m : M} {o : Outcome V M} (he : ExecFail P is ρ m o)
    (hf : ∀ op l m', o = .fail op l m' → P.sem op l m' none → Q.sem op l m' none) : ExecFail Q is ρ m o := by
  induction he with
  | here i is ρ m hs => exact .here _ _ _ _ (hf _ _ _ rfl hs)
  | there i is ρ m v m' o hs _ ih => exact .there _ _ _ _ _ _ _ (h.sem _ _ _ _ hs) (ih hf)

theorem SameOk.run (h : SameOk P Q) {fn : Fn V} {b : Nat} {ρ : Env V} {m : M} {o : Outcome V M} (he : Run P fn b ρ m o)
    (hf : ∀ op l m', o = .fail op l m' → P.sem op l m' none → Q.sem op l m' none) : Run Q fn b ρ m o := by
  induction he with
  | fail b blk ρ m o hb h1 => exact .fail b _ _ _ _ hb (h.execFail h1 hf)
  | leave b blk ρ m ρ₁ m₁ o hb h1 h2 => exact .leave b _ _ _ _ _ _ hb (h.exec h1) (by rw [← h.leave]; exact h2)
  | step b blk ρ m ρ₁ m₁ t blk' o hb h1 h2 ht _ ih => exact .step b _ _ _ _ _ t _ _ hb (h.exec h1) (by rw [← h.next]; exact h2) ht (ih hf)

/-- A failure is one of the operation that is observed. -/
theorem execFail_sem {is : List (Instr V)} {ρ : Env V} {m : M} {op : Nat} {l : List V} {m' : M} (h : ExecFail P is ρ m (.fail op l m')) :
    P.sem op l m' none := by
  generalize ho : Outcome.fail op l m' = o at h
  induction h with
  | here i is ρ m hs => cases ho; exact hs
  | there i is ρ m v m' o hs _ ih => exact ih ho

theorem run_sem {fn : Fn V} {b : Nat} {ρ : Env V} {m : M} {op : Nat} {l : List V} {m' : M} (h : Run P fn b ρ m (.fail op l m')) :
    P.sem op l m' none := by
  generalize ho : Outcome.fail op l m' = o at h
  induction h with
  | fail b blk ρ m o hb h1 => cases ho; exact execFail_sem h1
  | leave b blk ρ m ρ₁ m₁ o hb h1 h2 => cases ho; cases ht : blk.term <;> simp [ht, Spec.leave] at h2
  | step b blk ρ m ρ₁ m₁ t blk' o hb h1 h2 ht _ ih => exact ih ho
end

/-! ## Simulation of one function -/

section
variable {V W M M' : Type} [DecidableEq V] [DecidableEq W]

/-- Corresponding outcomes. -/
inductive Out (RM : M → M' → Prop) (RV : Option V → Option W → Prop) (RA : Nat → List V → List W → Prop) : Outcome V M → Outcome W M' → Prop where
  | ret (v w m m') : RV v w → RM m m' → Out RM RV RA (.ret v m) (.ret w m')
  | fail (op l l' m m') : RA op l l' → RM m m' → Out RM RV RA (.fail op l m) (.fail op l' m')

/-- What is needed of an instruction; `P` has the failures that are preserved, `U` the others. -/
structure StepSim (P U : Params V M) (Q : Params W M') (k : V → W) (i : Instr V) (RE : Env V → Env W → Prop) (RM : M → M' → Prop)
    (RA : Nat → List V → List W → Prop) : Prop where
  fwd : ∀ ρ σ m m', RE ρ σ → RM m m' → ∀ v m₁, P.sem i.op (i.args.map (eval ρ)) m (some (v, m₁)) →
    ∃ w m₁', Q.sem i.op ((mapInstr k i).args.map (eval σ)) m' (some (w, m₁')) ∧ RM m₁ m₁' ∧ RE (setOpt ρ i.dst v) (setOpt σ i.dst w)
  fwdFail : ∀ ρ σ m m', RE ρ σ → RM m m' → P.sem i.op (i.args.map (eval ρ)) m none →
    Q.sem i.op ((mapInstr k i).args.map (eval σ)) m' none ∧ RA i.op (i.args.map (eval ρ)) ((mapInstr k i).args.map (eval σ))
  bwd : ∀ ρ σ m m', RE ρ σ → RM m m' → ∀ w m₁', Q.sem i.op ((mapInstr k i).args.map (eval σ)) m' (some (w, m₁')) →
    U.sem i.op (i.args.map (eval ρ)) m none ∨
    ∃ v m₁, P.sem i.op (i.args.map (eval ρ)) m (some (v, m₁)) ∧ RM m₁ m₁' ∧ RE (setOpt ρ i.dst v) (setOpt σ i.dst w)
  bwdFail : ∀ ρ σ m m', RE ρ σ → RM m m' → Q.sem i.op ((mapInstr k i).args.map (eval σ)) m' none →
    U.sem i.op (i.args.map (eval ρ)) m none ∨
    (P.sem i.op (i.args.map (eval ρ)) m none ∧ RA i.op (i.args.map (eval ρ)) ((mapInstr k i).args.map (eval σ)))

/-- What is needed of the control flow of a function. -/
structure CtlSim (P : Params V M) (Q : Params W M') (k : V → W) (fn : Fn V) (RE : Env V → Env W → Prop) (RM : M → M' → Prop)
    (RV : Option V → Option W → Prop) : Prop where
  enter : ∀ (b : Nat) blk, fn[b]? = some blk → ∀ a ρ σ, RE ρ σ →
    RE (Spec.enter ρ a blk.phis) (Spec.enter σ a (blk.phis.map (mapPhi k)))
  cond : ∀ (b : Nat) blk c t f, fn[b]? = some blk → blk.term = .cbr c t f → ∀ ρ σ, RE ρ σ →
    (eval ρ c = P.one ↔ eval σ (mapOpd k c) = Q.one)
  ret : ∀ (b : Nat) blk o, fn[b]? = some blk → blk.term = .ret o → ∀ ρ σ, RE ρ σ → RV (o.map (eval ρ)) ((o.map (mapOpd k)).map (eval σ))
  exn : ∀ m m', RM m m' → RM (P.setExn false m) (Q.setExn false m')
  term : ∀ (b : Nat) blk, fn[b]? = some blk → (∀ n u, blk.term ≠ .invoke n u) ∧ (∀ v, blk.term ≠ .resume v) ∧
    ∀ c cs d, blk.term ≠ .switch c cs d

variable {P U : Params V M} {Q : Params W M'} {k : V → W} {fn : Fn V} {RE : Env V → Env W → Prop} {RM : M → M' → Prop}
  {RV : Option V → Option W → Prop} {RA : Nat → List V → List W → Prop}

theorem exec_fwd {is : List (Instr V)} (H : ∀ i ∈ is, StepSim P U Q k i RE RM RA) {ρ : Env V} {m : M} {ρ₁ : Env V} {m₁ : M}
    (h : Exec P is ρ m ρ₁ m₁) :
    ∀ σ m', RE ρ σ → RM m m' → ∃ σ₁ m₁', Exec Q (is.map (mapInstr k)) σ m' σ₁ m₁' ∧ RE ρ₁ σ₁ ∧ RM m₁ m₁' := by
  induction h with
  | nil ρ m => exact fun σ m' h1 h2 => ⟨σ, m', .nil _ _, h1, h2⟩
  | cons i is ρ m v m₁ ρ₂ m₂ hs _ ih =>
    intro σ m' h1 h2
    obtain ⟨w, m₁', q1, q2, q3⟩ := (H i (by simp)).fwd ρ σ m m' h1 h2 v m₁ hs
    obtain ⟨σ₁, m₂', r1, r2, r3⟩ := ih (fun j hj => H j (by simp [hj])) _ m₁' q3 q2
    exact ⟨σ₁, m₂', .cons _ _ _ _ _ _ _ _ q1 r1, r2, r3⟩

theorem execFail_fwd {is : List (Instr V)} (H : ∀ i ∈ is, StepSim P U Q k i RE RM RA) {ρ : Env V} {m : M} {o : Outcome V M}
    (h : ExecFail P is ρ m o) :
    ∀ σ m', RE ρ σ → RM m m' → ∃ o', ExecFail Q (is.map (mapInstr k)) σ m' o' ∧ Out RM RV RA o o' := by
  induction h with
  | here i is ρ m hs =>
    intro σ m' h1 h2
    obtain ⟨q1, q2⟩ := (H i (by simp)).fwdFail ρ σ m m' h1 h2 hs
    exact ⟨_, .here _ _ _ _ q1, .fail _ _ _ _ _ q2 h2⟩
  | there i is ρ m v m₁ o hs _ ih =>
    intro σ m' h1 h2
    obtain ⟨w, m₁', q1, q2, q3⟩ := (H i (by simp)).fwd ρ σ m m' h1 h2 v m₁ hs
    obtain ⟨o', r1, r2⟩ := ih (fun j hj => H j (by simp [hj])) _ m₁' q3 q2
    exact ⟨o', .there _ _ _ _ _ _ _ q1 r1, r2⟩

theorem exec_bwd (hPU : SameOk P U) : ∀ (is : List (Instr V)), (∀ i ∈ is, StepSim P U Q k i RE RM RA) → ∀ ρ m σ m' σ₁ m₁', RE ρ σ → RM m m' →
    Exec Q (is.map (mapInstr k)) σ m' σ₁ m₁' →
    (∃ op l m₀, ExecFail U is ρ m (.fail op l m₀)) ∨ ∃ ρ₁ m₁, Exec P is ρ m ρ₁ m₁ ∧ RE ρ₁ σ₁ ∧ RM m₁ m₁' := by
  intro is
  induction is with
  | nil =>
    intro _ ρ m σ m' σ₁ m₁' h1 h2 h
    cases h
    exact .inr ⟨ρ, m, .nil _ _, h1, h2⟩
  | cons i is ih =>
    intro H ρ m σ m' σ₁ m₁' h1 h2 h
    simp only [List.map_cons] at h
    cases h with
    | cons _ _ _ _ w m₂' _ _ hs hr =>
      rcases (H i (by simp)).bwd ρ σ m m' h1 h2 w m₂' hs with q | ⟨v, m₂, q1, q2, q3⟩
      · exact .inl ⟨_, _, _, .here _ _ _ _ q⟩
      · rcases ih (fun j hj => H j (by simp [hj])) _ m₂ _ m₂' σ₁ m₁' q3 q2 hr with ⟨op, l, m₀, r⟩ | ⟨ρ₁, m₁, r1, r2⟩
        · exact .inl ⟨op, l, m₀, .there _ _ _ _ _ _ _ (hPU.sem _ _ _ _ q1) r⟩
        · exact .inr ⟨ρ₁, m₁, .cons _ _ _ _ _ _ _ _ q1 r1, r2⟩

theorem execFail_bwd (hPU : SameOk P U) : ∀ (is : List (Instr V)), (∀ i ∈ is, StepSim P U Q k i RE RM RA) → ∀ ρ m σ m' o', RE ρ σ → RM m m' →
    ExecFail Q (is.map (mapInstr k)) σ m' o' →
    (∃ op l m₀, ExecFail U is ρ m (.fail op l m₀)) ∨ ∃ o, ExecFail P is ρ m o ∧ Out RM RV RA o o' := by
  intro is
  induction is with
  | nil =>
    intro _ ρ m σ m' o' h1 h2 h
    cases h
  | cons i is ih =>
    intro H ρ m σ m' o' h1 h2 h
    simp only [List.map_cons] at h
    cases h with
    | here _ _ _ _ hs =>
      rcases (H i (by simp)).bwdFail ρ σ m m' h1 h2 hs with q | ⟨q1, q2⟩
      · exact .inl ⟨_, _, _, .here _ _ _ _ q⟩
      · exact .inr ⟨_, .here _ _ _ _ q1, .fail _ _ _ _ _ q2 h2⟩
    | there _ _ _ _ w m₂' _ hs hr =>
      rcases (H i (by simp)).bwd ρ σ m m' h1 h2 w m₂' hs with q | ⟨v, m₂, q1, q2, q3⟩
      · exact .inl ⟨_, _, _, .here _ _ _ _ q⟩
      · rcases ih (fun j hj => H j (by simp [hj])) _ m₂ _ m₂' o' q3 q2 hr with ⟨op, l, m₀, r⟩ | ⟨o, r1, r2⟩
        · exact .inl ⟨op, l, m₀, .there _ _ _ _ _ _ _ (hPU.sem _ _ _ _ q1) r⟩
        · exact .inr ⟨o, .there _ _ _ _ _ _ _ q1 r1, r2⟩

theorem next_map (H : CtlSim P Q k fn RE RM RV) {b : Nat} {blk : Block V} (hb : fn[b]? = some blk) {ρ : Env V} {σ : Env W}
    (h : RE ρ σ) (m : M) (m' : M') : next Q σ m' (mapTerm k blk.term) = next P ρ m blk.term := by
  obtain ⟨t1, t2, t3⟩ := H.term b blk hb
  cases ht : blk.term with
  | ret v => rfl
  | br t => rfl
  | cbr c t f =>
    have := H.cond b blk c t f hb ht ρ σ h
    simp only [mapTerm, next]
    by_cases hc : eval ρ c = P.one
    · rw [if_pos hc, if_pos (this.1 hc)]
    · rw [if_neg hc, if_neg (fun h => hc (this.2 h))]
  | switch c cs d => exact absurd ht (t3 _ _ _)
  | invoke n u => exact absurd ht (t1 _ _)
  | resume v => exact absurd ht (t2 _)
  | unreachable => rfl

theorem leave_map (H : CtlSim P Q k fn RE RM RV) {b : Nat} {blk : Block V} (hb : fn[b]? = some blk) {ρ : Env V} {σ : Env W}
    (h : RE ρ σ) {m : M} {m' : M'} (hm : RM m m') :
    (leave P ρ m blk.term = none ∧ leave Q σ m' (mapTerm k blk.term) = none) ∨
    ∃ o o', leave P ρ m blk.term = some o ∧ leave Q σ m' (mapTerm k blk.term) = some o' ∧ Out RM RV RA o o' := by
  obtain ⟨t1, t2, t3⟩ := H.term b blk hb
  cases ht : blk.term with
  | ret v => exact .inr ⟨_, _, rfl, rfl, .ret _ _ _ _ (H.ret b blk v hb ht ρ σ h) (H.exn _ _ hm)⟩
  | br t => exact .inl ⟨rfl, rfl⟩
  | cbr c t f => exact .inl ⟨rfl, rfl⟩
  | switch c cs d => exact absurd ht (t3 _ _ _)
  | invoke n u => exact absurd ht (t1 _ _)
  | resume v => exact absurd ht (t2 _)
  | unreachable => exact .inl ⟨rfl, rfl⟩

theorem run_fwd (H : CtlSim P Q k fn RE RM RV) (HI : ∀ (b : Nat) blk, fn[b]? = some blk → ∀ i ∈ blk.body, StepSim P U Q k i RE RM RA)
    {b : Nat} {ρ : Env V} {m : M} {o : Outcome V M} (h : Run P fn b ρ m o) :
    ∀ σ m', RE ρ σ → RM m m' → ∃ o', Run Q (mapFn k fn) b σ m' o' ∧ Out RM RV RA o o' := by
  induction h with
  | fail b blk ρ m o hb hf =>
    intro σ m' h1 h2
    obtain ⟨o', q1, q2⟩ := execFail_fwd (HI b blk hb) hf σ m' h1 h2
    exact ⟨o', .fail b _ _ _ _ (mapFn_get hb) q1, q2⟩
  | leave b blk ρ m ρ₁ m₁ o hb he hl =>
    intro σ m' h1 h2
    obtain ⟨σ₁, m₁', q1, q2, q3⟩ := exec_fwd (HI b blk hb) he σ m' h1 h2
    rcases leave_map (RA := RA) H hb q2 q3 with ⟨r1, _⟩ | ⟨p, o', r1, r2, r3⟩
    · rw [hl] at r1; cases r1
    · rw [hl] at r1; cases r1
      exact ⟨o', .leave b _ _ _ _ _ _ (mapFn_get hb) q1 r2, r3⟩
  | step b blk ρ m ρ₁ m₁ t blk' o hb he hn ht _ ih =>
    intro σ m' h1 h2
    obtain ⟨σ₁, m₁', q1, q2, q3⟩ := exec_fwd (HI b blk hb) he σ m' h1 h2
    obtain ⟨o', r1, r2⟩ := ih _ m₁' (H.enter t blk' ht b ρ₁ σ₁ q2) q3
    exact ⟨o', .step b _ _ _ _ _ t _ _ (mapFn_get hb) q1 (by rw [← hn]; exact next_map H hb q2 m₁ m₁') (mapFn_get ht) r1, r2⟩

theorem run_bwd (hPU : SameOk P U) (H : CtlSim P Q k fn RE RM RV)
    (HI : ∀ (b : Nat) blk, fn[b]? = some blk → ∀ i ∈ blk.body, StepSim P U Q k i RE RM RA) {b : Nat} {σ : Env W} {m' : M'} {o' : Outcome W M'}
    (h : Run Q (mapFn k fn) b σ m' o') :
    ∀ ρ m, RE ρ σ → RM m m' →
      (∃ op l m₀, Run U fn b ρ m (.fail op l m₀)) ∨ ∃ o, Run P fn b ρ m o ∧ Out RM RV RA o o' := by
  induction h with
  | fail b blk' σ m' o' hb hf =>
    intro ρ m h1 h2
    replace hb := mapFn_get_inv hb; obtain ⟨blk, hb, rfl⟩ := hb
    rcases execFail_bwd (RV := RV) hPU _ (HI b blk hb) ρ m σ m' o' h1 h2 hf with ⟨op, l, m₀, q⟩ | ⟨o, q1, q2⟩
    · exact .inl ⟨op, l, m₀, .fail b _ _ _ _ hb q⟩
    · exact .inr ⟨o, .fail b _ _ _ _ hb q1, q2⟩
  | leave b blk' σ m' σ₁ m₁' o' hb he hl =>
    intro ρ m h1 h2
    replace hb := mapFn_get_inv hb; obtain ⟨blk, hb, rfl⟩ := hb
    rcases exec_bwd hPU _ (HI b blk hb) ρ m σ m' σ₁ m₁' h1 h2 he with ⟨op, l, m₀, q⟩ | ⟨ρ₁, m₁, q1, q2, q3⟩
    · exact .inl ⟨op, l, m₀, .fail b _ _ _ _ hb q⟩
    · have hl' : Spec.leave Q σ₁ m₁' (mapTerm k blk.term) = some o' := hl
      rcases leave_map (RA := RA) H hb q2 q3 with ⟨_, r1⟩ | ⟨o, p, r1, r2, r3⟩
      · rw [hl'] at r1; cases r1
      · rw [hl'] at r2; cases r2
        exact .inr ⟨o, .leave b _ _ _ _ _ _ hb q1 r1, r3⟩
  | step b blk' σ m' σ₁ m₁' t blk₂ o' hb he hn ht _ ih =>
    intro ρ m h1 h2
    replace hb := mapFn_get_inv hb; obtain ⟨blk, hb, rfl⟩ := hb
    replace ht := mapFn_get_inv ht; obtain ⟨blk₂, ht, rfl⟩ := ht
    rcases exec_bwd hPU _ (HI b blk hb) ρ m σ m' σ₁ m₁' h1 h2 he with ⟨op, l, m₀, q⟩ | ⟨ρ₁, m₁, q1, q2, q3⟩
    · exact .inl ⟨op, l, m₀, .fail b _ _ _ _ hb q⟩
    · have hn' : next P ρ₁ m₁ blk.term = some t := by rw [← next_map H hb q2 m₁ m₁']; exact hn
      rcases ih _ m₁ (H.enter t blk₂ ht b ρ₁ σ₁ q2) q3 with ⟨op, l, m₀, r⟩ | ⟨o, r1, r2⟩
      · exact .inl ⟨op, l, m₀, .step b _ _ _ _ _ t _ _ hb (hPU.exec q1) (by rw [← hPU.next]; exact hn') ht r⟩
      · exact .inr ⟨o, .step b _ _ _ _ _ t _ _ hb q1 hn' ht r1, r2⟩
end

end Smack.E2EMod
