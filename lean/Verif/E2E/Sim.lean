/-
Simulation between executions of a function and of the function with mapped constants, for any two semantics of the operations.
-/
import Verif.E2E.Spec

set_option linter.unusedSectionVars false

namespace Smack.E2E

open Smack.Cfg Smack.Cfg.Spec

section
variable {V W M M' : Type} [DecidableEq V] [DecidableEq W]

/-- What is needed of the operations and the operands. -/
structure Simulates (P : Params V M) (Q : Params W M') (k : V → W) (fn : Fn V) (RE : Env V → Env W → Prop) (RM : M → M' → Prop)
    (RV : V → W → Prop) (RA : List V → List W → Prop) (Obs : Nat → Prop) : Prop where
  fwd : ∀ (b : Nat) blk, fn[b]? = some blk → ∀ i ∈ blk.body, ∀ ρ σ m m', RE ρ σ → RM m m' → ∀ v m₁,
    P.sem i.op (i.args.map (eval ρ)) m (some (v, m₁)) →
    ∃ w m₁', Q.sem i.op ((mapInstr k i).args.map (eval σ)) m' (some (w, m₁')) ∧ RM m₁ m₁' ∧
      RE (setOpt ρ i.dst v) (setOpt σ i.dst w)
  fwdFail : ∀ (b : Nat) blk, fn[b]? = some blk → ∀ i ∈ blk.body, ∀ ρ σ m m', RE ρ σ → RM m m' → Obs i.op →
    P.sem i.op (i.args.map (eval ρ)) m none →
    Q.sem i.op ((mapInstr k i).args.map (eval σ)) m' none ∧ RA (i.args.map (eval ρ)) ((mapInstr k i).args.map (eval σ))
  bwd : ∀ (b : Nat) blk, fn[b]? = some blk → ∀ i ∈ blk.body, ∀ ρ σ m m', RE ρ σ → RM m m' → ∀ w m₁',
    Q.sem i.op ((mapInstr k i).args.map (eval σ)) m' (some (w, m₁')) →
    (¬ Obs i.op ∧ P.sem i.op (i.args.map (eval ρ)) m none) ∨
    ∃ v m₁, P.sem i.op (i.args.map (eval ρ)) m (some (v, m₁)) ∧ RM m₁ m₁' ∧ RE (setOpt ρ i.dst v) (setOpt σ i.dst w)
  bwdFail : ∀ (b : Nat) blk, fn[b]? = some blk → ∀ i ∈ blk.body, ∀ ρ σ m m', RE ρ σ → RM m m' →
    Q.sem i.op ((mapInstr k i).args.map (eval σ)) m' none →
    P.sem i.op (i.args.map (eval ρ)) m none ∧ RA (i.args.map (eval ρ)) ((mapInstr k i).args.map (eval σ))
  enter : ∀ (b : Nat) blk, fn[b]? = some blk → ∀ a ρ σ, RE ρ σ →
    RE (Spec.enter ρ a blk.phis) (Spec.enter σ a (blk.phis.map (mapPhi k)))
  cond : ∀ (b : Nat) blk c t f, fn[b]? = some blk → blk.term = .cbr c t f → ∀ ρ σ, RE ρ σ →
    (eval ρ c = P.one ↔ eval σ (mapOpd k c) = Q.one)
  ret : ∀ (b : Nat) blk o, fn[b]? = some blk → blk.term = .ret (some o) → ∀ ρ σ, RE ρ σ → RV (eval ρ o) (eval σ (mapOpd k o))
  exn : ∀ m m', RM m m' → RM (P.setExn false m) (Q.setExn false m')
  term : ∀ (b : Nat) blk, fn[b]? = some blk → (∀ n u, blk.term ≠ .invoke n u) ∧ (∀ v, blk.term ≠ .resume v) ∧
    ∀ c cs d, blk.term ≠ .switch c cs d

/-- Corresponding outcomes. -/
inductive Out (RM : M → M' → Prop) (RV : V → W → Prop) (RA : List V → List W → Prop) : Outcome V M → Outcome W M' → Prop where
  | retNone (m m') : RM m m' → Out RM RV RA (.ret none m) (.ret none m')
  | retSome (v w m m') : RV v w → RM m m' → Out RM RV RA (.ret (some v) m) (.ret (some w) m')
  | fail (op l l' m m') : RA l l' → RM m m' → Out RM RV RA (.fail op l m) (.fail op l' m')

variable {P : Params V M} {Q : Params W M'} {k : V → W} {fn : Fn V} {RE : Env V → Env W → Prop} {RM : M → M' → Prop}
  {RV : V → W → Prop} {RA : List V → List W → Prop} {Obs : Nat → Prop}

omit [DecidableEq V] [DecidableEq W] in
theorem mapFn_get {fn : Fn V} {b : Nat} {blk : Block V} (h : fn[b]? = some blk) : (mapFn k fn)[b]? = some (mapBlock k blk) := by
  simp [mapFn, h]

omit [DecidableEq V] [DecidableEq W] in
theorem mapFn_get_inv {fn : Fn V} {b : Nat} {blk' : Block W} (h : (mapFn k fn)[b]? = some blk') :
    ∃ blk, fn[b]? = some blk ∧ blk' = mapBlock k blk := by
  simp only [mapFn, List.getElem?_map, Option.map_eq_some_iff] at h
  obtain ⟨blk, h1, h2⟩ := h
  exact ⟨blk, h1, h2.symm⟩

theorem exec_fwd (H : Simulates P Q k fn RE RM RV RA Obs) {b : Nat} {blk : Block V} (hb : fn[b]? = some blk)
    {is : List (Instr V)} (hi : ∀ i ∈ is, i ∈ blk.body) {ρ : Env V} {m : M} {ρ₁ : Env V} {m₁ : M} (h : Exec P is ρ m ρ₁ m₁) :
    ∀ σ m', RE ρ σ → RM m m' → ∃ σ₁ m₁', Exec Q (is.map (mapInstr k)) σ m' σ₁ m₁' ∧ RE ρ₁ σ₁ ∧ RM m₁ m₁' := by
  induction h with
  | nil ρ m => exact fun σ m' h1 h2 => ⟨σ, m', .nil _ _, h1, h2⟩
  | cons i is ρ m v m₁ ρ₂ m₂ hs _ ih =>
    intro σ m' h1 h2
    obtain ⟨w, m₁', q1, q2, q3⟩ := H.fwd b blk hb i (hi i (by simp)) ρ σ m m' h1 h2 v m₁ hs
    obtain ⟨σ₁, m₂', r1, r2, r3⟩ := ih (fun j hj => hi j (by simp [hj])) _ m₁' q3 q2
    exact ⟨σ₁, m₂', .cons _ _ _ _ _ _ _ _ q1 r1, r2, r3⟩

theorem execFail_fwd (H : Simulates P Q k fn RE RM RV RA Obs) {b : Nat} {blk : Block V} (hb : fn[b]? = some blk)
    {is : List (Instr V)} (hi : ∀ i ∈ is, i ∈ blk.body) {ρ : Env V} {m : M} {o : Outcome V M} (h : ExecFail P is ρ m o) :
    ∀ σ m', RE ρ σ → RM m m' → (∀ op l m, o = .fail op l m → Obs op) →
      ∃ o', ExecFail Q (is.map (mapInstr k)) σ m' o' ∧ Out RM RV RA o o' := by
  induction h with
  | here i is ρ m hs =>
    intro σ m' h1 h2 h3
    obtain ⟨q1, q2⟩ := H.fwdFail b blk hb i (hi i (by simp)) ρ σ m m' h1 h2 (h3 _ _ _ rfl) hs
    exact ⟨_, .here _ _ _ _ q1, .fail _ _ _ _ _ q2 h2⟩
  | there i is ρ m v m₁ o hs _ ih =>
    intro σ m' h1 h2 h3
    obtain ⟨w, m₁', q1, q2, q3⟩ := H.fwd b blk hb i (hi i (by simp)) ρ σ m m' h1 h2 v m₁ hs
    obtain ⟨o', r1, r2⟩ := ih (fun j hj => hi j (by simp [hj])) _ m₁' q3 q2 h3
    exact ⟨o', .there _ _ _ _ _ _ _ q1 r1, r2⟩

theorem exec_bwd (H : Simulates P Q k fn RE RM RV RA Obs) {b : Nat} {blk : Block V} (hb : fn[b]? = some blk) :
    ∀ (is : List (Instr V)), (∀ i ∈ is, i ∈ blk.body) → ∀ ρ m σ m' σ₁ m₁', RE ρ σ → RM m m' →
    Exec Q (is.map (mapInstr k)) σ m' σ₁ m₁' →
    (∃ op l m₀, ¬ Obs op ∧ ExecFail P is ρ m (.fail op l m₀)) ∨ ∃ ρ₁ m₁, Exec P is ρ m ρ₁ m₁ ∧ RE ρ₁ σ₁ ∧ RM m₁ m₁' := by
  intro is
  induction is with
  | nil =>
    intro _ ρ m σ m' σ₁ m₁' h1 h2 h
    cases h
    exact .inr ⟨ρ, m, .nil _ _, h1, h2⟩
  | cons i is ih =>
    intro hi ρ m σ m' σ₁ m₁' h1 h2 h
    simp only [List.map_cons] at h
    cases h with
    | cons _ _ _ _ w m₂' _ _ hs hr =>
      rcases H.bwd b blk hb i (hi i (by simp)) ρ σ m m' h1 h2 w m₂' hs with ⟨q1, q2⟩ | ⟨v, m₂, q1, q2, q3⟩
      · exact .inl ⟨_, _, _, q1, .here _ _ _ _ q2⟩
      · rcases ih (fun j hj => hi j (by simp [hj])) _ m₂ _ m₂' σ₁ m₁' q3 q2 hr with ⟨op, l, m₀, r1, r2⟩ | ⟨ρ₁, m₁, r1, r2⟩
        · exact .inl ⟨op, l, m₀, r1, .there _ _ _ _ _ _ _ q1 r2⟩
        · exact .inr ⟨ρ₁, m₁, .cons _ _ _ _ _ _ _ _ q1 r1, r2⟩

theorem execFail_bwd (H : Simulates P Q k fn RE RM RV RA Obs) {b : Nat} {blk : Block V} (hb : fn[b]? = some blk) :
    ∀ (is : List (Instr V)), (∀ i ∈ is, i ∈ blk.body) → ∀ ρ m σ m' o', RE ρ σ → RM m m' →
    ExecFail Q (is.map (mapInstr k)) σ m' o' →
    (∃ op l m₀, ¬ Obs op ∧ ExecFail P is ρ m (.fail op l m₀)) ∨ ∃ o, ExecFail P is ρ m o ∧ Out RM RV RA o o' := by
  intro is
  induction is with
  | nil =>
    intro _ ρ m σ m' o' h1 h2 h
    cases h
  | cons i is ih =>
    intro hi ρ m σ m' o' h1 h2 h
    simp only [List.map_cons] at h
    cases h with
    | here _ _ _ _ hs =>
      obtain ⟨q1, q2⟩ := H.bwdFail b blk hb i (hi i (by simp)) ρ σ m m' h1 h2 hs
      exact .inr ⟨_, .here _ _ _ _ q1, .fail _ _ _ _ _ q2 h2⟩
    | there _ _ _ _ w m₂' _ hs hr =>
      rcases H.bwd b blk hb i (hi i (by simp)) ρ σ m m' h1 h2 w m₂' hs with ⟨q1, q2⟩ | ⟨v, m₂, q1, q2, q3⟩
      · exact .inl ⟨_, _, _, q1, .here _ _ _ _ q2⟩
      · rcases ih (fun j hj => hi j (by simp [hj])) _ m₂ _ m₂' o' q3 q2 hr with ⟨op, l, m₀, r1, r2⟩ | ⟨o, r1, r2⟩
        · exact .inl ⟨op, l, m₀, r1, .there _ _ _ _ _ _ _ q1 r2⟩
        · exact .inr ⟨o, .there _ _ _ _ _ _ _ q1 r1, r2⟩

theorem next_map (H : Simulates P Q k fn RE RM RV RA Obs) {b : Nat} {blk : Block V} (hb : fn[b]? = some blk) {ρ : Env V} {σ : Env W}
    (h : RE ρ σ) (m : M) (m' : M') : next Q σ m' (mapTerm k blk.term) = next P ρ m blk.term := by
  obtain ⟨t1, t2, t3⟩ := H.term b blk hb
  cases ht : blk.term with
  | ret v => rfl
  | br t => rfl
  | cbr c t f =>
    have := H.cond b blk c t f hb ht ρ σ h
    simp only [mapTerm, next]
    by_cases hc : eval ρ c = P.one
    · rw [if_pos hc, if_pos (this.1 hc)]
    · rw [if_neg hc, if_neg (fun h => hc (this.2 h))]
  | switch c cs d => exact absurd ht (t3 _ _ _)
  | invoke n u => exact absurd ht (t1 _ _)
  | resume v => exact absurd ht (t2 _)
  | unreachable => rfl

theorem leave_map (H : Simulates P Q k fn RE RM RV RA Obs) {b : Nat} {blk : Block V} (hb : fn[b]? = some blk) {ρ : Env V} {σ : Env W}
    (h : RE ρ σ) {m : M} {m' : M'} (hm : RM m m') :
    (leave P ρ m blk.term = none ∧ leave Q σ m' (mapTerm k blk.term) = none) ∨
    ∃ o o', leave P ρ m blk.term = some o ∧ leave Q σ m' (mapTerm k blk.term) = some o' ∧ Out RM RV RA o o' := by
  obtain ⟨t1, t2, t3⟩ := H.term b blk hb
  cases ht : blk.term with
  | ret v =>
    cases v with
    | none => exact .inr ⟨_, _, rfl, rfl, .retNone _ _ (H.exn _ _ hm)⟩
    | some o => exact .inr ⟨_, _, rfl, rfl, .retSome _ _ _ _ (H.ret b blk o hb ht ρ σ h) (H.exn _ _ hm)⟩
  | br t => exact .inl ⟨rfl, rfl⟩
  | cbr c t f => exact .inl ⟨rfl, rfl⟩
  | switch c cs d => exact absurd ht (t3 _ _ _)
  | invoke n u => exact absurd ht (t1 _ _)
  | resume v => exact absurd ht (t2 _)
  | unreachable => exact .inl ⟨rfl, rfl⟩

theorem run_fwd (H : Simulates P Q k fn RE RM RV RA Obs) {b : Nat} {ρ : Env V} {m : M} {o : Outcome V M} (h : Run P fn b ρ m o) :
    ∀ σ m', RE ρ σ → RM m m' → (∀ op l m, o = .fail op l m → Obs op) →
      ∃ o', Run Q (mapFn k fn) b σ m' o' ∧ Out RM RV RA o o' := by
  induction h with
  | fail b blk ρ m o hb hf =>
    intro σ m' h1 h2 h3
    obtain ⟨o', q1, q2⟩ := execFail_fwd H hb (fun _ h => h) hf σ m' h1 h2 h3
    exact ⟨o', .fail b _ _ _ _ (mapFn_get hb) q1, q2⟩
  | leave b blk ρ m ρ₁ m₁ o hb he hl =>
    intro σ m' h1 h2 h3
    obtain ⟨σ₁, m₁', q1, q2, q3⟩ := exec_fwd H hb (fun _ h => h) he σ m' h1 h2
    rcases leave_map H hb q2 q3 with ⟨r1, _⟩ | ⟨p, o', r1, r2, r3⟩
    · rw [hl] at r1; cases r1
    · rw [hl] at r1; cases r1
      exact ⟨o', .leave b _ _ _ _ _ _ (mapFn_get hb) q1 r2, r3⟩
  | step b blk ρ m ρ₁ m₁ t blk' o hb he hn ht _ ih =>
    intro σ m' h1 h2 h3
    obtain ⟨σ₁, m₁', q1, q2, q3⟩ := exec_fwd H hb (fun _ h => h) he σ m' h1 h2
    obtain ⟨o', r1, r2⟩ := ih _ m₁' (H.enter t blk' ht b ρ₁ σ₁ q2) q3 h3
    exact ⟨o', .step b _ _ _ _ _ t _ _ (mapFn_get hb) q1 (by rw [← hn]; exact next_map H hb q2 m₁ m₁') (mapFn_get ht) r1, r2⟩

theorem run_bwd (H : Simulates P Q k fn RE RM RV RA Obs) {b : Nat} {σ : Env W} {m' : M'} {o' : Outcome W M'}
    (h : Run Q (mapFn k fn) b σ m' o') :
    ∀ ρ m, RE ρ σ → RM m m' →
      (∃ op l m₀, ¬ Obs op ∧ Run P fn b ρ m (.fail op l m₀)) ∨ ∃ o, Run P fn b ρ m o ∧ Out RM RV RA o o' := by
  induction h with
  | fail b blk' σ m' o' hb hf =>
    intro ρ m h1 h2
    replace hb := mapFn_get_inv hb; obtain ⟨blk, hb, rfl⟩ := hb
    rcases execFail_bwd H hb _ (fun _ h => h) ρ m σ m' o' h1 h2 hf with ⟨op, l, m₀, q1, q2⟩ | ⟨o, q1, q2⟩
    · exact .inl ⟨op, l, m₀, q1, .fail b _ _ _ _ hb q2⟩
    · exact .inr ⟨o, .fail b _ _ _ _ hb q1, q2⟩
  | leave b blk' σ m' σ₁ m₁' o' hb he hl =>
    intro ρ m h1 h2
    replace hb := mapFn_get_inv hb; obtain ⟨blk, hb, rfl⟩ := hb
    rcases exec_bwd H hb _ (fun _ h => h) ρ m σ m' σ₁ m₁' h1 h2 he with ⟨op, l, m₀, q1, q2⟩ | ⟨ρ₁, m₁, q1, q2, q3⟩
    · exact .inl ⟨op, l, m₀, q1, .fail b _ _ _ _ hb q2⟩
    · have hl' : Spec.leave Q σ₁ m₁' (mapTerm k blk.term) = some o' := hl
      rcases leave_map H hb q2 q3 with ⟨_, r1⟩ | ⟨o, p, r1, r2, r3⟩
      · rw [hl'] at r1; cases r1
      · rw [hl'] at r2; cases r2
        exact .inr ⟨o, .leave b _ _ _ _ _ _ hb q1 r1, r3⟩
  | step b blk' σ m' σ₁ m₁' t blk₂ o' hb he hn ht _ ih =>
    intro ρ m h1 h2
    replace hb := mapFn_get_inv hb; obtain ⟨blk, hb, rfl⟩ := hb
    replace ht := mapFn_get_inv ht; obtain ⟨blk₂, ht, rfl⟩ := ht
    rcases exec_bwd H hb _ (fun _ h => h) ρ m σ m' σ₁ m₁' h1 h2 he with ⟨op, l, m₀, q1, q2⟩ | ⟨ρ₁, m₁, q1, q2, q3⟩
    · exact .inl ⟨op, l, m₀, q1, .fail b _ _ _ _ hb q2⟩
    · have hn' : next P ρ₁ m₁ blk.term = some t := by rw [← next_map H hb q2 m₁ m₁']; exact hn
      rcases ih _ m₁ (H.enter t blk₂ ht b ρ₁ σ₁ q2) q3 with ⟨op, l, m₀, r1, r2⟩ | ⟨o, r1, r2⟩
      · exact .inl ⟨op, l, m₀, r1, .step b _ _ _ _ _ t _ _ hb q1 hn' ht r2⟩
      · exact .inr ⟨o, .step b _ _ _ _ _ t _ _ hb q1 hn' ht r1, r2⟩
end

/-! ## The conditions of C26 are preserved -/

section
variable {V W : Type} (k : V → W)

theorem succs_map (t : Term V) : (mapTerm k t).succs = t.succs := by
  cases t <;> simp [mapTerm, Term.succs]

variable {k} {fn : Fn V}

theorem edge_map {b t : Nat} : Edge (mapFn k fn) b t ↔ Edge fn b t := by
  constructor
  · rintro ⟨blk, h1, h2⟩
    replace h1 := mapFn_get_inv h1; obtain ⟨blk, h1, rfl⟩ := h1
    exact ⟨blk, h1, by rw [← succs_map k]; exact h2⟩
  · rintro ⟨blk, h1, h2⟩
    exact ⟨_, mapFn_get h1, by rw [← succs_map k] at h2; exact h2⟩

theorem avoid_map {d b : Nat} : Avoid (mapFn k fn) d b ↔ Avoid fn d b := by
  constructor
  · intro h
    induction h with
    | entry h => exact .entry h
    | step b t _ he hne ih => exact .step b t ih (edge_map.1 he) hne
  · intro h
    induction h with
    | entry h => exact .entry h
    | step b t _ he hne ih => exact .step b t ih (edge_map.2 he) hne

theorem dom_map {d b : Nat} : Dom (mapFn k fn) d b ↔ Dom fn d b := not_congr avoid_map

theorem reach_map {b : Nat} : Reach (mapFn k fn) b ↔ Reach fn b := by
  constructor
  · intro h
    induction h with
    | entry => exact .entry
    | step b t _ he ih => exact .step b t ih (edge_map.1 he)
  · intro h
    induction h with
    | entry => exact .entry
    | step b t _ he ih => exact .step b t ih (edge_map.2 he)

theorem phiVars_map (l : List (Phi V)) : (l.map (mapPhi k)).map (·.var) = l.map (·.var) := by
  rw [List.map_map]; rfl

theorem dsts_map (l : List (Instr V)) : dsts (l.map (mapInstr k)) = dsts l := by
  simp only [dsts, List.filterMap_map]; rfl

theorem defIn_map {x d : Nat} : DefIn (mapFn k fn) x d ↔ DefIn fn x d := by
  constructor
  · rintro ⟨blk, h1, h2⟩
    replace h1 := mapFn_get_inv h1; obtain ⟨blk, h1, rfl⟩ := h1
    refine ⟨blk, h1, ?_⟩
    rw [mapBlock, phiVars_map, dsts_map] at h2
    exact h2
  · rintro ⟨blk, h1, h2⟩
    refine ⟨_, mapFn_get h1, ?_⟩
    rw [mapBlock, phiVars_map, dsts_map]
    exact h2

theorem opdIs_map {p : Var → Prop} {o : Opd V} : OpdIs p (mapOpd k o) ↔ OpdIs p o := by
  cases o <;> exact Iff.rfl

theorem OpdIs.mono {p q : Var → Prop} (h : ∀ x, p x → q x) {o : Opd V} (ho : OpdIs p o) : OpdIs q o := by
  cases o with
  | var x => exact h x ho
  | const v => trivial

theorem avail_map {b i x : Nat} : Avail fn b i x → Avail (mapFn k fn) b i x := by
  intro h d hd
  rcases h d (defIn_map.1 hd) with ⟨h1, h2⟩ | ⟨h1, blk, h2, h3⟩
  · exact .inl ⟨h1, dom_map.2 h2⟩
  · refine .inr ⟨h1, _, mapFn_get h2, ?_⟩
    rw [mapBlock, phiVars_map, ← List.map_take, dsts_map]
    exact h3

theorem availEnd_map {b x : Nat} : AvailEnd fn b x → AvailEnd (mapFn k fn) b x :=
  fun h d hd => dom_map.2 (h d (defIn_map.1 hd))

theorem lookup_map (l : List (Nat × Opd V)) (b : Nat) :
    (l.map fun q => (q.1, mapOpd k q.2)).lookup b = (l.lookup b).map (mapOpd k) := by
  induction l with
  | nil => rfl
  | cons q l ih =>
    obtain ⟨a, o⟩ := q
    simp only [List.map_cons, List.lookup_cons]
    by_cases h : b == a
    · simp [h]
    · simp [h, ih]

theorem ssa_map (h : Ssa fn) : Ssa (mapFn k fn) where
  nonempty := by simpa [mapFn] using h.nonempty
  unique := fun x d d' h1 h2 => h.unique x d d' (defIn_map.1 h1) (defIn_map.1 h2)
  nodup := by
    intro b blk hb
    replace hb := mapFn_get_inv hb; obtain ⟨blk, hb, rfl⟩ := hb
    rw [mapBlock, phiVars_map, dsts_map]
    exact h.nodup b blk hb
  body := by
    intro b blk i ins hb hi o ho
    replace hb := mapFn_get_inv hb; obtain ⟨blk, hb, rfl⟩ := hb
    simp only [mapBlock, List.getElem?_map, Option.map_eq_some_iff] at hi
    obtain ⟨ins, hi, rfl⟩ := hi
    simp only [mapInstr, List.mem_map] at ho
    obtain ⟨o, ho, rfl⟩ := ho
    exact opdIs_map.2 (OpdIs.mono (fun x => avail_map) (h.body b blk i ins hb hi o ho))
  term := by
    intro b blk hb o ho
    replace hb := mapFn_get_inv hb; obtain ⟨blk, hb, rfl⟩ := hb
    have h1 : ∃ o', o' ∈ Term.uses blk.term ∧ o = mapOpd k o' := by
      simp only [mapBlock] at ho
      cases ht : blk.term with
      | ret v => cases v with
        | none => rw [ht] at ho; simp [mapTerm, Term.uses] at ho
        | some v => rw [ht] at ho; simp [mapTerm, Term.uses] at ho; exact ⟨v, by simp [Term.uses], ho⟩
      | cbr c t f => rw [ht] at ho; simp [mapTerm, Term.uses] at ho; exact ⟨c, by simp [Term.uses], ho⟩
      | switch c cs d => rw [ht] at ho; simp [mapTerm, Term.uses] at ho; exact ⟨c, by simp [Term.uses], ho⟩
      | resume v => rw [ht] at ho; simp [mapTerm, Term.uses] at ho; exact ⟨v, by simp [Term.uses], ho⟩
      | br t => rw [ht] at ho; simp [mapTerm, Term.uses] at ho
      | invoke n u => rw [ht] at ho; simp [mapTerm, Term.uses] at ho
      | unreachable => rw [ht] at ho; simp [mapTerm, Term.uses] at ho
    obtain ⟨o', h1, rfl⟩ := h1
    exact opdIs_map.2 (OpdIs.mono (fun x => availEnd_map) (h.term b blk hb o' h1))
  phi := by
    intro b t blk he hb p hp
    replace hb := mapFn_get_inv hb; obtain ⟨blk, hb, rfl⟩ := hb
    simp only [mapBlock, List.mem_map] at hp
    obtain ⟨p, hp, rfl⟩ := hp
    obtain ⟨o, h1, h2⟩ := h.phi b t blk (edge_map.1 he) hb p hp
    exact ⟨mapOpd k o, by simp only [mapPhi]; rw [lookup_map, h1]; rfl, opdIs_map.2 (OpdIs.mono (fun x => availEnd_map) h2)⟩
  phiPreds := by
    intro t blk hb p hp q hq
    replace hb := mapFn_get_inv hb; obtain ⟨blk, hb, rfl⟩ := hb
    simp only [mapBlock, List.mem_map] at hp
    obtain ⟨p, hp, rfl⟩ := hp
    simp only [mapPhi, List.mem_map] at hq
    obtain ⟨q, hq, rfl⟩ := hq
    exact edge_map.2 (h.phiPreds t blk hb p hp q hq)
  succs := fun b t he => by simpa [mapFn] using h.succs b t (edge_map.1 he)
  entry := fun b he => h.entry b (edge_map.1 he)

theorem plain_map (h : Plain fn) : Plain (mapFn k fn) where
  noSwitch := by
    intro b blk c cs d hb
    replace hb := mapFn_get_inv hb; obtain ⟨blk, hb, rfl⟩ := hb
    cases ht : blk.term with
    | switch c' cs' d' => exact absurd ht (h.noSwitch b blk c' cs' d' hb)
    | _ => simp [mapBlock, mapTerm, ht]
  distinct := by
    intro b blk hb
    replace hb := mapFn_get_inv hb; obtain ⟨blk, hb, rfl⟩ := hb
    rw [mapBlock, succs_map]
    exact h.distinct b blk hb
  invoke := by
    intro b blk n u hb ht t hmem blk' hb'
    replace hb := mapFn_get_inv hb; obtain ⟨blk, hb, rfl⟩ := hb
    replace hb' := mapFn_get_inv hb'; obtain ⟨blk', hb', rfl⟩ := hb'
    have : blk.term = .invoke n u := by
      cases h : blk.term <;> simp [mapBlock, mapTerm, h] at ht
      rw [ht.1, ht.2]
    simp [mapBlock, h.invoke b blk n u hb this t hmem blk' hb']

theorem loops_map {ls : List Loop} (h : LoopsComplete fn ls) : LoopsComplete (mapFn k fn) ls :=
  fun b t h1 h2 h3 => h b t (reach_map.1 h1) (edge_map.1 h2) (dom_map.1 h3)
end

end Smack.E2E
