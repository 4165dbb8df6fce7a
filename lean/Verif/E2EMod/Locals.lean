/-
The values of the local variables at the start of a function in SSA form do not matter, except for those of the parameters.
-/
import Verif.Cfg.Sim
import Verif.E2EMod.Prog

set_option linter.unusedSectionVars false

namespace Smack.E2EMod

open Smack.Cfg Smack.Cfg.Spec
open Smack.E2E (mapOpd mapInstr mapPhi mapTerm mapBlock mapFn mapFn_get mapFn_get_inv)

section
variable {V M : Type} [DecidableEq V] {P : Params V M} {fn : Fn V}

/-! ### Variables that occur nowhere -/

theorem opd_agree {K : Var → Prop} {ρ σ : Env V} (h : agree K ρ σ) {o : Opd V} (ho : ∀ x, o = .var x → K x) : eval ρ o = eval σ o := by
  cases o with
  | var x => exact h x (ho x rfl)
  | const v => rfl

theorem set_agree {K : Var → Prop} {ρ σ : Env V} (h : agree K ρ σ) (d : Option Var) (v : V) : agree K (setOpt ρ d v) (setOpt σ d v) := by
  intro x hx
  cases d with
  | none => exact h x hx
  | some y =>
    simp only [setOpt]
    split
    · rfl
    · exact h x hx

theorem exec_agree {K : Var → Prop} {is : List (Instr V)} (hK : ∀ i ∈ is, ∀ x, Opd.var x ∈ i.args → K x) {ρ : Env V} {m : M} {ρ₁ : Env V} {m₁ : M}
    (h : Exec P is ρ m ρ₁ m₁) : ∀ σ, agree K ρ σ → ∃ σ₁, Exec P is σ m σ₁ m₁ ∧ agree K ρ₁ σ₁ := by
  induction h with
  | nil ρ m => exact fun σ h => ⟨σ, .nil _ _, h⟩
  | cons i is ρ m v m' ρ₂ m₂ hs _ ih =>
    intro σ ha
    have e : i.args.map (eval ρ) = i.args.map (eval σ) :=
      List.map_congr_left fun o ho => opd_agree ha fun x hx => hK i (by simp) x (hx ▸ ho)
    obtain ⟨σ₁, q1, q2⟩ := ih (fun j hj => hK j (by simp [hj])) _ (set_agree ha i.dst v)
    exact ⟨σ₁, .cons _ _ _ _ _ _ _ _ (by rw [← e]; exact hs) q1, q2⟩

theorem execFail_agree {K : Var → Prop} {is : List (Instr V)} (hK : ∀ i ∈ is, ∀ x, Opd.var x ∈ i.args → K x) {ρ : Env V} {m : M} {o : Outcome V M}
    (h : ExecFail P is ρ m o) : ∀ σ, agree K ρ σ → ExecFail P is σ m o := by
  induction h with
  | here i is ρ m hs =>
    intro σ ha
    have e : i.args.map (eval ρ) = i.args.map (eval σ) :=
      List.map_congr_left fun o ho => opd_agree ha fun x hx => hK i (by simp) x (hx ▸ ho)
    rw [e] at hs ⊢
    exact .here _ _ _ _ hs
  | there i is ρ m v m' o hs _ ih =>
    intro σ ha
    have e : i.args.map (eval ρ) = i.args.map (eval σ) :=
      List.map_congr_left fun o ho => opd_agree ha fun x hx => hK i (by simp) x (hx ▸ ho)
    exact .there _ _ _ _ _ _ _ (by rw [← e]; exact hs) (ih (fun j hj => hK j (by simp [hj])) _ (set_agree ha i.dst v))

theorem term_agree {K : Var → Prop} {ρ σ : Env V} (h : agree K ρ σ) (m : M) {t : Term V} (ht : ∀ x, Opd.var x ∈ Term.uses t → K x) :
    next P ρ m t = next P σ m t ∧ leave P ρ m t = leave P σ m t := by
  have go : ∀ o ∈ Term.uses t, eval ρ o = eval σ o := fun o ho => opd_agree h fun x hx => ht x (hx ▸ ho)
  cases t with
  | ret v => cases v with
    | none => exact ⟨rfl, rfl⟩
    | some v =>
      have := go v (by simp [Term.uses])
      exact ⟨rfl, by simp only [leave, Option.map_some, this]⟩
  | br t => exact ⟨rfl, rfl⟩
  | cbr c t f =>
    have := go c (by simp [Term.uses])
    exact ⟨by simp only [next, this], rfl⟩
  | switch c cs d =>
    have := go c (by simp [Term.uses])
    exact ⟨by simp only [next, this], rfl⟩
  | invoke n u => exact ⟨rfl, rfl⟩
  | resume v =>
    have := go v (by simp [Term.uses])
    exact ⟨rfl, by simp only [leave, this]⟩
  | unreachable => exact ⟨rfl, rfl⟩

theorem lookup_mem {β : Type} : ∀ {l : List (Nat × β)} {a : Nat} {b : β}, l.lookup a = some b → (a, b) ∈ l
  | [], _, _, h => by cases h
  | (x, y) :: l, a, b, h => by
    rw [List.lookup_cons] at h
    by_cases hx : a = x
    · subst hx; simp at h; subst h; simp
    · have : (a == x) = false := by simp [hx]
      rw [this] at h
      exact List.mem_cons_of_mem _ (lookup_mem h)

theorem enter_agree {K : Var → Prop} {ρ σ : Env V} (h : agree K ρ σ) (a : Nat) {phis : List (Phi V)}
    (hK : ∀ p ∈ phis, ∀ q ∈ p.inc, ∀ x, q.2 = Opd.var x → K x) : agree K (enter ρ a phis) (enter σ a phis) := by
  intro x hx
  unfold enter
  cases hf : phis.find? (fun p => p.var = x) with
  | none => exact h x hx
  | some p =>
    simp only
    cases hl : p.inc.lookup a with
    | none => exact h x hx
    | some o => exact opd_agree h fun y hy => hK p (List.mem_of_find?_eq_some hf) _ (lookup_mem hl) y hy

theorem run_unused {K : Var → Prop} (hK : ∀ (b : Nat) blk, fn[b]? = some blk → ∀ x, Opd.var x ∈ operands blk → K x) {b : Nat} {ρ : Env V} {m : M}
    {o : Outcome V M} (h : Run P fn b ρ m o) : ∀ σ, agree K ρ σ → Run P fn b σ m o := by
  have hbody : ∀ (b : Nat) blk, fn[b]? = some blk → ∀ i ∈ blk.body, ∀ x, Opd.var x ∈ i.args → K x := fun b blk hb i hi x hx =>
    hK b blk hb x (by simp only [operands, List.mem_append, List.mem_flatMap]; exact .inl (.inr ⟨i, hi, hx⟩))
  have hterm : ∀ (b : Nat) blk, fn[b]? = some blk → ∀ x, Opd.var x ∈ Term.uses blk.term → K x := fun b blk hb x hx =>
    hK b blk hb x (by simp only [operands, List.mem_append]; exact .inr hx)
  have hphi : ∀ (b : Nat) blk, fn[b]? = some blk → ∀ p ∈ blk.phis, ∀ q ∈ p.inc, ∀ x, q.2 = Opd.var x → K x := fun b blk hb p hp q hq x hx =>
    hK b blk hb x (by
      simp only [operands, List.mem_append, List.mem_flatMap, List.mem_map]
      exact .inl (.inl ⟨p, hp, q, hq, hx⟩))
  induction h with
  | fail b blk ρ m o hb hf => exact fun σ ha => .fail b _ _ _ _ hb (execFail_agree (hbody b blk hb) hf σ ha)
  | leave b blk ρ m ρ₁ m₁ o hb he hl =>
    intro σ ha
    obtain ⟨σ₁, q1, q2⟩ := exec_agree (hbody b blk hb) he σ ha
    exact .leave b _ _ _ _ _ _ hb q1 (by rw [← (term_agree q2 m₁ (hterm b blk hb)).2]; exact hl)
  | step b blk ρ m ρ₁ m₁ t blk' o hb he hn ht _ ih =>
    intro σ ha
    obtain ⟨σ₁, q1, q2⟩ := exec_agree (hbody b blk hb) he σ ha
    exact .step b _ _ _ _ _ t _ _ hb q1 (by rw [← (term_agree q2 m₁ (hterm b blk hb)).1]; exact hn) ht
      (ih _ (enter_agree q2 b (hphi t blk' ht)))

/-! ### Variables that are not available -/

theorem body_agree (hs : Ssa fn) {b : Nat} {blk : Block V} (hb : fn[b]? = some blk) :
    ∀ (is pre : List (Instr V)) (ρ σ : Env V) (m : M) (ρ₁ : Env V) (m₁ : M), blk.body = pre ++ is → Exec P is ρ m ρ₁ m₁ →
      agree (Avail fn b pre.length) ρ σ → ∃ σ₁, agree (AvailEnd fn b) ρ₁ σ₁ ∧ Exec P is σ m σ₁ m₁
  | [], pre, ρ, σ, m, ρ₁, m₁, hp, he, ha => by
    cases he
    refine ⟨σ, ?_, .nil _ _⟩
    intro x hx
    apply ha
    rw [List.append_nil] at hp
    rw [← hp]
    exact avail_of_end hb hx
  | i :: is, pre, ρ, σ, m, ρ₁, m₁, hp, he, ha => by
    cases he with
    | cons _ _ _ _ v m' _ _ hsem hrest =>
      rw [args_agree ha (body_uses hs hb hp)] at hsem
      obtain ⟨σ₁, h1, h2⟩ := body_agree hs hb is (pre ++ [i]) _ (setOpt σ i.dst v) _ _ _ (by rw [hp]; simp) hrest (agree_set hb hp ha v)
      exact ⟨σ₁, h1, .cons _ _ _ _ _ _ _ _ hsem h2⟩

theorem bodyFail_agree (hs : Ssa fn) {b : Nat} {blk : Block V} (hb : fn[b]? = some blk) :
    ∀ (is pre : List (Instr V)) (ρ σ : Env V) (m : M) (o : Outcome V M), blk.body = pre ++ is → ExecFail P is ρ m o →
      agree (Avail fn b pre.length) ρ σ → ExecFail P is σ m o
  | [], pre, ρ, σ, m, o, hp, he, ha => by cases he
  | i :: is, pre, ρ, σ, m, o, hp, he, ha => by
    cases he with
    | here _ _ _ _ hsem =>
      rw [args_agree ha (body_uses hs hb hp)] at hsem ⊢
      exact .here _ _ _ _ hsem
    | there _ _ _ _ v m' _ hsem hrest =>
      rw [args_agree ha (body_uses hs hb hp)] at hsem
      exact .there _ _ _ _ _ _ _ hsem (bodyFail_agree hs hb is (pre ++ [i]) _ (setOpt σ i.dst v) _ _ (by rw [hp]; simp) hrest (agree_set hb hp ha v))

theorem find_phi' {phis : List (Phi V)} {x : Var} {p : Phi V} (h : phis.find? (fun q => q.var = x) = some p) : p ∈ phis ∧ p.var = x := by
  refine ⟨List.mem_of_find?_eq_some h, ?_⟩
  have := List.find?_some h
  simpa using this

theorem run_agree (hs : Ssa fn) {b : Nat} {ρ : Env V} {m : M} {o : Outcome V M} (h : Run P fn b ρ m o) :
    ∀ σ, agree (Avail fn b 0) ρ σ → Run P fn b σ m o := by
  induction h with
  | fail b blk ρ m o hb hf => exact fun σ ha => .fail b _ _ _ _ hb (bodyFail_agree hs hb _ [] ρ σ m o rfl hf ha)
  | leave b blk ρ m ρ₁ m₁ o hb he hl =>
    intro σ ha
    obtain ⟨σ₁, q1, q2⟩ := body_agree hs hb _ [] ρ σ m ρ₁ m₁ rfl he ha
    exact .leave b _ _ _ _ _ _ hb q2 (by rw [← (term_agree q1 m₁ fun x hx => hs.term b blk hb _ hx).2]; exact hl)
  | step b blk ρ m ρ₁ m₁ t blk' o hb he hn ht _ ih =>
    intro σ ha
    obtain ⟨σ₁, q1, q2⟩ := body_agree hs hb _ [] ρ σ m ρ₁ m₁ rfl he ha
    have hedge : Edge fn b t := by
      refine ⟨blk, hb, ?_⟩
      cases hterm : blk.term with
      | ret v => rw [hterm] at hn; cases hn
      | br t' => rw [hterm] at hn; cases hn; simp [Term.succs]
      | cbr c t' f =>
        rw [hterm] at hn
        simp only [next] at hn
        split at hn <;> cases hn <;> simp [Term.succs]
      | switch c cs d =>
        rw [hterm] at hn
        simp only [next, Option.some.injEq] at hn
        cases hl : cs.find? (fun p => p.1 = eval ρ₁ c) with
        | none => simp [hl] at hn; subst hn; simp [Term.succs]
        | some p =>
          simp [hl] at hn; subst hn
          simp only [Term.succs, List.mem_append, List.mem_map]
          first
            | exact .inl ⟨p, List.mem_of_find?_eq_some hl, rfl⟩
            | exact .inr ⟨p, List.mem_of_find?_eq_some hl, rfl⟩
            | simp; exact .inr ⟨_, List.mem_of_find?_eq_some hl⟩
      | invoke n u =>
        rw [hterm] at hn
        simp only [next] at hn
        split at hn <;> cases hn <;> simp [Term.succs]
      | resume v => rw [hterm] at hn; cases hn
      | unreachable => rw [hterm] at hn; cases hn
    refine .step b _ _ _ _ _ t _ _ hb q2 (by rw [← (term_agree q1 m₁ fun x hx => hs.term b blk hb _ hx).1]; exact hn) ht (ih _ ?_)
    intro x hx
    unfold enter
    cases hf : blk'.phis.find? (fun p => p.var = x) with
    | some p =>
      obtain ⟨hp, rfl⟩ := find_phi' hf
      obtain ⟨o, ho, hav⟩ := hs.phi b t blk' hedge ht p hp
      simp only [ho]
      exact eval_agree q1 hav
    | none =>
      apply q1
      intro d hdx
      rcases hx d hdx with ⟨hne, hdom⟩ | ⟨rfl, blk'', hb'', h⟩
      · exact dom_pred hdom hne hedge
      · rw [ht] at hb''
        have := Option.some.inj hb''
        subst this
        rcases h with h | h
        · rw [List.mem_map] at h
          obtain ⟨q, hq, hqx⟩ := h
          rw [List.find?_eq_none] at hf
          exact absurd (by simpa using hqx) (hf q hq)
        · simp [dsts] at h

/-- Only the values of the parameters matter. -/
theorem run_params (hs : Ssa fn) {params : List Var} (hc : Closed params fn) {ρ σ : Env V} (ha : ∀ x ∈ params, ρ x = σ x) {m : M} {o : Outcome V M}
    (h : Run P fn 0 ρ m o) : Run P fn 0 σ m o := by
  classical
  let τ : Env V := fun x => if x ∈ params ∨ ∃ d, DefIn fn x d then σ x else ρ x
  have h1 : Run P fn 0 τ m o := by
    refine run_agree hs h τ ?_
    intro x hx
    show ρ x = if x ∈ params ∨ ∃ d, DefIn fn x d then σ x else ρ x
    split
    · next hK =>
      rcases hK with hK | ⟨d, hd⟩
      · exact ha x hK
      · exfalso
        rcases hx d hd with ⟨hne, hdom⟩ | ⟨rfl, blk, hb, hx⟩
        · exact hdom (.entry (Ne.symm hne))
        · rcases hx with hx | hx
          · rw [hc.entry blk hb] at hx; cases hx
          · simp [dsts] at hx
    · rfl
  refine run_unused (K := fun x => x ∈ params ∨ ∃ d, DefIn fn x d) hc.opds h1 σ ?_
  intro x hx
  show (if x ∈ params ∨ ∃ d, DefIn fn x d then σ x else ρ x) = σ x
  rw [if_pos hx]
end

/-! ## Programs -/

section
variable {V M : Type} [DecidableEq V] {C : Calls V} {ok ok' : Nat → Env V → Prop} {u : V} {P : Params V M}

/-- Restricting the values of the other local variables changes nothing. -/
theorem calls_locals (hs : ∀ (g : Nat) d, C.funcs[g]? = some d → Ssa d.body ∧ Closed d.params d.body) (hsub : ∀ g σ, ok' g σ → ok g σ)
    (hex : ∀ (g : Nat) d σ, C.funcs[g]? = some d → ok g σ → ∃ σ', ok' g σ' ∧ ∀ x ∈ d.params, σ x = σ' x) (n : Nat) :
    calls C ok u P n = calls C ok' u P n := by
  induction n with
  | zero => rfl
  | succ n ih =>
    have : ∀ op args m r, (calls C ok u P (n + 1)).sem op args m r ↔ (calls C ok' u P (n + 1)).sem op args m r := by
      intro op args m r
      cases hc : C.callee op with
      | none => rw [calls_leaf hc, calls_leaf hc]
      | some g =>
        rw [calls_call hc, calls_call hc, ih]
        constructor
        · rintro ⟨σ, o, ⟨h1, d, hd, h2⟩, ⟨d', hd', hr⟩, hx⟩
          rw [hd] at hd'; cases hd'
          obtain ⟨σ', q1, q2⟩ := hex g d σ hd h1
          refine ⟨σ', o, ⟨q1, d, hd, ?_⟩, ⟨d, hd, run_params (hs g d hd).1 (hs g d hd).2 q2 hr⟩, hx⟩
          rw [h2]
          exact List.map_congr_left q2
        · rintro ⟨σ, o, ⟨h1, d, hd, h2⟩, hb, hx⟩
          exact ⟨σ, o, ⟨hsub g σ h1, d, hd, h2⟩, hb, hx⟩
    have hs : (calls C ok u P (n + 1)).sem = (calls C ok' u P (n + 1)).sem := by
      funext op args m r; exact propext (this op args m r)
    show { P with sem := (calls C ok u P (n + 1)).sem } = { P with sem := (calls C ok' u P (n + 1)).sem }
    rw [hs]

theorem pexec_locals (hs : ∀ (g : Nat) d, C.funcs[g]? = some d → Ssa d.body ∧ Closed d.params d.body) (hsub : ∀ g σ, ok' g σ → ok g σ)
    (hex : ∀ (g : Nat) d σ, C.funcs[g]? = some d → ok g σ → ∃ σ', ok' g σ' ∧ ∀ x ∈ d.params, σ x = σ' x) {n g : Nat} {σ : Env V} {m : M}
    {o : Outcome V M} (h : PExec C ok u P n g σ m o) : ∀ σ', (∀ d, C.funcs[g]? = some d → ∀ x ∈ d.params, σ x = σ' x) →
      PExec C ok' u P n g σ' m o := by
  have body : ∀ {n g : Nat} {σ σ' : Env V} {m : M} {o : Outcome V M}, (∀ d, C.funcs[g]? = some d → ∀ x ∈ d.params, σ x = σ' x) →
      Body C (calls C ok u P n) g σ m o → Body C (calls C ok' u P n) g σ' m o := by
    rintro n g σ σ' m o ha ⟨d, hd, hr⟩
    rw [calls_locals hs hsub hex] at hr
    exact ⟨d, hd, run_params (hs g d hd).1 (hs g d hd).2 (ha d hd) hr⟩
  induction h with
  | ret n g σ m v m' hb => exact fun σ' ha => .ret _ _ _ _ _ _ (body ha hb)
  | here n g σ m op l m' hb hc => exact fun σ' ha => .here _ _ _ _ _ _ _ (body ha hb) hc
  | inside n g σ m op l m' f σ₁ op' l' m'' hb hc he _ ih =>
    intro σ' ha
    obtain ⟨h1, d, hd, h2⟩ := he
    obtain ⟨σ₂, q1, q2⟩ := hex f d σ₁ hd h1
    refine .inside _ _ _ _ _ _ _ _ σ₂ _ _ _ (body ha hb) hc ⟨q1, d, hd, ?_⟩ (ih σ₂ ?_)
    · rw [h2]; exact List.map_congr_left q2
    · intro d' hd'
      rw [hd] at hd'; cases hd'
      exact q2

/-- More values of the other local variables. -/
theorem pexec_weaken (hs : ∀ (g : Nat) d, C.funcs[g]? = some d → Ssa d.body ∧ Closed d.params d.body) (hsub : ∀ g σ, ok' g σ → ok g σ)
    (hex : ∀ (g : Nat) d σ, C.funcs[g]? = some d → ok g σ → ∃ σ', ok' g σ' ∧ ∀ x ∈ d.params, σ x = σ' x) {n g : Nat} {σ : Env V} {m : M}
    {o : Outcome V M} (h : PExec C ok' u P n g σ m o) : ∀ σ', (∀ d, C.funcs[g]? = some d → ∀ x ∈ d.params, σ x = σ' x) →
      PExec C ok u P n g σ' m o := by
  have body : ∀ {n g : Nat} {σ σ' : Env V} {m : M} {o : Outcome V M}, (∀ d, C.funcs[g]? = some d → ∀ x ∈ d.params, σ x = σ' x) →
      Body C (calls C ok' u P n) g σ m o → Body C (calls C ok u P n) g σ' m o := by
    rintro n g σ σ' m o ha ⟨d, hd, hr⟩
    rw [← calls_locals hs hsub hex] at hr
    exact ⟨d, hd, run_params (hs g d hd).1 (hs g d hd).2 (ha d hd) hr⟩
  induction h with
  | ret n g σ m v m' hb => exact fun σ' ha => .ret _ _ _ _ _ _ (body ha hb)
  | here n g σ m op l m' hb hc => exact fun σ' ha => .here _ _ _ _ _ _ _ (body ha hb) hc
  | inside n g σ m op l m' f σ₁ op' l' m'' hb hc he _ ih =>
    intro σ' ha
    obtain ⟨h1, d, hd, h2⟩ := he
    exact .inside _ _ _ _ _ _ _ _ σ₁ _ _ _ (body ha hb) hc ⟨hsub _ _ h1, d, hd, h2⟩ (ih σ₁ fun _ _ _ _ => rfl)
end

/-! ## Translated operands -/

section
variable {V W : Type} {k : V → W}

theorem mem_map_var {l : List (Opd V)} {x : Var} (h : Opd.var x ∈ l.map (mapOpd k)) : Opd.var x ∈ l := by
  rw [List.mem_map] at h
  obtain ⟨o, ho, e⟩ := h
  cases o with
  | var y => cases e; exact ho
  | const v => cases e

theorem closed_map {params : List Var} {fn : Fn V} (h : Closed params fn) : Closed params (mapFn k fn) where
  opds := by
    intro b blk hb x hx
    replace hb := mapFn_get_inv hb; obtain ⟨blk, hb, rfl⟩ := hb
    have : Opd.var x ∈ operands blk := by
      simp only [operands, mapBlock, List.mem_append, List.mem_flatMap] at hx ⊢
      rcases hx with (⟨p, hp, hx⟩ | ⟨i, hi, hx⟩) | hx
      · rw [List.mem_map] at hp
        obtain ⟨p, hp, rfl⟩ := hp
        refine .inl (.inl ⟨p, hp, mem_map_var (k := k) ?_⟩)
        simpa [mapPhi, List.map_map, Function.comp_def] using hx
      · rw [List.mem_map] at hi
        obtain ⟨i, hi, rfl⟩ := hi
        exact .inl (.inr ⟨i, hi, mem_map_var (k := k) hx⟩)
      · refine .inr (mem_map_var (k := k) ?_)
        cases ht : blk.term with
        | ret v => cases v <;> simpa [ht, mapTerm, Term.uses] using hx
        | _ => simpa [ht, mapTerm, Term.uses] using hx
    rcases h.opds b blk hb x this with h | ⟨d, h⟩
    · exact .inl h
    · exact .inr ⟨d, E2E.defIn_map.2 h⟩
  entry := by
    intro blk hb
    replace hb := mapFn_get_inv hb; obtain ⟨blk, hb, rfl⟩ := hb
    simp [mapBlock, h.entry blk hb]
end

end Smack.E2EMod
