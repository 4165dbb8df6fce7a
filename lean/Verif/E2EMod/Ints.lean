/-
C69: programs whose functions call each other, on integers.
-/
import Verif.E2EMod.Locals
import Verif.E2E.Props

namespace Smack.E2EMod.Ints

open Smack.IntOps Smack.Cfg Smack.Cfg.Spec
open Smack.E2E (Word mapFn mapInstr mapOpd Op InstrOk Represents EnvRel OutRel IsCheck ArgsRel ValRel konst llvm boogie)

section
variable {enc : Enc} {ops : List Op} {C : Calls Word} {sigs : Nat → Sig}

/-- One instruction as a function. -/
def single (i : Instr Word) : Fn Word := [⟨[], [i], .ret none⟩]

theorem single_ok {Γ : E2E.Ctx} {i : Instr Word} (hp : ∀ x, 1 ≤ Γ.width x) (h : InstrOk enc Γ ops i) : E2E.FnOk enc Γ ops (single i) where
  positive := hp
  instr := by
    intro b blk hb j hj
    rcases b with _ | b
    · cases hb; simp at hj; subst hj; exact h
    · cases hb
  phi := by
    intro b blk hb p hp
    rcases b with _ | b
    · cases hb; cases hp
    · cases hb
  cond := by
    intro b blk c t f hb ht
    rcases b with _ | b
    · cases hb; cases ht
    · cases hb
  term := by
    intro b blk hb
    rcases b with _ | b
    · cases hb; simp
    · cases hb

/-- Corresponding results. -/
inductive RV (enc : Enc) (s : Sig) : Option Word → Option Int → Prop where
  | none : s.ret = none → RV enc s none none
  | some (w v i) : s.ret = some w → ValRel enc w s.retReduced v i → RV enc s (some v) (some i)

/-- Corresponding arguments. -/
def RA (enc : Enc) (C : Calls Word) (sigs : Nat → Sig) (op : Nat) (l : List Word) (l' : List Int) : Prop :=
  ArgsRel enc l l' ∧ ∀ f d, C.callee op = some f → C.funcs[f]? = some d → l.length = d.params.length ∧ ∀ (j : Nat) x v i,
    d.params[j]? = some x → l[j]? = some v → l'[j]? = some i → ValRel enc ((sigs f).ctx.width x) ((sigs f).ctx.reduced x) v i

/-- The other local variables represent machine words. -/
def OkB (enc : Enc) (C : Calls Word) (sigs : Nat → Sig) (g : Nat) (σ : Env Int) : Prop :=
  ∀ d, C.funcs[g]? = some d → ∀ x, x ∉ d.params → ∃ v, ValRel enc ((sigs g).ctx.width x) ((sigs g).ctx.reduced x) v (σ x)

theorem argsRel_map {Γ : E2E.Ctx} {ρ : Env Word} {σ : Env Int} (h : EnvRel enc Γ ρ σ) (l : List (Opd Word)) :
    ArgsRel enc (l.map (eval ρ)) ((l.map (mapOpd konst)).map (eval σ)) := by
  refine ⟨by simp, ?_⟩
  intro n v i h1 h2
  simp only [List.getElem?_map, Option.map_eq_some_iff] at h1 h2
  obtain ⟨o, ho, rfl⟩ := h1
  obtain ⟨o', ⟨o'', ho'', rfl⟩, rfl⟩ := h2
  rw [ho] at ho''; cases ho''
  exact (E2E.opd_rel h o).rep

theorem getElem_idxOf {l : List Nat} {j : Nat} {x : Nat} (hn : l.Nodup) (h : l[j]? = some x) : l.idxOf x = j := by
  obtain ⟨hj, rfl⟩ := List.getElem?_eq_some_iff.1 h
  exact hn.idxOf_getElem j hj

theorem map_at {α : Type} {l : List Nat} {l' : List α} (hn : l.Nodup) (hl : l'.length = l.length) (f : Nat → α)
    (hf : ∀ (j : Nat) x a, l[j]? = some x → l'[j]? = some a → f x = a) : l.map f = l' := by
  apply List.ext_getElem?
  intro j
  rw [List.getElem?_map]
  cases hj : l[j]? with
  | none =>
    have := List.getElem?_eq_none_iff.1 hj
    simp only [Option.map_none]
    exact (List.getElem?_eq_none_iff.2 (by omega)).symm
  | some x =>
    obtain ⟨hlt, _⟩ := List.getElem?_eq_some_iff.1 hj
    have : l'[j]? = some (l'[j]'(by omega)) := List.getElem?_eq_getElem (by omega)
    rw [this]
    simp only [Option.map_some, Option.some.injEq]
    exact hf j x _ hj this

theorem at_mem {α : Type} {l : List Nat} {l' : List α} {x : Nat} (hl : l'.length = l.length) (hx : x ∈ l) :
    ∃ (j : Nat) (a : α), l[j]? = some x ∧ l'[j]? = some a := by
  obtain ⟨j, hj⟩ := List.mem_iff_getElem?.1 hx
  obtain ⟨hlt, _⟩ := List.getElem?_eq_some_iff.1 hj
  exact ⟨j, l'[j]'(by omega), hj, List.getElem?_eq_getElem (by omega)⟩

theorem prog_sim (S : Smt) (hP : ProgOk enc ops C sigs) :
    ProgSim C (Widths sigs) (OkB enc C sigs) unit (0 : Int) (only (llvm enc ops) (IsCheck ops))
      (only (llvm enc ops) (fun op => ¬ IsCheck ops op)) (boogie S enc ops) konst
      (fun g => EnvRel enc (sigs g).ctx) (fun _ _ => True) (fun g => RV enc (sigs g)) (RA enc C sigs) where
  same := ⟨rfl, rfl, rfl, rfl, fun _ _ _ _ h => ⟨h.1, fun h => by cases h⟩⟩
  ctl := by
    intro g d hd
    have hok := hP g d hd
    have hf : E2E.FnOk enc (sigs g).ctx ops (d.body.map fun b => ⟨b.phis, [], b.term⟩) := by
      refine ⟨hok.positive, ?_, ?_, ?_, ?_⟩
      · intro b blk hb i hi
        rw [List.getElem?_map, Option.map_eq_some_iff] at hb
        obtain ⟨_, _, rfl⟩ := hb
        cases hi
      · intro b blk hb p hp
        rw [List.getElem?_map, Option.map_eq_some_iff] at hb
        obtain ⟨_, h, rfl⟩ := hb
        exact hok.phi b _ h p hp
      · intro b blk c t f hb ht
        rw [List.getElem?_map, Option.map_eq_some_iff] at hb
        obtain ⟨_, h, rfl⟩ := hb
        exact hok.cond b _ c t f h ht
      · intro b blk hb
        rw [List.getElem?_map, Option.map_eq_some_iff] at hb
        obtain ⟨blk₀, h, rfl⟩ := hb
        exact hok.term b blk₀ h
    have hsim := E2E.simulates S hf
    have get : ∀ (b : Nat) blk, d.body[b]? = some blk → (d.body.map fun b => (⟨b.phis, [], b.term⟩ : Block Word))[b]? = some ⟨blk.phis, [], blk.term⟩ := by
      intro b blk h
      rw [List.getElem?_map, h]; rfl
    refine ⟨?_, ?_, ?_, ?_, hok.term⟩
    · intro b blk hb
      exact hsim.enter b ⟨blk.phis, [], blk.term⟩ (get b blk hb)
    · intro b blk c t f hb ht
      exact hsim.cond b ⟨blk.phis, [], blk.term⟩ c t f (get b blk hb) ht
    · intro b blk o hb ht ρ σ hE
      obtain ⟨r1, r2⟩ := hok.ret b blk o hb ht
      cases o with
      | none => exact .none r1.symm
      | some o =>
        have := E2E.opd_rel hE o
        exact .some _ _ _ r1.symm ⟨this.width, this.rep, fun e h => this.red e (r2 e h o rfl)⟩
    · exact fun m m' h => h
  leaf := by
    intro g d hd b blk hb i hi hc
    have hsim := E2E.simulates S (single_ok (hP g d hd).positive ((hP g d hd).instr b blk hb i hi hc))
    have ra : ∀ {l l'}, ArgsRel enc l l' → RA enc C sigs i.op l l' := fun h => ⟨h, fun f d' h' => by rw [hc] at h'; cases h'⟩
    refine ⟨?_, ?_, ?_, ?_⟩
    · intro ρ σ m m' h1 h2 v m₁ hs
      exact hsim.fwd 0 _ rfl i (by simp) ρ σ m m' h1 h2 v m₁ hs.1
    · intro ρ σ m m' h1 h2 hs
      obtain ⟨q1, q2⟩ := hsim.fwdFail 0 _ rfl i (by simp) ρ σ m m' h1 h2 (hs.2 rfl) hs.1
      exact ⟨q1, ra q2⟩
    · intro ρ σ m m' h1 h2 w m₁' hs
      rcases hsim.bwd 0 _ rfl i (by simp) ρ σ m m' h1 h2 w m₁' hs with ⟨q1, q2⟩ | ⟨v, m₁, q1, q2⟩
      · exact .inl ⟨q2, fun _ => q1⟩
      · exact .inr ⟨v, m₁, ⟨q1, fun h => by cases h⟩, q2⟩
    · intro ρ σ m m' h1 h2 hs
      obtain ⟨q1, q2⟩ := hsim.bwdFail 0 _ rfl i (by simp) ρ σ m m' h1 h2 hs
      by_cases hi : IsCheck ops i.op
      · exact .inr ⟨⟨q1, fun _ => hi⟩, ra q2⟩
      · exact .inl ⟨q1, fun _ => hi⟩
  args := by
    intro g d hd b blk hb i hi f hc ρ σ hE
    refine ⟨argsRel_map hE i.args, ?_⟩
    intro f' d' hf' hd'
    obtain ⟨a1, a2⟩ := (hP g d hd).args b blk hb i hi f' d' hf' hd'
    refine ⟨by simpa using a1, ?_⟩
    intro j x v w hj h1 h2
    simp only [mapInstr, List.getElem?_map, Option.map_eq_some_iff] at h1 h2
    obtain ⟨o, ho, rfl⟩ := h1
    obtain ⟨o', ⟨o'', ho'', rfl⟩, rfl⟩ := h2
    rw [ho] at ho''; cases ho''
    obtain ⟨b1, b2⟩ := a2 j o x ho hj
    have := E2E.opd_rel hE o
    exact ⟨this.width.trans b1, this.rep, fun e h => this.red e (b2 e h)⟩
  res := by
    intro g d hd b blk hb i hi f hc ρ σ v w hE hv
    refine E2E.setOpt_rel hE _ _ _ ?_
    intro x hx
    obtain ⟨c1, c2⟩ := (hP g d hd).call b blk hb i hi f hc x hx
    cases hv with
    | none h => rw [c1] at h; cases h
    | some w' v i h hr =>
      rw [c1] at h; cases h
      exact ⟨hr.width, hr.rep, fun e h => hr.red e (c2 e h)⟩
  entryFwd := by
    intro op f l l' ρ hc hl he
    obtain ⟨h1, d, hd, h2⟩ := he
    obtain ⟨⟨hlen, _⟩, hl⟩ := hl
    obtain ⟨q1, q2⟩ := hl f d hc hd
    have hn := (hP f d hd).nodup
    have key : ∀ x, x ∈ d.params → ∃ (j : Nat) (i : Int), d.params[j]? = some x ∧ l'[j]? = some i ∧
        ValRel enc ((sigs f).ctx.width x) ((sigs f).ctx.reduced x) (ρ x) i := by
      intro x hx
      obtain ⟨j, i, hj, hi⟩ := at_mem (l' := l') (by omega) hx
      have : l[j]? = some (ρ x) := by rw [h2, List.getElem?_map, hj]; rfl
      exact ⟨j, i, hj, hi, q2 j x _ i hj this hi⟩
    let σ : Env Int := fun x => if x ∈ d.params then (l'[d.params.idxOf x]?).getD 0 else konst (ρ x)
    have hσ : ∀ (j : Nat) x i, d.params[j]? = some x → l'[j]? = some i → σ x = i := by
      intro j x i hj hi
      have hx : x ∈ d.params := List.mem_iff_getElem?.2 ⟨j, hj⟩
      show (if x ∈ d.params then _ else _) = _
      rw [if_pos hx, getElem_idxOf hn hj, hi]; rfl
    have hrel : ∀ x, ValRel enc ((sigs f).ctx.width x) ((sigs f).ctx.reduced x) (ρ x) (σ x) := by
      intro x
      by_cases hx : x ∈ d.params
      · obtain ⟨j, i, hj, hi, hr⟩ := key x hx
        rw [hσ j x i hj hi]; exact hr
      · have hk := E2E.konst_rel enc (ρ x)
        have : σ x = konst (ρ x) := by show (if x ∈ d.params then _ else _) = _; rw [if_neg hx]
        rw [this]
        exact ⟨h1 x, hk.rep, fun e _ => hk.red e trivial⟩
    refine ⟨σ, E2E.envRel_iff.2 hrel, ?_, _, mapCalls_get hd, ?_⟩
    · intro d' hd' x _
      exact ⟨ρ x, hrel x⟩
    · exact (map_at hn (by omega) σ hσ).symm
  entryBwd := by
    intro op f l l' σ hc hl he
    obtain ⟨h1, d', hd', h2⟩ := he
    obtain ⟨d, hd, rfl⟩ := mapCalls_inv hd'
    obtain ⟨⟨hlen, _⟩, hl⟩ := hl
    obtain ⟨q1, q2⟩ := hl f d hc hd
    have hn := (hP f d hd).nodup
    have hex : ∀ x, ∃ v, ValRel enc ((sigs f).ctx.width x) ((sigs f).ctx.reduced x) v (σ x) ∧
        ∀ (j : Nat) (w : Word), d.params[j]? = some x → l[j]? = some w → v = w := by
      intro x
      by_cases hx : x ∈ d.params
      · obtain ⟨j, w, hj, hw⟩ := at_mem (l' := l) (by omega) hx
        have : l'[j]? = some (σ x) := by rw [h2, List.getElem?_map, hj]; rfl
        refine ⟨w, q2 j x w _ hj hw this, ?_⟩
        intro j' w' hj' hw'
        have e := (getElem_idxOf hn hj).symm.trans (getElem_idxOf hn hj')
        subst e
        rw [hw] at hw'; cases hw'; rfl
      · obtain ⟨v, hv⟩ := h1 d hd x hx
        refine ⟨v, hv, ?_⟩
        intro j w hj _
        exact absurd (List.mem_iff_getElem?.2 ⟨j, hj⟩) hx
    obtain ⟨ρ, hρ⟩ := Classical.axiomOfChoice hex
    refine ⟨ρ, E2E.envRel_iff.2 fun x => (hρ x).1, fun x => (hρ x).1.width, d, hd, ?_⟩
    exact (map_at hn (by omega) ρ fun j x a hj ha => (hρ x).2 j a hj ha).symm

theorem code_ok (hP : ProgOk enc ops C sigs) : CodeOk (mapCalls konst C) procCode := by
  intro M P g d' hd' σ m o
  obtain ⟨d, hd, rfl⟩ := mapCalls_inv hd'
  have hok := hP g d hd
  exact c26_normalised_executions P (mapFn konst d.body) (E2E.ssa_map hok.ssa) (E2E.plain_map hok.plain) d.loops (E2E.loops_map hok.loops) σ m o

theorem ssa_ok (hP : ProgOk enc ops C sigs) (g : Nat) (d : FnDef Int) (h : (mapCalls konst C).funcs[g]? = some d) :
    Ssa d.body ∧ Closed d.params d.body := by
  obtain ⟨d, hd, rfl⟩ := mapCalls_inv h
  exact ⟨E2E.ssa_map (hP g d hd).ssa, closed_map (hP g d hd).closed⟩

theorem locals_ok (g : Nat) (d : FnDef Int) (σ : Env Int) (h : (mapCalls konst C).funcs[g]? = some d) :
    ∃ σ', OkB enc C sigs g σ' ∧ ∀ x ∈ d.params, σ x = σ' x := by
  obtain ⟨d, hd, rfl⟩ := mapCalls_inv h
  refine ⟨fun x => if x ∈ d.params then σ x else konst ⟨(sigs g).ctx.width x, 0⟩, ?_, ?_⟩
  · intro d' hd' x hx
    rw [hd] at hd'; cases hd'
    simp only [if_neg hx]
    have := E2E.konst_rel enc ⟨(sigs g).ctx.width x, 0⟩
    exact ⟨_, rfl, this.rep, fun e _ => this.red e trivial⟩
  · intro x hx
    simp only at hx
    simp only [if_pos hx]

theorem out_rel {g : Nat} {o : Outcome Word Unit} {o' : Outcome Int Unit}
    (h : Out (fun _ _ => True) (RV enc (sigs g)) (RA enc C sigs) o o') : OutRel enc o o' := by
  cases h with
  | ret v w m m' hv _ =>
    cases hv with
    | none => exact .retNone
    | some w v i _ h => exact .retSome _ _ h.rep
  | fail op l l' m m' hl _ => exact .fail _ _ _ hl.1.1 hl.1.2
end

section
variable (S : Smt) (enc : Enc) (ops : List Op) (C : Calls Word) (sigs : Nat → Sig)

/-- **C69, no missed failures (integers, direct calls, recursion).** Every execution of a function of the program in LLVM, calling other
functions to any depth, that returns or fails an assertion in whatever function, without undefined behaviour and operations that the
encoding does not reproduce, has a counterpart in the generated procedures, whatever the values of the local variables. -/
theorem c69_forward_int_partial (hP : ProgOk enc ops C sigs) (n g : Nat) (ρ : Env Word) (hρ : Widths sigs g ρ) (σ : Env Int)
    (hE : ParamsRel enc C sigs g ρ σ) (o : Outcome Word Unit) (h : PExec C (Widths sigs) unit (llvm enc ops) n g ρ () o)
    (ho : ∀ op l, o = .fail op l () → IsCheck ops op) :
    ∃ o', OutRel enc o o' ∧ BExec (mapCalls konst C) (fun _ _ => True) 0 procCode (boogie S enc ops) n g σ () o' := by
  classical
  have hr := pexec_only h fun op l m' e => ho op l e
  let σ₀ : Env Int := fun x => if ∃ d, C.funcs[g]? = some d ∧ x ∈ d.params then σ x else konst (ρ x)
  have hrel : EnvRel enc (sigs g).ctx ρ σ₀ := by
    rw [E2E.envRel_iff]
    intro x
    show ValRel enc _ _ (ρ x) (if ∃ d, C.funcs[g]? = some d ∧ x ∈ d.params then σ x else konst (ρ x))
    split
    · next hx =>
      obtain ⟨d, hd, hx⟩ := hx
      obtain ⟨q1, q2⟩ := hE d hd x hx
      exact ⟨hρ x, q1, q2⟩
    · have hk := E2E.konst_rel enc (ρ x)
      exact ⟨hρ x, hk.rep, fun e _ => hk.red e trivial⟩
  obtain ⟨o', q1, q2⟩ := pexec_fwd (prog_sim S hP) hr σ₀ () hrel trivial
  refine ⟨o', out_rel q2, (bexec_iff (code_ok hP)).2 ?_⟩
  refine pexec_weaken (ssa_ok hP) (fun _ _ _ => trivial) (fun g d σ hd _ => locals_ok g d σ hd) q1 σ ?_
  intro d' hd' x hx
  obtain ⟨d, hd, rfl⟩ := mapCalls_inv hd'
  show (if ∃ d, C.funcs[g]? = some d ∧ x ∈ d.params then σ x else konst (ρ x)) = σ x
  rw [if_pos ⟨d, hd, hx⟩]

/-- **C69, no false alarms (integers, direct calls, recursion).** Every execution of a generated procedure, whatever the values of the local
variables, that returns or fails an assertion in whatever procedure comes from an execution in LLVM that returns the represented value or
fails the same assertion, unless an execution in LLVM meets undefined behaviour or an operation that the encoding does not
reproduce. -/
theorem c69_backward_int_partial (hP : ProgOk enc ops C sigs) (n g : Nat) (ρ : Env Word) (hρ : Widths sigs g ρ) (σ : Env Int)
    (hE : ParamsRel enc C sigs g ρ σ) (o' : Outcome Int Unit)
    (h : BExec (mapCalls konst C) (fun _ _ => True) 0 procCode (boogie S enc ops) n g σ () o') :
    (∃ op l, C.callee op = none ∧ ¬ IsCheck ops op ∧ PExec C (Widths sigs) unit (llvm enc ops) n g ρ () (.fail op l ())) ∨
    ∃ o, OutRel enc o o' ∧ PExec C (Widths sigs) unit (llvm enc ops) n g ρ () o := by
  classical
  let σ₀ : Env Int := fun x => if ∃ d, C.funcs[g]? = some d ∧ x ∈ d.params then σ x else konst (ρ x)
  have hrel : EnvRel enc (sigs g).ctx ρ σ₀ := by
    rw [E2E.envRel_iff]
    intro x
    show ValRel enc _ _ (ρ x) (if ∃ d, C.funcs[g]? = some d ∧ x ∈ d.params then σ x else konst (ρ x))
    split
    · next hx =>
      obtain ⟨d, hd, hx⟩ := hx
      obtain ⟨q1, q2⟩ := hE d hd x hx
      exact ⟨hρ x, q1, q2⟩
    · have hk := E2E.konst_rel enc (ρ x)
      exact ⟨hρ x, hk.rep, fun e _ => hk.red e trivial⟩
  have h1 := pexec_locals (ok' := OkB enc C sigs) (ssa_ok hP) (fun _ _ _ => trivial) (fun g d σ hd _ => locals_ok g d σ hd)
    ((bexec_iff (code_ok hP)).1 h) σ₀ (by
      intro d' hd' x hx
      obtain ⟨d, hd, rfl⟩ := mapCalls_inv hd'
      show σ x = (if ∃ d, C.funcs[g]? = some d ∧ x ∈ d.params then σ x else konst (ρ x))
      rw [if_pos ⟨d, hd, hx⟩])
  rcases pexec_bwd (prog_sim S hP) h1 ρ () hrel trivial with ⟨op, l, _, q1, q2, q3⟩ | ⟨o, q1, q2⟩
  · exact .inl ⟨op, l, q1, q2.2 rfl, pexec_of_only q3⟩
  · exact .inr ⟨o, out_rel q2, pexec_of_only q1⟩
end

end Smack.E2EMod.Ints
