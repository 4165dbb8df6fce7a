/-
C69: programs whose functions call each other, in bit-vector mode with memory, from LLVM executions to executions of the generated Boogie code.
-/
import Verif.E2EMod.Prog
import Verif.E2EBv.Props

namespace Smack.E2EMod.Bv

open Smack.IntOps (Smt)
open Smack.Cfg Smack.Cfg.Spec
open Smack.E2E (Word mapFn mapInstr)
open Smack.MemSplit (Static Event Content Sound Typed Layout Node)
open Smack.E2EBv (HEv RL RB Start Follows lastHeap Ctx Module LState BState Ptr ModuleOk InstrOk VarsTyped MemRel OutRel IsCheck EnvRel MR restrict Grows llvm boogie konst)

/-! ## The simulation -/

section
variable {md : Module} {C : Calls Word} {sigs : Nat → Sig}

/-- One instruction as a function. -/
def single (i : Instr Word) : Fn Word := [⟨[], [i], .ret none⟩]

theorem single_ok {Γ : Ctx} {i : Instr Word} (h : InstrOk Γ md i) : E2EBv.FnOk Γ md (single i) where
  instr := by
    intro b blk hb j hj
    rcases b with _ | b
    · cases hb; simp at hj; subst hj; exact h
    · cases hb
  phi := by
    intro b blk hb p hp
    rcases b with _ | b
    · cases hb; cases hp
    · cases hb
  term := by
    intro b blk hb
    rcases b with _ | b
    · cases hb; simp
    · cases hb

def RV (sigs : Nat → Sig) (g : Nat) (v w : Option Word) : Prop := v = w ∧ v.map (·.1) = (sigs g).ret

theorem eval_width {Γ : Ctx} {ρ : Env Word} (h : ∀ x, (ρ x).1 = Γ x) (o : Opd Word) : (eval ρ o).1 = Γ.opd o := by
  cases o with
  | var x => exact h x
  | const c => rfl

theorem prog_sim (S : Smt) (hP : ProgOk md C sigs) {T T' : List (Event Ptr)} (hT : T <+: T') (hS : Sound md.D md.prog T)
    (hmax : ∀ e, T ++ [e] <+: T' → ¬ Sound md.D md.prog (T ++ [e])) (hL : Layout md.mode md.prog md.stmts md.decls T) (H : List HEv) :
    ProgSim C (Widths sigs) (Widths sigs) unit unit (only (restrict (llvm md) (RL T H)) (IsCheck md))
      (only (restrict (llvm md) (RL T H)) (fun op => ¬ IsCheck md op)) (restrict (boogie S md) (RB T' H)) konst
      (fun g => EnvRel (sigs g).ctx) (MR md T H) (RV sigs) (fun _ => Eq) where
  same := ⟨rfl, rfl, rfl, rfl, fun _ _ _ _ h => ⟨h.1, fun h => by cases h⟩⟩
  ctl := by
    intro g d hd
    have hok := hP g d hd
    have hf : E2EBv.FnOk (sigs g).ctx md (d.body.map fun b => ⟨b.phis, [], b.term⟩) := by
      refine ⟨?_, ?_, ?_⟩
      · intro b blk hb i hi
        rw [List.getElem?_map, Option.map_eq_some_iff] at hb
        obtain ⟨_, _, rfl⟩ := hb
        cases hi
      · intro b blk hb p hp
        rw [List.getElem?_map, Option.map_eq_some_iff] at hb
        obtain ⟨_, h, rfl⟩ := hb
        exact hok.phi b _ h p hp
      · intro b blk hb
        rw [List.getElem?_map, Option.map_eq_some_iff] at hb
        obtain ⟨blk₀, h, rfl⟩ := hb
        exact hok.term b blk₀ h
    have hsim := E2EBv.simulates S hf hT hS hmax hL H
    have get : ∀ (b : Nat) blk, d.body[b]? = some blk → (d.body.map fun b => (⟨b.phis, [], b.term⟩ : Block Word))[b]? = some ⟨blk.phis, [], blk.term⟩ := by
      intro b blk h
      rw [List.getElem?_map, h]; rfl
    refine ⟨?_, ?_, ?_, ?_, hok.term⟩
    · intro b blk hb
      exact hsim.enter b ⟨blk.phis, [], blk.term⟩ (get b blk hb)
    · intro b blk c t f hb ht
      exact hsim.cond b _ c t f (get b blk hb) ht
    · intro b blk o hb ht ρ σ hE
      refine ⟨?_, ?_⟩
      · cases o with
        | none => rfl
        | some o => exact congrArg some (hsim.ret b _ o (get b blk hb) ht ρ σ hE)
      · rw [← hok.ret b blk o hb ht]
        cases o with
        | none => rfl
        | some o => exact congrArg some (eval_width hE.2 o)
    · exact fun m m' h => h
  leaf := by
    intro g d hd b blk hb i hi hc
    have hsim := E2EBv.simulates S (single_ok ((hP g d hd).instr b blk hb i hi hc)) hT hS hmax hL H
    refine ⟨?_, ?_, ?_, ?_⟩
    · intro ρ σ m m' h1 h2 v m₁ hs
      exact hsim.fwd 0 _ rfl i (by simp) ρ σ m m' h1 h2 v m₁ hs.1
    · intro ρ σ m m' h1 h2 hs
      exact hsim.fwdFail 0 _ rfl i (by simp) ρ σ m m' h1 h2 (hs.2 rfl) hs.1
    · intro ρ σ m m' h1 h2 w m₁' hs
      rcases hsim.bwd 0 _ rfl i (by simp) ρ σ m m' h1 h2 w m₁' hs with ⟨q1, q2⟩ | ⟨v, m₁, q1, q2⟩
      · exact .inl ⟨q2, fun _ => q1⟩
      · exact .inr ⟨v, m₁, ⟨q1, fun h => by cases h⟩, q2⟩
    · intro ρ σ m m' h1 h2 hs
      obtain ⟨q1, q2⟩ := hsim.bwdFail 0 _ rfl i (by simp) ρ σ m m' h1 h2 hs
      by_cases hi : IsCheck md i.op
      · exact .inr ⟨⟨q1, fun _ => hi⟩, q2⟩
      · exact .inl ⟨q1, fun _ => hi⟩
  args := by
    intro g d hd b blk hb i hi f hc ρ σ hE
    obtain ⟨rfl, _⟩ := hE
    rw [E2EBv.mapInstr_konst]
  res := by
    intro g d hd b blk hb i hi f hc ρ σ v w hE hv
    obtain ⟨rfl, hw⟩ := hE
    obtain ⟨rfl, hv⟩ := hv
    refine ⟨rfl, ?_⟩
    cases hdst : i.dst with
    | none => exact hw
    | some x =>
      have := (hP g d hd).call b blk hb i hi f hc x hdst
      rw [this] at hv
      cases v with
      | none => cases hv
      | some v =>
        intro y
        show (if y = x then v else ρ y).1 = _
        split
        · next h => subst h; exact Option.some.inj hv
        · exact hw y
  entryFwd := by
    intro op f l l' ρ hc hl he
    subst hl
    obtain ⟨h1, d, h2, h3⟩ := he
    exact ⟨ρ, ⟨rfl, h1⟩, h1, _, mapCalls_get h2, h3⟩
  entryBwd := by
    intro op f l l' σ hc hl he
    subst hl
    obtain ⟨h1, d', h2, h3⟩ := he
    obtain ⟨d, hd, rfl⟩ := mapCalls_inv h2
    exact ⟨σ, ⟨rfl, h1⟩, h1, d, hd, h3⟩

theorem code_ok (hP : ProgOk md C sigs) : CodeOk (mapCalls konst C) procCode := by
  intro M P g d' hd' σ m o
  obtain ⟨d, hd, rfl⟩ := mapCalls_inv hd'
  have hok := hP g d hd
  exact c26_normalised_executions P (mapFn konst d.body) (E2E.ssa_map hok.ssa) (E2E.plain_map hok.plain) d.loops (E2E.loops_map hok.loops) σ m o

theorem out_rel {T : List (Event Ptr)} {H : List HEv} (hL : Layout md.mode md.prog md.stmts md.decls T) {g : Nat} {o : Outcome Word LState}
    {o' : Outcome Word BState} (h : Out (MR md T H) (RV sigs g) (fun _ => Eq) o o') : OutRel md o o' := by
  cases h with
  | ret v w m m' hv h => obtain ⟨rfl, _⟩ := hv; exact .ret _ _ _ (h.memRel hL)
  | fail op l l' m m' hl h => subst hl; exact .fail _ _ _ _ (h.memRel hL)
end

/-! ## The theorems -/

section
variable (S : Smt) (md : Module) (C : Calls Word) (sigs : Nat → Sig)

/-- **C69, no missed failures (bit-vectors, memory, direct calls, recursion).** Every execution of a function of the program in LLVM,
calling other functions to any depth, that returns or fails an assertion in whatever function, without undefined behaviour, narrow negative
indices and `malloc(0)`, with accesses that the points-to graph allows for, and with blocks at addresses that SMACK's allocator gives out, has a
counterpart in the generated procedures: it makes the same accesses, allocates and frees the same blocks, and returns the same value or
fails the same assertion. -/
theorem c69_forward_partial (hm : ModuleOk md) (hP : ProgOk md C sigs) (n g : Nat) (ρ : Env Word) (hρ : Widths sigs g ρ)
    (M : BitVec 64 → BitVec 8) (h₀ : List HEv) (c : BitVec 64) (hc : Start c h₀) (o : Outcome Word LState)
    (h : PExec C (Widths sigs) unit (llvm md) n g ρ ⟨M, [], h₀⟩ o) (r : List HEv) (hr : lastHeap o = h₀ ++ r) (hfo : Follows c r)
    (ho : ∀ op l s, o = .fail op l s → IsCheck md op) :
    ∃ σ, VarsTyped md σ ∧ ∃ o', OutRel md o o' ∧ BExec (mapCalls konst C) (Widths sigs) unit procCode (boogie S md) n g ρ ⟨σ, [], c, h₀⟩ o' := by
  have G := E2EBv.growsL md
  obtain ⟨_, _, hT, hS⟩ := h.grows G
  replace hT := hT (fun _ h => by cases h)
  replace hS := hS E2EBv.sound_nil
  have hL := E2EBv.layout_of hm hS hT
  obtain ⟨σ, hσ, hA⟩ := MemSplit.exists_regions hL M
  have hsim := prog_sim S hP (List.prefix_refl _) hS (fun e he => by
    have := he.length_le
    simp only [List.length_append, List.length_singleton] at this
    omega) hL (E2EBv.lastMem o).heap
  rw [E2EBv.lastHeap_eq] at hr
  have hR := pexec_only (pexec_restrict_mono (fun _ h => h.rl) (pexec_restrict G h)) ho
  obtain ⟨o', q1, q2⟩ := pexec_fwd hsim hR ρ ⟨σ, [], c, h₀⟩ ⟨rfl, hρ⟩ ⟨rfl, List.nil_prefix, hA, rfl, ⟨r, hr, hfo⟩, hc⟩
  refine ⟨σ, hσ, o', out_rel hL q2, (bexec_iff (code_ok hP)).2 ?_⟩
  exact pexec_of_restrict q1

/-- **C69, no false alarms (bit-vectors, memory, direct calls, recursion).** Every execution of a generated procedure from well-typed
memory variables that returns or fails an assertion, in whatever procedure, comes from an execution in LLVM, from some memory, that makes
the same accesses, allocates and frees the same blocks, and returns the same value or fails the same assertion; unless an execution in LLVM
from that memory meets undefined behaviour, a narrow negative index or `malloc(0)`, or contradicts the points-to graph. -/
theorem c69_backward_partial (hm : ModuleOk md) (hP : ProgOk md C sigs) (n g : Nat) (ρ : Env Word) (hρ : Widths sigs g ρ)
    (σ : Nat → Content Ptr) (hσ : VarsTyped md σ) (h₀ : List HEv) (c : BitVec 64) (hc : Start c h₀) (o' : Outcome Word BState)
    (h : BExec (mapCalls konst C) (Widths sigs) unit procCode (boogie S md) n g ρ ⟨σ, [], c, h₀⟩ o') :
    ∃ M, (∃ op l s, C.callee op = none ∧ ¬ IsCheck md op ∧ PExec C (Widths sigs) unit (llvm md) n g ρ ⟨M, [], h₀⟩ (.fail op l s)) ∨
      ∃ o, OutRel md o o' ∧ PExec C (Widths sigs) unit (llvm md) n g ρ ⟨M, [], h₀⟩ o := by
  have h1 := (bexec_iff (code_ok hP)).1 h
  have G := E2EBv.growsB S md
  have hgrow := h1.grows G
  have hT' := hgrow.2.1 (fun _ h => by cases h)
  have hH := hgrow.rb.2 (by have := hc.2.1; show c.toNat < _; omega)
  obtain ⟨T, hpre, hS, hmax⟩ := E2EBv.longest (md := md) (E2EBv.lastMem o').trace
  have hT : Typed md.mode md.prog T := E2EBv.Typed.mono hT' fun _ h => hpre.subset h
  have hL := E2EBv.layout_of hm hS hT
  have hty : ∀ e ∈ T, ∀ st, MemSplit.Ev md.mode md.prog md.stmts md.decls e st → (σ st.region).HasTy (MemSplit.declFor md.mode st) :=
    fun e _ st hst => hσ _ _ hst.decl
  obtain ⟨M, hM⟩ := MemSplit.exists_flat MemSplit.laws_bv hL σ hty
  have hsim := prog_sim S hP hpre hS hmax hL (E2EBv.lastMem o').heap
  have hR := pexec_restrict_mono (fun _ h => h.rb) (pexec_restrict G h1)
  refine ⟨M, ?_⟩
  rcases pexec_bwd hsim hR ρ ⟨M, [], h₀⟩ ⟨rfl, hρ⟩
      ⟨rfl, List.nil_prefix, fun e he st hst => ⟨hty e he st hst, hM e he st hst⟩, rfl, hH, hc⟩ with ⟨op, l, s, q1, q2, q3⟩ | ⟨o, q1, q2⟩
  · exact .inl ⟨op, l, s, q1, q2.2 rfl, pexec_of_restrict (pexec_of_only q3)⟩
  · exact .inr ⟨o, out_rel hL q2, pexec_of_restrict (pexec_of_only q1)⟩
end

end Smack.E2EMod.Bv
