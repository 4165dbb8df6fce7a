/-
A program that meets the hypotheses of C69.

  unsigned f(unsigned n) { return n == 0 ? 0 : f(n - 1) + 1; }
  void h(unsigned x) { assert(x); }
  void main(void) { h(f(2) - 2); }
-/
import Verif.E2EMod.Star
import Verif.E2EMod.Props
import Verif.E2EMod.Ints

namespace Smack.E2EMod

open Smack.IntOps (Smt)
open Smack.Cfg Smack.Cfg.Spec
open Smack.E2E (Word)

/-! ## The program -/

namespace Ex

def fBody : Fn Word :=
  [⟨[], [⟨some 1, 0, [.var 0]⟩], .cbr (.var 1) 1 2⟩,
   ⟨[], [], .ret (some (.const ⟨32, 0⟩))⟩,
   ⟨[], [⟨some 2, 1, [.var 0]⟩, ⟨some 3, 2, [.var 2]⟩, ⟨some 4, 3, [.var 3]⟩], .ret (some (.var 4))⟩]

def hBody : Fn Word := [⟨[], [⟨none, 4, [.var 0]⟩], .ret none⟩]

def mainBody : Fn Word := [⟨[], [⟨some 0, 2, [.const ⟨32, 2⟩]⟩, ⟨some 2, 5, [.var 0]⟩, ⟨none, 6, [.var 2]⟩], .ret none⟩]

/-- Operations 2 and 6 are the calls of `f` and `h`. -/
def prog : Calls Word where
  callee := fun op => if op = 2 then some 1 else if op = 6 then some 2 else none
  funcs := [⟨[], mainBody, []⟩, ⟨[0], fBody, []⟩, ⟨[0], hBody, []⟩]

theorem funcs {g : Nat} {d : FnDef Word} (h : prog.funcs[g]? = some d) : (g = 0 ∧ d = ⟨[], mainBody, []⟩) ∨ (g = 1 ∧ d = ⟨[0], fBody, []⟩) ∨
    (g = 2 ∧ d = ⟨[0], hBody, []⟩) := by
  rcases g with _ | _ | _ | g
  · exact .inl ⟨rfl, (Option.some.inj h).symm⟩
  · exact .inr (.inl ⟨rfl, (Option.some.inj h).symm⟩)
  · exact .inr (.inr ⟨rfl, (Option.some.inj h).symm⟩)
  · cases h

theorem fBlock {b : Nat} {blk : Block Word} (h : fBody[b]? = some blk) : (b = 0 ∧ blk = fBody[0]) ∨ (b = 1 ∧ blk = fBody[1]) ∨ (b = 2 ∧ blk = fBody[2]) := by
  rcases b with _ | _ | _ | b
  · exact .inl ⟨rfl, (Option.some.inj h).symm⟩
  · exact .inr (.inl ⟨rfl, (Option.some.inj h).symm⟩)
  · exact .inr (.inr ⟨rfl, (Option.some.inj h).symm⟩)
  · cases h

theorem hBlock {b : Nat} {blk : Block Word} (h : hBody[b]? = some blk) : b = 0 ∧ blk = hBody[0] := by
  rcases b with _ | b
  · exact ⟨rfl, (Option.some.inj h).symm⟩
  · cases h

theorem mainBlock {b : Nat} {blk : Block Word} (h : mainBody[b]? = some blk) : b = 0 ∧ blk = mainBody[0] := by
  rcases b with _ | b
  · exact ⟨rfl, (Option.some.inj h).symm⟩
  · cases h

theorem ssa : Ssa mainBody ∧ Ssa fBody ∧ Ssa hBody := ⟨ssa_star (by decide), ssa_star (by decide), ssa_star (by decide)⟩

theorem plain : Plain mainBody ∧ Plain fBody ∧ Plain hBody := by
  refine ⟨⟨?_, ?_, ?_⟩, ⟨?_, ?_, ?_⟩, ⟨?_, ?_, ?_⟩⟩
  · intro b blk c cs d hb; obtain ⟨rfl, rfl⟩ := mainBlock hb; simp [mainBody]
  · intro b blk hb; obtain ⟨rfl, rfl⟩ := mainBlock hb; simp [mainBody, Term.succs]
  · intro b blk n u hb; obtain ⟨rfl, rfl⟩ := mainBlock hb; simp [mainBody]
  · intro b blk c cs d hb; rcases fBlock hb with ⟨rfl, rfl⟩ | ⟨rfl, rfl⟩ | ⟨rfl, rfl⟩ <;> simp [fBody]
  · intro b blk hb; rcases fBlock hb with ⟨rfl, rfl⟩ | ⟨rfl, rfl⟩ | ⟨rfl, rfl⟩ <;> simp [fBody, Term.succs]
  · intro b blk n u hb; rcases fBlock hb with ⟨rfl, rfl⟩ | ⟨rfl, rfl⟩ | ⟨rfl, rfl⟩ <;> simp [fBody]
  · intro b blk c cs d hb; obtain ⟨rfl, rfl⟩ := hBlock hb; simp [hBody]
  · intro b blk hb; obtain ⟨rfl, rfl⟩ := hBlock hb; simp [hBody, Term.succs]
  · intro b blk n u hb; obtain ⟨rfl, rfl⟩ := hBlock hb; simp [hBody]

theorem complete : LoopsComplete mainBody [] ∧ LoopsComplete fBody [] ∧ LoopsComplete hBody [] := by
  refine ⟨complete_star ?_, complete_star ?_, complete_star ?_⟩
  · intro b blk hb; obtain ⟨rfl, rfl⟩ := mainBlock hb; simp [mainBody, Term.succs]
  · intro b blk hb; rcases fBlock hb with ⟨rfl, rfl⟩ | ⟨rfl, rfl⟩ | ⟨rfl, rfl⟩ <;> simp [fBody, Term.succs]
  · intro b blk hb; obtain ⟨rfl, rfl⟩ := hBlock hb; simp [hBody, Term.succs]

theorem closed : Closed [] mainBody ∧ Closed [0] fBody ∧ Closed [0] hBody := by
  refine ⟨⟨?_, ?_⟩, ⟨?_, ?_⟩, ⟨?_, ?_⟩⟩
  · intro b blk hb x hx; obtain ⟨rfl, rfl⟩ := mainBlock hb
    refine .inr ⟨0, _, rfl, .inr ?_⟩
    simp [operands, mainBody, Term.uses] at hx
    rcases hx with rfl | rfl <;> simp [mainBody, dsts]
  · intro blk hb; obtain ⟨_, rfl⟩ := mainBlock hb; rfl
  · intro b blk hb x hx
    rcases fBlock hb with ⟨rfl, rfl⟩ | ⟨rfl, rfl⟩ | ⟨rfl, rfl⟩ <;> simp [operands, fBody, Term.uses] at hx
    · rcases hx with rfl | rfl
      · exact .inl (by simp)
      · exact .inr ⟨0, _, rfl, .inr (by simp [dsts])⟩
    · rcases hx with rfl | rfl | rfl | rfl
      · exact .inl (by simp)
      all_goals exact .inr ⟨2, _, rfl, .inr (by simp [dsts])⟩
  · intro blk hb; rcases fBlock hb with ⟨h, rfl⟩ | ⟨h, rfl⟩ | ⟨h, rfl⟩ <;> rfl
  · intro b blk hb x hx; obtain ⟨rfl, rfl⟩ := hBlock hb
    simp [operands, hBody, Term.uses] at hx
    exact .inl (by simp [hx])
  · intro blk hb; obtain ⟨_, rfl⟩ := hBlock hb; rfl

end Ex

/-! ### With bit-vectors -/

namespace Bv.Ex

open Smack.E2EBv (Module Ctx ModuleOk Expr llvm boogie konst InstrOk)
open Smack.E2EMod.Ex

/-- Operations 2 and 6 are calls. -/
def md : Module where
  ops := [.expr 1 (.icmp .eq (.var 32 0) (.lit false false 0#32)), .expr 32 (.bin .sub (.var 32 0) (.lit false false 1#32)), .assume,
    .expr 32 (.bin .add (.var 32 0) (.lit false false 1#32)), .check, .expr 32 (.bin .sub (.var 32 0) (.lit false false 2#32))]
  D := E2EBv.Ex.D
  seen := []
  prog := []
  noInference := false

theorem module_ok : ModuleOk md where
  valid := {
    fields := E2EBv.Ex.module_ok.valid.fields
    recorded := by intro A hA; cases hA
    fits := by decide
    positive := by decide
    seen := fun _ h => h
    size := by decide
    width := by decide }
  noScalars := fun _ h => by cases h

def sigs (g : Nat) : Sig := ⟨fun x => if g = 1 ∧ x = 1 then 1 else 32, if g = 1 then some 32 else none⟩

theorem ok : ProgOk md prog sigs := by
  intro g d hd
  rcases funcs hd with ⟨rfl, rfl⟩ | ⟨rfl, rfl⟩ | ⟨rfl, rfl⟩
  · refine ⟨ssa.1, plain.1, complete.1, ?_, ?_, ?_, ?_, ?_⟩
    · intro b blk hb i hi hc; obtain ⟨rfl, rfl⟩ := mainBlock hb
      simp [mainBody] at hi
      rcases hi with rfl | rfl | rfl
      · simp [prog] at hc
      · simp [InstrOk, md, Expr.Ok, sigs, Ctx.opd]
      · simp [prog] at hc
    · intro b blk hb i hi f hc x hx; obtain ⟨rfl, rfl⟩ := mainBlock hb
      simp [mainBody] at hi
      rcases hi with rfl | rfl | rfl <;> simp [prog] at hc <;> simp at hx
      subst hc; subst hx; rfl
    · intro b blk hb; obtain ⟨rfl, rfl⟩ := mainBlock hb; simp [mainBody]
    · intro b blk o hb ht; obtain ⟨rfl, rfl⟩ := mainBlock hb; cases ht; rfl
    · intro b blk hb; obtain ⟨rfl, rfl⟩ := mainBlock hb; simp [mainBody]
  · refine ⟨ssa.2.1, plain.2.1, complete.2.1, ?_, ?_, ?_, ?_, ?_⟩
    · intro b blk hb i hi hc
      rcases fBlock hb with ⟨rfl, rfl⟩ | ⟨rfl, rfl⟩ | ⟨rfl, rfl⟩ <;> simp [fBody] at hi
      · subst hi; simp [InstrOk, md, Expr.Ok, sigs, Ctx.opd]
      · rcases hi with rfl | rfl | rfl
        · simp [InstrOk, md, Expr.Ok, sigs, Ctx.opd]
        · simp [prog] at hc
        · simp [InstrOk, md, Expr.Ok, sigs, Ctx.opd]
    · intro b blk hb i hi f hc x hx
      rcases fBlock hb with ⟨rfl, rfl⟩ | ⟨rfl, rfl⟩ | ⟨rfl, rfl⟩ <;> simp [fBody] at hi
      · subst hi; simp [prog] at hc
      · rcases hi with rfl | rfl | rfl <;> simp [prog] at hc <;> simp at hx
        subst hc; subst hx; rfl
    · intro b blk hb
      rcases fBlock hb with ⟨rfl, rfl⟩ | ⟨rfl, rfl⟩ | ⟨rfl, rfl⟩ <;> simp [fBody]
    · intro b blk o hb ht
      rcases fBlock hb with ⟨rfl, rfl⟩ | ⟨rfl, rfl⟩ | ⟨rfl, rfl⟩ <;> cases ht <;> rfl
    · intro b blk hb
      rcases fBlock hb with ⟨rfl, rfl⟩ | ⟨rfl, rfl⟩ | ⟨rfl, rfl⟩ <;> simp [fBody]
  · refine ⟨ssa.2.2, plain.2.2, complete.2.2, ?_, ?_, ?_, ?_, ?_⟩
    · intro b blk hb i hi hc; obtain ⟨rfl, rfl⟩ := hBlock hb
      simp [hBody] at hi; subst hi
      simp [InstrOk, md, sigs, Ctx.opd]
    · intro b blk hb i hi f hc x hx; obtain ⟨rfl, rfl⟩ := hBlock hb
      simp [hBody] at hi; subst hi
      simp [prog] at hc
    · intro b blk hb; obtain ⟨rfl, rfl⟩ := hBlock hb; simp [hBody]
    · intro b blk o hb ht; obtain ⟨rfl, rfl⟩ := hBlock hb; cases ht; rfl
    · intro b blk hb; obtain ⟨rfl, rfl⟩ := hBlock hb; simp [hBody]

def state : E2EBv.LState := ⟨fun _ => 0, [], []⟩

/-- Variables of `f` at the start with argument `n`. -/
def env (g n : Nat) : Env Word := fun x => ⟨(sigs g).ctx x, BitVec.ofNat _ (if x = 0 then n else 0)⟩

noncomputable abbrev Sem (n : Nat) := calls prog (Widths sigs) unit (llvm md) n

/-- `f(k)` returns `k` with `k` nested calls. -/
theorem run_f (k : Nat) (hk : k < 2 ^ 32) : Body prog (Sem k) 1 (env 1 k) state (.ret (some ⟨32, BitVec.ofNat 32 k⟩) state) := by
  induction k with
  | zero =>
    have q0 : (Sem 0).sem 0 [⟨32, 0#32⟩] state (some (⟨1, 1#1⟩, state)) := (calls_leaf (by decide)).2 (.inr ⟨1#1, by decide, rfl⟩)
    exact ⟨_, rfl, .step 0 _ _ _ _ state 1 _ _ rfl (.cons _ _ _ _ _ _ _ _ q0 (.nil _ _)) rfl rfl
      (.leave 1 _ _ _ _ state _ rfl (.nil _ _) rfl)⟩
  | succ k ih =>
    have ih := ih (by omega)
    have q0 : (Sem (k + 1)).sem 0 [⟨32, BitVec.ofNat 32 (k + 1)⟩] state (some (⟨1, 0#1⟩, state)) := by
      refine (calls_leaf (by decide)).2 (.inr ⟨0#1, ?_, rfl⟩)
      simp only [Expr.eval, E2EBv.operand, List.getElem?_cons_zero, E2EBv.llvmPred]
      have : ¬ (BitVec.ofNat 32 (BitVec.ofNat 32 (k + 1)).toNat).toNat = (0#32).toNat := by
        simp only [BitVec.toNat_ofNat]; omega
      exact congrArg some (if_neg this)
    have q1 : (Sem (k + 1)).sem 1 [⟨32, BitVec.ofNat 32 (k + 1)⟩] state (some (⟨32, BitVec.ofNat 32 k⟩, state)) := by
      refine (calls_leaf (by decide)).2 (.inr ⟨BitVec.ofNat 32 k, ?_, rfl⟩)
      simp only [Expr.eval, E2EBv.operand, List.getElem?_cons_zero, E2EBv.llvmBin, Option.bind_eq_bind, Option.bind_some, Option.some.injEq]
      apply BitVec.eq_of_toNat_eq
      have e : BitVec.ofInt 32 ((BitVec.ofNat 32 (BitVec.ofNat 32 (k + 1)).toNat).toInt - (1#32).toInt) = BitVec.ofNat 32 (BitVec.ofNat 32 (k + 1)).toNat - 1#32 := by
        apply BitVec.eq_of_toInt_eq
        rw [BitVec.toInt_ofInt, BitVec.toInt_sub]
      rw [e, BitVec.toNat_sub]
      simp only [BitVec.toNat_ofNat]; omega
    have q2 : (Sem (k + 1)).sem 2 [⟨32, BitVec.ofNat 32 k⟩] state (some (⟨32, BitVec.ofNat 32 k⟩, state)) :=
      (calls_call (g := 1) (by decide)).2 ⟨env 1 k, _, ⟨fun x => rfl, _, rfl, rfl⟩, ih, rfl⟩
    have q3 : (Sem (k + 1)).sem 3 [⟨32, BitVec.ofNat 32 k⟩] state (some (⟨32, BitVec.ofNat 32 (k + 1)⟩, state)) := by
      refine (calls_leaf (by decide)).2 (.inr ⟨BitVec.ofNat 32 (k + 1), ?_, rfl⟩)
      simp only [Expr.eval, E2EBv.operand, List.getElem?_cons_zero, E2EBv.llvmBin, Option.bind_eq_bind, Option.bind_some, Option.some.injEq]
      apply BitVec.eq_of_toNat_eq
      simp only [BitVec.toNat_ofNat]; omega
    exact ⟨_, rfl, .step 0 _ _ _ _ state 2 _ _ rfl (.cons _ _ _ _ _ _ _ _ q0 (.nil _ _)) rfl rfl
      (.leave 2 _ _ _ _ state _ rfl (.cons _ _ _ _ _ _ _ _ q1 (.cons _ _ _ _ _ _ _ _ q2 (.cons _ _ _ _ _ _ _ _ q3 (.nil _ _)))) rfl)⟩

/-- The assertion fails in `h`, called from `main` after `f` returned. -/
theorem run_main : PExec prog (Widths sigs) unit (llvm md) 3 0 (env 0 0) state (.fail 4 [⟨32, 0#32⟩] state) := by
  have q0 : (Sem 3).sem 2 [⟨32, 2#32⟩] state (some (⟨32, 2#32⟩, state)) := by
    have h2 := run_f 2 (by decide)
    have : Body prog (Sem 2) 1 (env 1 2) state (.ret (some ⟨32, 2#32⟩) state) := h2
    exact (calls_call (g := 1) (by decide)).2 ⟨env 1 2, _, ⟨fun x => rfl, _, rfl, rfl⟩, this, rfl⟩
  have q1 : (Sem 3).sem 5 [⟨32, 2#32⟩] state (some (⟨32, 0#32⟩, state)) := (calls_leaf (by decide)).2 (.inr ⟨0#32, by decide, rfl⟩)
  have qh : (Sem 2).sem 4 [⟨32, 0#32⟩] state none := (calls_leaf (by decide)).2 ⟨0#32, rfl, .inl ⟨rfl, rfl⟩⟩
  have bh : Body prog (Sem 2) 2 (env 2 0) state (.fail 4 [⟨32, 0#32⟩] state) := ⟨_, rfl, .fail 0 _ _ _ _ rfl (.here _ _ _ _ qh)⟩
  have e2 : Enter prog (Widths sigs) 2 (env 2 0) [⟨32, 0#32⟩] := ⟨fun x => rfl, _, rfl, rfl⟩
  have q2 : (Sem 3).sem 6 [⟨32, 0#32⟩] state none := (calls_call (g := 2) (by decide)).2 ⟨env 2 0, _, e2, bh, rfl⟩
  refine .inside 2 0 _ _ 6 [⟨32, 0#32⟩] state 2 (env 2 0) _ _ _ ⟨_, rfl, .fail 0 _ _ _ _ rfl ?_⟩ rfl e2 (.here _ _ _ _ _ _ _ bh rfl)
  exact .there _ _ _ _ _ _ _ q0 (.there _ _ _ _ _ _ _ q1 (.here _ _ _ _ q2))

/-- The hypotheses of C69 hold of the program. -/
example : ModuleOk md ∧ ProgOk md prog sigs := ⟨module_ok, ok⟩

/-- The failure has a counterpart in the generated procedures. -/
example (S : Smt) : ∃ σ s, E2EBv.VarsTyped md σ ∧
    BExec (mapCalls konst prog) (Widths sigs) unit procCode (boogie S md) 3 0 (env 0 0) ⟨σ, [], 4096#64, []⟩ (.fail 4 [⟨32, 0#32⟩] s) := by
  obtain ⟨σ, h1, o', h2, h3⟩ := c69_forward_partial S md prog sigs module_ok ok 3 0 (env 0 0) (fun _ => rfl) _ [] 4096#64 E2EBv.Ex.start
    _ run_main [] rfl trivial (fun op l s e => by cases e; rfl)
  cases h2 with
  | fail _ _ s s' => exact ⟨σ, s', h1, h3⟩

/-- `f(1000)` returns 1000 in the generated procedures, with 1000 nested calls. -/
example (S : Smt) : ∃ σ s, E2EBv.VarsTyped md σ ∧
    BExec (mapCalls konst prog) (Widths sigs) unit procCode (boogie S md) 1000 1 (env 1 1000) ⟨σ, [], 4096#64, []⟩ (.ret (some ⟨32, 1000#32⟩) s) := by
  obtain ⟨σ, h1, o', h2, h3⟩ := c69_forward_partial S md prog sigs module_ok ok 1000 1 (env 1 1000) (fun _ => rfl) _ [] 4096#64
    E2EBv.Ex.start _ (.ret _ _ _ _ _ _ (run_f 1000 (by decide))) [] rfl trivial (fun op l s e => by cases e)
  cases h2 with
  | ret _ s s' => exact ⟨σ, s', h1, h3⟩

end Bv.Ex

/-! ### With integers -/

namespace Ints.Ex

open Smack.IntOps
open Smack.E2E (Op InstrOk Ctx VarsIn NoArith1 Reduced)
open Smack.E2EMod.Ex

def ops : List Op :=
  [.expr 1 (.icmp .eq (.var 32 0) (.lit false false 0#32)), .expr 32 (.sub (.var 32 0) (.lit false false 1#32)), .assume 32,
    .expr 32 (.add (.var 32 0) (.lit false false 1#32)), .check 32, .expr 32 (.sub (.var 32 0) (.lit false false 2#32))]

def sigs (g : Nat) : Sig := ⟨⟨fun x => if g = 1 ∧ x = 1 then 1 else 32, fun _ => False⟩, if g = 1 then some 32 else none, False⟩

theorem ok : ProgOk .unbounded ops prog sigs := by
  intro g d hd
  rcases funcs hd with ⟨rfl, rfl⟩ | ⟨rfl, rfl⟩ | ⟨rfl, rfl⟩
  · refine ⟨ssa.1, plain.1, complete.1, closed.1, by simp, ?_, ?_, ?_, ?_, ?_, ?_, ?_, ?_⟩
    · intro x; simp only [sigs]; split <;> decide
    · intro b blk hb i hi hc; obtain ⟨rfl, rfl⟩ := mainBlock hb
      simp [mainBody] at hi
      rcases hi with rfl | rfl | rfl
      · simp [prog] at hc
      · simp [InstrOk, ops, Expr.WellTyped, Expr.NarrowLits, VarsIn, sigs, Ctx.opdWidth]
      · simp [prog] at hc
    · intro b blk hb i hi f d' hc hd'; obtain ⟨rfl, rfl⟩ := mainBlock hb
      simp [mainBody] at hi
      rcases hi with rfl | rfl | rfl <;> simp [prog] at hc <;> subst hc <;> cases hd' <;> refine ⟨rfl, ?_⟩ <;> intro j o x ho hx <;>
        (rcases j with _ | j <;> simp at ho hx) <;> subst ho <;> subst hx <;> simp [sigs, Ctx.opdWidth]
    · intro b blk hb i hi f hc x hx; obtain ⟨rfl, rfl⟩ := mainBlock hb
      simp [mainBody] at hi
      rcases hi with rfl | rfl | rfl <;> simp [prog] at hc <;> simp at hx
      subst hc; subst hx; exact ⟨rfl, fun h => by cases h⟩
    · intro b blk hb; obtain ⟨rfl, rfl⟩ := mainBlock hb; simp [mainBody]
    · intro b blk c t f hb; obtain ⟨rfl, rfl⟩ := mainBlock hb; simp [mainBody]
    · intro b blk o hb ht; obtain ⟨rfl, rfl⟩ := mainBlock hb; cases ht; exact ⟨rfl, fun h => by cases h⟩
    · intro b blk hb; obtain ⟨rfl, rfl⟩ := mainBlock hb; simp [mainBody]
  · refine ⟨ssa.2.1, plain.2.1, complete.2.1, closed.2.1, by simp, ?_, ?_, ?_, ?_, ?_, ?_, ?_, ?_⟩
    · intro x; simp only [sigs]; split <;> decide
    · intro b blk hb i hi hc
      rcases fBlock hb with ⟨rfl, rfl⟩ | ⟨rfl, rfl⟩ | ⟨rfl, rfl⟩ <;> simp [fBody] at hi
      · subst hi; simp [InstrOk, ops, Expr.WellTyped, Expr.NarrowLits, VarsIn, sigs, Ctx.opdWidth]
      · rcases hi with rfl | rfl | rfl
        · simp [InstrOk, ops, Expr.WellTyped, Expr.NarrowLits, VarsIn, sigs, Ctx.opdWidth]
        · simp [prog] at hc
        · simp [InstrOk, ops, Expr.WellTyped, Expr.NarrowLits, VarsIn, sigs, Ctx.opdWidth]
    · intro b blk hb i hi f d' hc hd'
      rcases fBlock hb with ⟨rfl, rfl⟩ | ⟨rfl, rfl⟩ | ⟨rfl, rfl⟩ <;> simp [fBody] at hi
      · subst hi; simp [prog] at hc
      · rcases hi with rfl | rfl | rfl <;> simp [prog] at hc <;> subst hc <;> cases hd' <;> refine ⟨rfl, ?_⟩ <;> intro j o x ho hx <;>
          (rcases j with _ | j <;> simp at ho hx) <;> subst ho <;> subst hx <;> simp [sigs, Ctx.opdWidth]
    · intro b blk hb i hi f hc x hx
      rcases fBlock hb with ⟨rfl, rfl⟩ | ⟨rfl, rfl⟩ | ⟨rfl, rfl⟩ <;> simp [fBody] at hi
      · subst hi; simp [prog] at hc
      · rcases hi with rfl | rfl | rfl <;> simp [prog] at hc <;> simp at hx
        subst hc; subst hx; exact ⟨rfl, fun h => by cases h⟩
    · intro b blk hb
      rcases fBlock hb with ⟨rfl, rfl⟩ | ⟨rfl, rfl⟩ | ⟨rfl, rfl⟩ <;> simp [fBody]
    · intro b blk c t f hb
      rcases fBlock hb with ⟨rfl, rfl⟩ | ⟨rfl, rfl⟩ | ⟨rfl, rfl⟩ <;> simp [fBody]
      rintro rfl _ _; rfl
    · intro b blk o hb ht
      rcases fBlock hb with ⟨rfl, rfl⟩ | ⟨rfl, rfl⟩ | ⟨rfl, rfl⟩ <;> cases ht <;> exact ⟨rfl, fun h => by cases h⟩
    · intro b blk hb
      rcases fBlock hb with ⟨rfl, rfl⟩ | ⟨rfl, rfl⟩ | ⟨rfl, rfl⟩ <;> simp [fBody]
  · refine ⟨ssa.2.2, plain.2.2, complete.2.2, closed.2.2, by simp, ?_, ?_, ?_, ?_, ?_, ?_, ?_, ?_⟩
    · intro x; simp only [sigs]; split <;> decide
    · intro b blk hb i hi hc; obtain ⟨rfl, rfl⟩ := hBlock hb
      simp [hBody] at hi; subst hi
      simp [InstrOk, ops, sigs, Ctx.opdWidth]
    · intro b blk hb i hi f d' hc; obtain ⟨rfl, rfl⟩ := hBlock hb
      simp [hBody] at hi; subst hi
      simp [prog] at hc
    · intro b blk hb i hi f hc x hx; obtain ⟨rfl, rfl⟩ := hBlock hb
      simp [hBody] at hi; subst hi
      simp [prog] at hc
    · intro b blk hb; obtain ⟨rfl, rfl⟩ := hBlock hb; simp [hBody]
    · intro b blk c t f hb; obtain ⟨rfl, rfl⟩ := hBlock hb; simp [hBody]
    · intro b blk o hb ht; obtain ⟨rfl, rfl⟩ := hBlock hb; cases ht; exact ⟨rfl, fun h => by cases h⟩
    · intro b blk hb; obtain ⟨rfl, rfl⟩ := hBlock hb; simp [hBody]

def env (g n : Nat) : Env Word := fun x => ⟨(sigs g).ctx.width x, BitVec.ofNat _ (if x = 0 then n else 0)⟩

abbrev Sem (n : Nat) := calls prog (Widths sigs) unit (E2E.llvm .unbounded ops) n

theorem goes {w : Nat} (e : Expr w) (l : List Word) (h : (e.evalBv (E2E.argBits l)).isSome = true) (h' : (e.exact (E2E.argBits l)).isSome = true) :
    ¬ E2E.Stops .unbounded e l := by
  rintro (h1 | h1)
  · rw [h1] at h; cases h
  · have h2 : e.exact (E2E.argBits l) = none := h1
    rw [h2] at h'; cases h'

theorem run_f0 : Body prog (Sem 0) 1 (env 1 0) () (.ret (some ⟨32, 0#32⟩) ()) := by
  have q0 : (Sem 0).sem 0 [⟨32, 0#32⟩] () (some (⟨1, 1#1⟩, ())) := (calls_leaf (by decide)).2 (.inr ⟨goes _ _ (by decide) (by decide), 1#1, by decide, rfl⟩)
  exact ⟨_, rfl, .step 0 _ _ _ _ () 1 _ _ rfl (.cons _ _ _ _ _ _ _ _ q0 (.nil _ _)) rfl rfl (.leave 1 _ _ _ _ () _ rfl (.nil _ _) rfl)⟩

theorem run_f1 : Body prog (Sem 1) 1 (env 1 1) () (.ret (some ⟨32, 1#32⟩) ()) := by
  have q0 : (Sem 1).sem 0 [⟨32, 1#32⟩] () (some (⟨1, 0#1⟩, ())) := (calls_leaf (by decide)).2 (.inr ⟨goes _ _ (by decide) (by decide), 0#1, by decide, rfl⟩)
  have q1 : (Sem 1).sem 1 [⟨32, 1#32⟩] () (some (⟨32, 0#32⟩, ())) := (calls_leaf (by decide)).2 (.inr ⟨goes _ _ (by decide) (by decide), 0#32, by decide, rfl⟩)
  have q2 : (Sem 1).sem 2 [⟨32, 0#32⟩] () (some (⟨32, 0#32⟩, ())) :=
    (calls_call (g := 1) (by decide)).2 ⟨env 1 0, _, ⟨fun x => rfl, _, rfl, rfl⟩, run_f0, rfl⟩
  have q3 : (Sem 1).sem 3 [⟨32, 0#32⟩] () (some (⟨32, 1#32⟩, ())) := (calls_leaf (by decide)).2 (.inr ⟨goes _ _ (by decide) (by decide), 1#32, by decide, rfl⟩)
  exact ⟨_, rfl, .step 0 _ _ _ _ () 2 _ _ rfl (.cons _ _ _ _ _ _ _ _ q0 (.nil _ _)) rfl rfl
    (.leave 2 _ _ _ _ () _ rfl (.cons _ _ _ _ _ _ _ _ q1 (.cons _ _ _ _ _ _ _ _ q2 (.cons _ _ _ _ _ _ _ _ q3 (.nil _ _)))) rfl)⟩

/-- The hypotheses of C69 hold of the program with unbounded integers, and `f(1)` returns 1 in the generated procedures whatever
the initial values of the other variables. -/
example (S : Smt) (σ : Env Int) (hσ : σ 0 = 1) :
    ∃ v, BExec (mapCalls E2E.konst prog) (fun _ _ => True) 0 procCode (E2E.boogie S .unbounded ops) 1 1 σ () (.ret (some v) ()) ∧ v = 1 := by
  obtain ⟨o', h2, h3⟩ := c69_forward_int_partial S .unbounded ops prog sigs ok 1 1 (env 1 1) (fun _ => rfl) σ
    (fun d hd x hx => by
      have hd' : d = ⟨[0], fBody, []⟩ := (Option.some.inj hd).symm
      subst hd'
      have hx' : x = 0 := by simpa using hx
      subst hx'
      rw [hσ]
      exact ⟨rfl, fun h => by cases h⟩) _ (.ret _ _ _ _ _ _ run_f1) (fun op l e => by cases e)
  cases h2 with
  | retSome _ v hv => exact ⟨v, h3, hv⟩

end Ints.Ex

end Smack.E2EMod
