/-
C67: the translation of a whole function with memory in bit-vector mode, from LLVM executions to executions of the generated Boogie code.
-/
import Verif.E2EBv.Ops
import Verif.Cfg.Props

namespace Smack.E2EBv

open Smack.IntOps (Smt)
open Smack.Cfg Smack.Cfg.Spec
open Smack.E2E (Word mapFn run_fwd run_bwd ssa_map plain_map loops_map)
open Smack.MemSplit (Static Event Content Sound Typed Layout Node)

theorem out_rel {md : Module} {T : List (Event Ptr)} {H : List HEv} (hL : Layout md.mode md.prog md.stmts md.decls T) {o : Outcome Word LState}
    {o' : Outcome Word BState} (h : E2E.Out (MR md T H) Eq Eq o o') : OutRel md o o' := by
  cases h with
  | retNone m m' h => exact .ret _ _ _ (h.memRel hL)
  | retSome v w m m' hv h => subst hv; exact .ret _ _ _ (h.memRel hL)
  | fail op l l' m m' hl h => subst hl; exact .fail _ _ _ _ (h.memRel hL)

theorem layout_of {md : Module} (hm : ModuleOk md) {T : List (Event Ptr)} (hS : Sound md.D md.prog T) (hT : Typed md.mode md.prog T) :
    Layout md.mode md.prog md.stmts md.decls T :=
  MemSplit.layout MemSplit.laws_bv hm.valid hm.noScalars (.inl rfl) hS hT

theorem lastHeap_eq (o : Outcome Word LState) : lastHeap o = (lastMem o).heap := by cases o <;> rfl

section

variable (S : Smt) (Γ : Ctx) (md : Module) (fn : Fn Word) (ls : List Loop)

/-- **C67, no missed failures (bit-vectors, memory, no calls).** Every execution of the function in LLVM from any memory that returns or fails
an assertion, without undefined behaviour, narrow negative indices and `malloc(0)`, with accesses that the points-to graph allows for, and with
blocks at addresses that SMACK's allocator gives out (increasing addresses below `2 ^ 63`, none used again, no failures), has a counterpart
in the generated Boogie code, from some well-typed memory variables: it makes the same accesses, allocates and frees the same blocks, and
returns the same value or fails the same assertion. -/
theorem c67_forward_partial (hs : Ssa fn) (hp : Plain fn) (hl : LoopsComplete fn ls) (hm : ModuleOk md) (hf : FnOk Γ md fn)
    (ρ : Env Word) (hρ : ∀ x, (ρ x).1 = Γ x) (M : BitVec 64 → BitVec 8) (h₀ : List HEv) (c : BitVec 64) (hc : Start c h₀) (o : Outcome Word LState)
    (h : Run (llvm md) fn 0 ρ ⟨M, [], h₀⟩ o) (r : List HEv) (hr : lastHeap o = h₀ ++ r) (hfo : Follows c r)
    (ho : ∀ op l s, o = .fail op l s → IsCheck md op) :
    ∃ σ, VarsTyped md σ ∧ ∃ o', OutRel md o o' ∧
      ∃ n, BRun (boogie S md) (compile ls fn) n (compile ls fn (.real 0)) ⟨ρ, ⟨σ, [], c, h₀⟩, none⟩ o' := by
  obtain ⟨_, _, hT, hS⟩ := run_grows (growsL md) h
  replace hT := hT (fun _ h => by cases h)
  replace hS := hS sound_nil
  have hL := layout_of hm hS hT
  obtain ⟨σ, hσ, hA⟩ := MemSplit.exists_regions hL M
  have hsim := simulates S hf (List.prefix_refl _) hS (fun e he => by
    have := he.length_le
    simp only [List.length_append, List.length_singleton] at this
    omega) hL (lastMem o).heap
  rw [lastHeap_eq] at hr
  obtain ⟨o', q1, q2⟩ := run_fwd hsim (run_restrict (growsL md) h (fun m' h' => h'.rl)) ρ ⟨σ, [], c, h₀⟩ ⟨rfl, hρ⟩
    ⟨rfl, List.nil_prefix, hA, rfl, ⟨r, hr, hfo⟩, hc⟩ ho
  exact ⟨σ, hσ, o', out_rel hL q2, (c26_normalised_executions (boogie S md) (mapFn konst fn) (ssa_map hs) (plain_map hp) ls (loops_map hl)
    ρ _ o').1 (run_weaken q1)⟩

/-- **C67, no false alarms (bit-vectors, memory, no calls).** Every execution of the generated Boogie code from well-typed memory variables
that returns or fails an assertion comes from an execution in LLVM, from some memory, that makes the same accesses, allocates and frees the same
blocks, and returns the same value or fails the same assertion; unless an execution in LLVM from that memory meets undefined behaviour, a
narrow negative index or `malloc(0)`, or contradicts the points-to graph. -/
theorem c67_backward_partial (hs : Ssa fn) (hp : Plain fn) (hl : LoopsComplete fn ls) (hm : ModuleOk md) (hf : FnOk Γ md fn)
    (ρ : Env Word) (hρ : ∀ x, (ρ x).1 = Γ x) (σ : Nat → Content Ptr) (hσ : VarsTyped md σ) (h₀ : List HEv) (c : BitVec 64) (hc : Start c h₀)
    (o' : Outcome Word BState) (n : Nat)
    (h : BRun (boogie S md) (compile ls fn) n (compile ls fn (.real 0)) ⟨ρ, ⟨σ, [], c, h₀⟩, none⟩ o') :
    ∃ M, (∃ op l s, ¬ IsCheck md op ∧ Run (llvm md) fn 0 ρ ⟨M, [], h₀⟩ (.fail op l s)) ∨
      ∃ o, OutRel md o o' ∧ Run (llvm md) fn 0 ρ ⟨M, [], h₀⟩ o := by
  have h1 := (c26_normalised_executions (boogie S md) (mapFn konst fn) (ssa_map hs) (plain_map hp) ls (loops_map hl) ρ _ o').2 ⟨n, h⟩
  have hgrow := run_grows (growsB S md) h1
  have hT' := hgrow.2.1 (fun _ h => by cases h)
  have hR := hgrow.rb.2 (by have := hc.2.1; show c.toNat < _; omega)
  obtain ⟨T, hpre, hS, hmax⟩ := longest (md := md) (lastMem o').trace
  have hT : Typed md.mode md.prog T := Typed.mono hT' fun _ h => hpre.subset h
  have hL := layout_of hm hS hT
  have hty : ∀ e ∈ T, ∀ st, MemSplit.Ev md.mode md.prog md.stmts md.decls e st → (σ st.region).HasTy (MemSplit.declFor md.mode st) :=
    fun e _ st hst => hσ _ _ hst.decl
  obtain ⟨M, hM⟩ := MemSplit.exists_flat MemSplit.laws_bv hL σ hty
  have hsim := simulates S hf hpre hS hmax hL (lastMem o').heap
  refine ⟨M, ?_⟩
  rcases run_bwd hsim (run_restrict (growsB S md) h1 (fun m' h' => h'.rb)) ρ ⟨M, [], h₀⟩ ⟨rfl, hρ⟩
      ⟨rfl, List.nil_prefix, fun e he st hst => ⟨hty e he st hst, hM e he st hst⟩, rfl, hR, hc⟩ with ⟨op, l, s, q1, q2⟩ | ⟨o, q1, q2⟩
  · exact .inl ⟨op, l, s, q1, run_weaken q2⟩
  · exact .inr ⟨o, out_rel hL q2, run_weaken q1⟩

end

/-! ### A function that meets the hypotheses -/

namespace Ex

/-- `struct S { unsigned a, b; };` -/
def pair : Gep.Ty := .struct 8 (.cons 0 (.scalar 4 4) (.cons 4 (.scalar 4 4) .nil))

/-- Node 0 is the heap object with the structure. -/
def D (_ : Nat) : Node :=
  { offsetCollapsed := false, external := false, incomplete := false, unknown := false, intToPtr := false, ptrToInt := false,
    memOpd := false, fields := [⟨0, [⟨64, 4⟩]⟩, ⟨4, [⟨64, 4⟩]⟩], heap := true, alloca := false, array := false, numGlobals := 0 }

def prog : List Static :=
  [⟨some 0, 0, .int 32, 4⟩, ⟨some 0, 4, .int 32, 4⟩, ⟨some 0, 0, .int 32, 4⟩, ⟨some 0, 0, .int 32, 4⟩, ⟨some 0, 0, .int 32, 4⟩, ⟨some 0, 4, .int 32, 4⟩]

/-- `f() { struct S *p = malloc(8); p->a = 0; p->b = nondet_uint(); do p->a++; while (p->a < p->b); assert(p->a >= p->b); r = p->a; free(p);
return r; }` with the bound kept in a variable; `p` is variable 8. -/
def fn : Fn Word :=
  [⟨[], [⟨some 8, 13, [.const ⟨64, 8⟩]⟩, ⟨some 5, 0, []⟩, ⟨some 6, 1, [.var 8]⟩, ⟨none, 2, [.var 8, .const ⟨32, 0⟩]⟩, ⟨none, 3, [.var 6, .var 5]⟩], .br 1⟩,
   ⟨[⟨10, [(0, .const ⟨32, 0⟩), (1, .var 1)]⟩],
    [⟨some 0, 4, [.var 8]⟩, ⟨some 1, 5, [.var 0]⟩, ⟨none, 6, [.var 8, .var 1]⟩, ⟨some 2, 7, [.var 1, .var 5]⟩], .cbr (.var 2) 1 2⟩,
   ⟨[], [⟨some 3, 8, [.var 8]⟩, ⟨some 4, 9, [.var 6]⟩, ⟨some 7, 10, [.var 3, .var 4]⟩, ⟨some 9, 11, [.var 7]⟩, ⟨none, 12, [.var 9]⟩,
      ⟨none, 14, [.var 8]⟩],
    .ret (some (.var 3))⟩]

def md : Module where
  ops := [.nondet (.uDirect 32), .gep pair [.const 32 0, .const 32 1], .store 0, .store 1, .load 2,
    .expr 32 (.bin .add (.var 32 0) (.lit false false 1#32)), .store 3, .expr 1 (.icmp .ult (.var 32 0) (.var 32 1)), .load 4, .load 5,
    .expr 1 (.icmp .uge (.var 32 0) (.var 32 1)), .expr 32 (.zext 32 (.var 1 0)), .check, .malloc, .free]
  D := D
  seen := prog
  prog := prog
  noInference := false

def ctx : Ctx := fun x => if x = 2 ∨ x = 7 then 1 else if x = 6 ∨ x = 8 then 64 else 32

theorem block {b : Nat} {blk : Block Word} (h : fn[b]? = some blk) : (b = 0 ∧ blk = fn[0]) ∨ (b = 1 ∧ blk = fn[1]) ∨ (b = 2 ∧ blk = fn[2]) := by
  rcases b with _ | _ | _ | b
  · exact .inl ⟨rfl, (Option.some.inj h).symm⟩
  · exact .inr (.inl ⟨rfl, (Option.some.inj h).symm⟩)
  · exact .inr (.inr ⟨rfl, (Option.some.inj h).symm⟩)
  · cases h

theorem edge {b t : Nat} (h : Edge fn b t) : (b = 0 ∧ t = 1) ∨ (b = 1 ∧ (t = 1 ∨ t = 2)) := by
  obtain ⟨blk, hb, ht⟩ := h
  rcases block hb with ⟨rfl, rfl⟩ | ⟨rfl, rfl⟩ | ⟨rfl, rfl⟩ <;> simp [fn, Term.succs] at ht <;> simp [ht]

theorem def_in {x d : Nat} (h : DefIn fn x d) : (d = 0 ∧ (x = 8 ∨ x = 5 ∨ x = 6)) ∨ (d = 1 ∧ (x = 10 ∨ x = 0 ∨ x = 1 ∨ x = 2)) ∨
    (d = 2 ∧ (x = 3 ∨ x = 4 ∨ x = 7 ∨ x = 9)) := by
  obtain ⟨blk, hb, hx⟩ := h
  rcases block hb with ⟨rfl, rfl⟩ | ⟨rfl, rfl⟩ | ⟨rfl, rfl⟩ <;> simp [fn, dsts] at hx
  · exact .inl ⟨rfl, hx⟩
  · exact .inr (.inl ⟨rfl, hx⟩)
  · exact .inr (.inr ⟨rfl, hx⟩)

theorem avoid0 {b : Nat} (h : Avoid fn 0 b) : False := by
  induction h with
  | entry h => exact h rfl
  | step b t _ he hne ih => exact ih

theorem avoid1 {b : Nat} (h : Avoid fn 1 b) : b = 0 := by
  induction h with
  | entry => rfl
  | step b t _ he hne ih =>
    subst ih
    rcases edge he with ⟨_, rfl⟩ | ⟨h, _⟩
    · exact absurd rfl hne
    · cases h

theorem dom0 {b : Nat} : Dom fn 0 b := fun h => avoid0 h
theorem dom1 {b : Nat} (h : b ≠ 0) : Dom fn 1 b := fun ha => h (avoid1 ha)

theorem at_exit {b x : Nat} (h : b ≠ 0) (hx : x = 1 ∨ x = 2) : AvailEnd fn b x := by
  intro d hd
  rcases def_in hd with ⟨rfl, _⟩ | ⟨rfl, _⟩ | ⟨_, h⟩
  · exact dom0
  · exact dom1 h
  · omega

theorem avail (b i x : Nat) (hx : (b ≠ 0 ∧ (x = 8 ∨ x = 5 ∨ x = 6)) ∨ ∃ blk, fn[b]? = some blk ∧ (∀ d, DefIn fn x d → d = b) ∧
    (x ∈ blk.phis.map (·.var) ∨ x ∈ dsts (blk.body.take i))) : Avail fn b i x := by
  intro d hd
  rcases hx with ⟨hb, hx⟩ | ⟨blk, hb, hd', hx⟩
  · have hd0 : d = 0 := by have := def_in hd; omega
    subst hd0
    exact .inl ⟨fun e => hb e.symm, dom0⟩
  · exact .inr ⟨hd' d hd, blk, hb, hx⟩

theorem ssa : Ssa fn where
  nonempty := by simp [fn]
  unique := fun x d d' h h' => by
    have := def_in h; have := def_in h'; omega
  nodup := by
    intro b blk hb
    rcases block hb with ⟨rfl, rfl⟩ | ⟨rfl, rfl⟩ | ⟨rfl, rfl⟩ <;> simp [fn, dsts]
  body := by
    have here : ∀ b i x, (∃ blk, fn[b]? = some blk ∧ (x ∈ blk.phis.map (·.var) ∨ x ∈ dsts (blk.body.take i))) →
        (∀ d, DefIn fn x d → d = b) → Avail fn b i x := by
      intro b i x ⟨blk, h1, h2⟩ hd
      exact avail b i x (.inr ⟨blk, h1, hd, h2⟩)
    have early : ∀ b i x, b ≠ 0 → (x = 8 ∨ x = 5 ∨ x = 6) → Avail fn b i x := fun b i x hb hx => avail b i x (.inl ⟨hb, hx⟩)
    intro b blk i ins hb hi o ho
    rcases block hb with ⟨rfl, rfl⟩ | ⟨rfl, rfl⟩ | ⟨rfl, rfl⟩
    · rcases i with _ | _ | _ | _ | _ | i <;> simp [fn] at hi <;> subst hi <;> simp at ho
      · subst ho; trivial
      · subst ho; exact here _ _ _ ⟨_, rfl, by simp [dsts]⟩ (fun d hd => by have := def_in hd; omega)
      · rcases ho with rfl | rfl
        · exact here _ _ _ ⟨_, rfl, by simp [dsts]⟩ (fun d hd => by have := def_in hd; omega)
        · trivial
      · rcases ho with rfl | rfl <;> exact here _ _ _ ⟨_, rfl, by simp [dsts]⟩ (fun d hd => by have := def_in hd; omega)
    · rcases i with _ | _ | _ | _ | i <;> simp [fn] at hi <;> subst hi <;> simp at ho
      · subst ho; exact early _ _ _ (by decide) (.inl rfl)
      · subst ho; exact here _ _ _ ⟨_, rfl, by simp [dsts]⟩ (fun d hd => by have := def_in hd; omega)
      · rcases ho with rfl | rfl
        · exact early _ _ _ (by decide) (.inl rfl)
        · exact here _ _ _ ⟨_, rfl, by simp [dsts]⟩ (fun d hd => by have := def_in hd; omega)
      · rcases ho with rfl | rfl
        · exact here _ _ _ ⟨_, rfl, by simp [dsts]⟩ (fun d hd => by have := def_in hd; omega)
        · exact early _ _ _ (by decide) (.inr (.inl rfl))
    · rcases i with _ | _ | _ | _ | _ | _ | i <;> simp [fn] at hi <;> subst hi <;> simp at ho
      · subst ho; exact early _ _ _ (by decide) (.inl rfl)
      · subst ho; exact early _ _ _ (by decide) (.inr (.inr rfl))
      · rcases ho with rfl | rfl <;> exact here _ _ _ ⟨_, rfl, by simp [dsts]⟩ (fun d hd => by have := def_in hd; omega)
      · subst ho; exact here _ _ _ ⟨_, rfl, by simp [dsts]⟩ (fun d hd => by have := def_in hd; omega)
      · subst ho; exact here _ _ _ ⟨_, rfl, by simp [dsts]⟩ (fun d hd => by have := def_in hd; omega)
      · subst ho; exact early _ _ _ (by decide) (.inl rfl)
  term := by
    intro b blk hb o ho
    rcases block hb with ⟨rfl, rfl⟩ | ⟨rfl, rfl⟩ | ⟨rfl, rfl⟩ <;> simp [fn, Term.uses] at ho
    · subst ho; exact at_exit (by decide) (.inr rfl)
    · subst ho
      intro d hd
      have : d = 2 := by have := def_in hd; omega
      subst this
      exact fun h => by
        have : ∀ b, Avoid fn 2 b → b ≠ 2 := by
          intro b h
          cases h with
          | entry h => exact fun e => h (by rw [← e])
          | step b t _ _ h => exact h
        exact this _ h rfl
  phi := by
    intro b t blk he hb p hp
    rcases block hb with ⟨rfl, rfl⟩ | ⟨rfl, rfl⟩ | ⟨rfl, rfl⟩ <;> simp [fn] at hp
    subst hp
    rcases edge he with ⟨rfl, _⟩ | ⟨rfl, _⟩
    · exact ⟨.const ⟨32, 0⟩, rfl, trivial⟩
    · exact ⟨.var 1, rfl, at_exit (by decide) (.inl rfl)⟩
  phiPreds := by
    intro t blk hb p hp q hq
    rcases block hb with ⟨rfl, rfl⟩ | ⟨rfl, rfl⟩ | ⟨rfl, rfl⟩ <;> simp [fn] at hp
    subst hp
    simp at hq
    rcases hq with rfl | rfl
    · exact ⟨_, rfl, by simp [Term.succs]⟩
    · exact ⟨_, rfl, by simp [Term.succs]⟩
  succs := by
    intro b t he
    rcases edge he with ⟨_, rfl⟩ | ⟨_, rfl | rfl⟩ <;> simp [fn]
  entry := by
    intro b he
    rcases edge he with ⟨_, h⟩ | ⟨_, h | h⟩ <;> cases h

theorem plain : Plain fn where
  noSwitch := by
    intro b blk c cs d hb
    rcases block hb with ⟨rfl, rfl⟩ | ⟨rfl, rfl⟩ | ⟨rfl, rfl⟩ <;> simp [fn]
  distinct := by
    intro b blk hb
    rcases block hb with ⟨rfl, rfl⟩ | ⟨rfl, rfl⟩ | ⟨rfl, rfl⟩ <;> simp [fn, Term.succs]
  invoke := by
    intro b blk n u hb ht
    rcases block hb with ⟨rfl, rfl⟩ | ⟨rfl, rfl⟩ | ⟨rfl, rfl⟩ <;> simp [fn] at ht

theorem complete : LoopsComplete fn [⟨1, [1]⟩] := by
  intro b t _ he hd
  rcases edge he with ⟨rfl, rfl⟩ | ⟨rfl, rfl | rfl⟩
  · exact absurd (.entry (by decide)) hd
  · exact ⟨⟨1, [1]⟩, by simp, rfl, by simp⟩
  · exact absurd (.step 0 1 (.entry (by decide)) ⟨_, rfl, by simp [Term.succs]⟩ (by decide)) hd

theorem module_ok : ModuleOk md where
  valid := {
    fields := fun n => ⟨by show List.Pairwise _ [_, _]; decide,
        by show ∀ f ∈ [(⟨0, [⟨64, 4⟩]⟩ : TypeSafe.Field), ⟨4, [⟨64, 4⟩]⟩], _; decide,
        by show ∀ f ∈ [(⟨0, [⟨64, 4⟩]⟩ : TypeSafe.Field), ⟨4, [⟨64, 4⟩]⟩], _; decide⟩
    recorded := by
      intro A hA
      simp only [md, prog, List.mem_cons, List.not_mem_nil, or_false] at hA
      rcases hA with rfl | rfl | rfl | rfl | rfl | rfl <;> intro n hn <;> cases hn <;> intro _ <;> decide
    fits := by decide
    positive := by decide
    seen := fun _ h => h
    size := by decide
    width := by decide }
  noScalars := fun _ h => by cases h

theorem ok : FnOk ctx md fn where
  instr := by
    intro b blk hb i hi
    have hi' : i ∈ fn[0].body ∨ i ∈ fn[1].body ∨ i ∈ fn[2].body := by
      rcases block hb with ⟨rfl, rfl⟩ | ⟨rfl, rfl⟩ | ⟨rfl, rfl⟩
      · exact .inl hi
      · exact .inr (.inl hi)
      · exact .inr (.inr hi)
    simp [fn] at hi'
    rcases hi' with (rfl | rfl | rfl | rfl | rfl) | (rfl | rfl | rfl | rfl) | rfl | rfl | rfl | rfl | rfl | rfl <;>
      simp [InstrOk, md, prog, Expr.Ok, ctx, Ctx.opd, Nondet.Shape.width, MemSplit.Ty.bits, GIdx.index]
    case inl.inr.inr.inr.inl => exact ⟨_, _, ⟨rfl, rfl⟩, rfl, rfl⟩
    case inl.inr.inr.inr.inr => exact ⟨_, _, ⟨rfl, rfl⟩, rfl, rfl⟩
    case inr.inl.inr.inr.inl => exact ⟨_, _, ⟨rfl, rfl⟩, rfl, rfl⟩
    exact ⟨by decide, by simp [Gep.SizesOk, Gep.SizesOkRest, pair, Gep.Ty.store, Gep.Ty.alloc, Gep.Fields.get?], by
      intro as has
      have : as = [.elem ⟨32, 0, true, 0⟩ pair, .field 4] := (Option.some.inj has).symm
      subst this
      exact ⟨fun _ => ⟨by decide, by decide, .inl (by decide)⟩, trivial⟩⟩
  phi := by
    intro b blk hb p hp q hq
    rcases block hb with ⟨rfl, rfl⟩ | ⟨rfl, rfl⟩ | ⟨rfl, rfl⟩ <;> simp [fn] at hp
    subst hp
    simp at hq
    rcases hq with rfl | rfl <;> simp [ctx, Ctx.opd]
  term := by
    intro b blk hb
    rcases block hb with ⟨rfl, rfl⟩ | ⟨rfl, rfl⟩ | ⟨rfl, rfl⟩ <;> simp [fn]

/-- The regions: one map for each member. -/
example : md.decls = [⟨true, .bv 32⟩, ⟨true, .bv 32⟩] ∧ md.stmts.map (·.region) = [0, 1, 0, 0, 0, 1] := by decide

/-- The accesses of an execution with bound 1 and the structure at address 4096. -/
def trace : List (Event Ptr) :=
  [⟨0, 4096#64, some (.bv 32 0)⟩, ⟨1, 4100#64, some (.bv 32 1)⟩, ⟨2, 4096#64, none⟩, ⟨3, 4096#64, some (.bv 32 1)⟩,
   ⟨4, 4096#64, none⟩, ⟨5, 4100#64, none⟩]

theorem addr_nat {a b i j : Nat} (ha : a ≤ 4100) (hb : b ≤ 4100) (hi : i < 4) (hj : j < 4)
    (h : Bytes.addr (P := Ptr) (BitVec.ofNat 64 a) i = Bytes.addr (P := Ptr) (BitVec.ofNat 64 b) j) : a + i = b + j := by
  have e1 := Bytes.addr_bv (BitVec.ofNat 64 a) i
  have e2 := Bytes.addr_bv (BitVec.ofNat 64 b) j
  have := congrArg BitVec.toNat (e1.symm.trans (Eq.trans h e2))
  simp only [BitVec.toNat_add, BitVec.toNat_ofNat] at this
  omega

theorem sound : Sound md.D md.prog trace where
  alias := by
    intro e he f hf A B hA hB i j hi hj hij
    have key : ∀ e ∈ trace, ∀ A, md.prog[e.stmt]? = some A → A.node = some 0 ∧ A.len = 4 ∧ A.offset ≤ 4 ∧
        e.addr = BitVec.ofNat 64 (4096 + A.offset) := by
      intro e he A hA
      simp only [trace, List.mem_cons, List.not_mem_nil, or_false] at he
      rcases he with rfl | rfl | rfl | rfl | rfl | rfl <;> cases hA <;> exact ⟨rfl, rfl, by decide, rfl⟩
    obtain ⟨a1, a2, a3, a4⟩ := key e he A hA
    obtain ⟨b1, b2, b3, b4⟩ := key f hf B hB
    rw [a4, b4] at hij
    have := addr_nat (by omega) (by omega) (by omega) (by omega) hij
    exact .inr (.inr ⟨a1.trans b1.symm, .inr (by omega)⟩)
  global := by
    intro e he f hf A B hA hB n hn hn' ho h1
    cases h1

theorem sound_prefix (n : Nat) : Sound md.D md.prog (trace.take n) := Sound.mono sound fun _ h => List.mem_of_mem_take h

/-- The variables at the start. -/
def env : Env Word := fun x => ⟨ctx x, 0⟩

/-- The history after `malloc`, and at the end. -/
def h1 : List HEv := [.alloc false 4096#64 8#64]
def h2 : List HEv := [.alloc false 4096#64 8#64, .free 4096#64]

noncomputable def M1 : BitVec 64 → BitVec 8 := MemSplit.flatWrite (P := Ptr) (fun _ => 0) 4096#64 4 0#32
noncomputable def M2 : BitVec 64 → BitVec 8 := MemSplit.flatWrite (P := Ptr) M1 4100#64 4 1#32
noncomputable def M3 : BitVec 64 → BitVec 8 := MemSplit.flatWrite (P := Ptr) M2 4096#64 4 1#32

theorem read_other (M : BitVec 64 → BitVec 8) (a b : Nat) (v : BitVec 32) (ha : a ≤ 4100) (hb : b ≤ 4100) (h : a + 4 = b ∨ b + 4 = a) :
    MemSplit.flatRead (P := Ptr) (MemSplit.flatWrite (P := Ptr) M (BitVec.ofNat 64 a) 4 v) (BitVec.ofNat 64 b) (.int 32) =
      MemSplit.flatRead (P := Ptr) M (BitVec.ofNat 64 b) (.int 32) := by
  apply MemSplit.flatRead_congr
  intro i hi
  replace hi : i < 4 := hi
  apply MemSplit.flatWrite_miss
  intro j hj he
  have := addr_nat ha hb hj hi he
  omega

theorem read_same (M : BitVec 64 → BitVec 8) (p : BitVec 64) (v : BitVec 32) :
    MemSplit.flatRead (P := Ptr) (MemSplit.flatWrite (P := Ptr) M p 4 v) p (.int 32) = v :=
  MemSplit.flatRead_write (P := Ptr) M p (.int 32) v (MemSplit.laws_bv.spread _ _ (by decide))

theorem read1 : MemSplit.flatRead (P := Ptr) M2 4096#64 (.int 32) = 0#32 :=
  (read_other M1 4100 4096 1 (by decide) (by decide) (by decide)).trans (read_same _ _ _)

theorem read2 : MemSplit.flatRead (P := Ptr) M3 4100#64 (.int 32) = 1#32 :=
  (read_other M2 4096 4100 1 (by decide) (by decide) (by decide)).trans (read_same _ _ _)

theorem read3 : MemSplit.flatRead (P := Ptr) M3 4096#64 (.int 32) = 1#32 := read_same _ _ _

/-- An execution in LLVM that returns 1. -/
theorem run : Run (llvm md) fn 0 env ⟨fun _ => 0, [], []⟩ (.ret (some ⟨32, 1#32⟩) ⟨M3, trace, h2⟩) := by
  have q13 : (llvm md).sem 13 [⟨64, 8#64⟩] ⟨fun _ => 0, [], []⟩ (some (⟨64, 4096#64⟩, ⟨fun _ => 0, [], h1⟩)) := by
    refine ⟨8#64, rfl, .inr ⟨4096#64, .inr ⟨by decide, by decide, ?_⟩, rfl⟩⟩
    rintro st q k ⟨l1, l2, h, _⟩
    simp at h
  have q14 : (llvm md).sem 14 [⟨64, 4096#64⟩] ⟨M3, trace, h1⟩ (some (⟨64, 4096#64⟩, ⟨M3, trace, h2⟩)) :=
    ⟨4096#64, rfl, .inr ⟨.inr ⟨8#64, [], [], rfl, by simp⟩, rfl⟩⟩
  have q0 : (llvm md).sem 0 [] ⟨fun _ => 0, [], h1⟩ (some (⟨32, 1#32⟩, ⟨fun _ => 0, [], h1⟩)) := ⟨1#32, rfl⟩
  have q1 : (llvm md).sem 1 [⟨64, 4096#64⟩] ⟨fun _ => 0, [], h1⟩ (some (⟨64, 4100#64⟩, ⟨fun _ => 0, [], h1⟩)) := by
    refine .inr ⟨?_, 4, .scalar 4 4, by decide, rfl⟩
    rintro ⟨i, hi, h, _⟩
    simp [GIdx.index] at hi
    rcases hi with rfl | rfl <;> cases h
  have q2 : (llvm md).sem 2 [⟨64, 4096#64⟩, ⟨32, 0#32⟩] ⟨fun _ => 0, [], h1⟩ (some (⟨32, 0#32⟩, ⟨M1, trace.take 1, h1⟩)) :=
    ⟨4096#64, ⟨some 0, 0, .int 32, 4⟩, 0#32, rfl, rfl, .inr ⟨sound_prefix 1, rfl⟩⟩
  have q3 : (llvm md).sem 3 [⟨64, 4100#64⟩, ⟨32, 1#32⟩] ⟨M1, trace.take 1, h1⟩ (some (⟨32, 1#32⟩, ⟨M2, trace.take 2, h1⟩)) :=
    ⟨4100#64, ⟨some 0, 4, .int 32, 4⟩, 1#32, rfl, rfl, .inr ⟨sound_prefix 2, rfl⟩⟩
  have q4 : (llvm md).sem 4 [⟨64, 4096#64⟩] ⟨M2, trace.take 2, h1⟩ (some (⟨32, 0#32⟩, ⟨M2, trace.take 3, h1⟩)) :=
    ⟨4096#64, ⟨some 0, 0, .int 32, 4⟩, rfl, rfl, .inr ⟨sound_prefix 3, by rw [← read1]; rfl⟩⟩
  have q5 : (llvm md).sem 5 [⟨32, 0#32⟩] ⟨M2, trace.take 3, h1⟩ (some (⟨32, 1#32⟩, ⟨M2, trace.take 3, h1⟩)) := .inr ⟨1#32, by decide, rfl⟩
  have q6 : (llvm md).sem 6 [⟨64, 4096#64⟩, ⟨32, 1#32⟩] ⟨M2, trace.take 3, h1⟩ (some (⟨32, 1#32⟩, ⟨M3, trace.take 4, h1⟩)) :=
    ⟨4096#64, ⟨some 0, 0, .int 32, 4⟩, 1#32, rfl, rfl, .inr ⟨sound_prefix 4, rfl⟩⟩
  have q7 : (llvm md).sem 7 [⟨32, 1#32⟩, ⟨32, 1#32⟩] ⟨M3, trace.take 4, h1⟩ (some (⟨1, 0#1⟩, ⟨M3, trace.take 4, h1⟩)) := .inr ⟨0#1, by decide, rfl⟩
  have q8 : (llvm md).sem 8 [⟨64, 4096#64⟩] ⟨M3, trace.take 4, h1⟩ (some (⟨32, 1#32⟩, ⟨M3, trace.take 5, h1⟩)) :=
    ⟨4096#64, ⟨some 0, 0, .int 32, 4⟩, rfl, rfl, .inr ⟨sound_prefix 5, by rw [← read3]; rfl⟩⟩
  have q9 : (llvm md).sem 9 [⟨64, 4100#64⟩] ⟨M3, trace.take 5, h1⟩ (some (⟨32, 1#32⟩, ⟨M3, trace, h1⟩)) :=
    ⟨4100#64, ⟨some 0, 4, .int 32, 4⟩, rfl, rfl, .inr ⟨sound_prefix 6, by rw [← read2]; rfl⟩⟩
  have q10 : (llvm md).sem 10 [⟨32, 1#32⟩, ⟨32, 1#32⟩] ⟨M3, trace, h1⟩ (some (⟨1, 1#1⟩, ⟨M3, trace, h1⟩)) := .inr ⟨1#1, by decide, rfl⟩
  have q11 : (llvm md).sem 11 [⟨1, 1#1⟩] ⟨M3, trace, h1⟩ (some (⟨32, 1#32⟩, ⟨M3, trace, h1⟩)) := .inr ⟨1#32, by decide, rfl⟩
  have q12 : (llvm md).sem 12 [⟨32, 1#32⟩] ⟨M3, trace, h1⟩ (some (⟨32, 1#32⟩, ⟨M3, trace, h1⟩)) := ⟨1#32, rfl, .inr ⟨by decide, rfl⟩⟩
  refine .step 0 _ _ _ _ ⟨M2, trace.take 2, h1⟩ 1 _ _ rfl (.cons _ _ _ _ _ _ _ _ q13 (.cons _ _ _ _ _ _ _ _ q0 (.cons _ _ _ _ _ _ _ _ q1
    (.cons _ _ _ _ _ _ _ _ q2 (.cons _ _ _ _ _ _ _ _ q3 (.nil _ _)))))) rfl rfl ?_
  refine .step 1 _ _ _ _ ⟨M3, trace.take 4, h1⟩ 2 _ _ rfl (.cons _ _ _ _ _ _ _ _ q4 (.cons _ _ _ _ _ _ _ _ q5 (.cons _ _ _ _ _ _ _ _ q6
    (.cons _ _ _ _ _ _ _ _ q7 (.nil _ _))))) rfl rfl ?_
  exact .leave 2 _ _ _ _ ⟨M3, trace, h2⟩ _ rfl (.cons _ _ _ _ _ _ _ _ q8 (.cons _ _ _ _ _ _ _ _ q9 (.cons _ _ _ _ _ _ _ _ q10
    (.cons _ _ _ _ _ _ _ _ q11 (.cons _ _ _ _ _ _ _ _ q12 (.cons _ _ _ _ _ _ _ _ q14 (.nil _ _))))))) rfl

end Ex

theorem Ex.start : Start 4096#64 [] := by
  refine ⟨by decide, by decide, ?_⟩
  rintro st q k ⟨l1, l2, h, _⟩
  simp at h

/-- The hypotheses hold of a function with a loop, two members of a structure in allocated memory and an assertion. -/
example : Ssa Ex.fn ∧ Plain Ex.fn ∧ LoopsComplete Ex.fn [⟨1, [1]⟩] ∧ ModuleOk Ex.md ∧ FnOk Ex.ctx Ex.md Ex.fn ∧ Start 4096#64 [] ∧
    Follows 4096#64 Ex.h2 :=
  ⟨Ex.ssa, Ex.plain, Ex.complete, Ex.module_ok, Ex.ok, Ex.start, rfl, 8192#64, by decide, by decide, trivial⟩

/-- Its execution that returns 1 has a counterpart in Boogie, which returns 1 after the same accesses to the same block. -/
example (S : Smt) : ∃ σ s, VarsTyped Ex.md σ ∧ s.trace = Ex.trace ∧ s.heap = Ex.h2 ∧ ∃ n, BRun (boogie S Ex.md) (compile [⟨1, [1]⟩] Ex.fn) n
    (compile [⟨1, [1]⟩] Ex.fn (.real 0)) ⟨Ex.env, ⟨σ, [], 4096#64, []⟩, none⟩ (.ret (some ⟨32, 1#32⟩) s) := by
  obtain ⟨σ, h1, o', h2, h3⟩ := c67_forward_partial S Ex.ctx Ex.md Ex.fn [⟨1, [1]⟩] Ex.ssa Ex.plain Ex.complete Ex.module_ok Ex.ok
    Ex.env (fun _ => rfl) _ [] 4096#64 Ex.start _ Ex.run Ex.h2 rfl ⟨rfl, 8192#64, by decide, by decide, trivial⟩ (fun _ _ _ h => by cases h)
  cases h2 with
  | ret v s s' h => exact ⟨σ, s', h1, h.1.symm, h.2.1.symm, h3⟩

end Smack.E2EBv
