/-
C66: the translation of a whole function on integers, from LLVM executions to executions of the generated Boogie code.
-/
import Verif.E2E.Ops
import Verif.Cfg.Props

namespace Smack.E2E

open Smack.IntOps Smack.Cfg Smack.Cfg.Spec

theorem out_rel {enc : Enc} {o : Outcome Word Unit} {o' : Outcome Int Unit}
    (h : Out (fun _ _ => True) (Represents enc) (ArgsRel enc) o o') : OutRel enc o o' := by
  cases h with
  | retNone => exact .retNone
  | retSome v i _ _ h => exact .retSome v i h
  | fail op l l' _ _ h => exact .fail op l l' h.1 h.2

variable (S : Smt) (enc : Enc) (Γ : Ctx) (ops : List Op) (fn : Fn Word) (ls : List Loop)

/-- **C66, no missed failures (integers, no memory, no calls).** Every execution of the function in LLVM that returns or fails an
assertion, without meeting undefined behaviour or an operation that the encoding does not reproduce, has a counterpart in the
generated Boogie code that returns a representation of the same value or fails the same assertion. -/
theorem c66_forward_partial (hs : Ssa fn) (hp : Plain fn) (hl : LoopsComplete fn ls) (hf : FnOk enc Γ ops fn)
    (ρ : Env Word) (σ : Env Int) (hE : EnvRel enc Γ ρ σ) (o : Outcome Word Unit) (h : Run (llvm enc ops) fn 0 ρ () o)
    (ho : ∀ op l, o = .fail op l () → IsCheck ops op) :
    ∃ o', OutRel enc o o' ∧ ∃ n, BRun (boogie S enc ops) (compile ls fn) n (compile ls fn (.real 0)) ⟨σ, (), none⟩ o' := by
  obtain ⟨o', h1, h2⟩ := run_fwd (simulates S hf) h σ () hE trivial (fun op l _ e => ho op l e)
  exact ⟨o', out_rel h2, (c26_normalised_executions (boogie S enc ops) (mapFn konst fn) (ssa_map hs) (plain_map hp) ls (loops_map hl)
    σ () o').1 h1⟩

/-- **C66, no false alarms (integers, no memory, no calls).** Every execution of the generated Boogie code that returns or fails an
assertion comes from an execution in LLVM that returns the represented value or fails the same assertion, unless there is an execution in
LLVM that meets undefined behaviour or an operation that the encoding does not reproduce. -/
theorem c66_backward_partial (hs : Ssa fn) (hp : Plain fn) (hl : LoopsComplete fn ls) (hf : FnOk enc Γ ops fn)
    (ρ : Env Word) (σ : Env Int) (hE : EnvRel enc Γ ρ σ) (o' : Outcome Int Unit) (n : Nat)
    (h : BRun (boogie S enc ops) (compile ls fn) n (compile ls fn (.real 0)) ⟨σ, (), none⟩ o') :
    (∃ op l, ¬ IsCheck ops op ∧ Run (llvm enc ops) fn 0 ρ () (.fail op l ())) ∨
    ∃ o, OutRel enc o o' ∧ Run (llvm enc ops) fn 0 ρ () o := by
  have h1 := (c26_normalised_executions (boogie S enc ops) (mapFn konst fn) (ssa_map hs) (plain_map hp) ls (loops_map hl)
    σ () o').2 ⟨n, h⟩
  rcases run_bwd (simulates S hf) h1 ρ () hE trivial with ⟨op, l, _, q1, q2⟩ | ⟨o, q1, q2⟩
  · exact .inl ⟨op, l, q1, q2⟩
  · exact .inr ⟨o, out_rel q2, q1⟩

/-- Every well-typed environment has a corresponding Boogie environment, so the hypotheses above can be met from every start. -/
theorem exists_env (ρ : Env Word) (h : ∀ x, (ρ x).1 = Γ.width x) : ∃ σ, EnvRel enc Γ ρ σ := by
  refine ⟨fun x => konst (ρ x), fun x => ?_⟩
  have := konst_rel enc (ρ x)
  exact ⟨h x, this.rep, fun e _ => this.red e trivial⟩

/-! ### A function that meets the hypotheses -/

/-- `n = nondet_uint(); for (x = 0; ; x = y) { y = x + 1; if (!(y < n)) break; } assert(y >= n); return y;` -/
def countFn : Fn Word :=
  [⟨[], [⟨some 5, 0, []⟩], .br 1⟩,
   ⟨[⟨0, [(0, .const ⟨32, 0⟩), (1, .var 1)]⟩], [⟨some 1, 1, [.var 0]⟩, ⟨some 2, 2, [.var 1, .var 5]⟩], .cbr (.var 2) 1 2⟩,
   ⟨[], [⟨some 3, 3, [.var 1, .var 5]⟩, ⟨some 4, 4, [.var 3]⟩, ⟨none, 5, [.var 4]⟩], .ret (some (.var 1))⟩]

def countOps : List Op :=
  [.nondet (.uDirect 32), .expr 32 (.add (.var 32 0) (.lit false false 1#32)), .expr 1 (.icmp .ult (.var 32 0) (.var 32 1)),
   .expr 1 (.icmp .uge (.var 32 0) (.var 32 1)), .expr 32 (.zext 32 (.var 1 0)), .check 32]

def countCtx : Ctx := ⟨fun x => if x = 2 ∨ x = 3 then 1 else 32, fun x => x = 2 ∨ x = 3 ∨ x = 4⟩

theorem count_block {b : Nat} {blk : Block Word} (h : countFn[b]? = some blk) : (b = 0 ∧ blk = countFn[0]) ∨ (b = 1 ∧ blk = countFn[1]) ∨
    (b = 2 ∧ blk = countFn[2]) := by
  rcases b with _ | _ | _ | b
  · exact .inl ⟨rfl, (Option.some.inj h).symm⟩
  · exact .inr (.inl ⟨rfl, (Option.some.inj h).symm⟩)
  · exact .inr (.inr ⟨rfl, (Option.some.inj h).symm⟩)
  · cases h

theorem count_edge {b t : Nat} (h : Edge countFn b t) : (b = 0 ∧ t = 1) ∨ (b = 1 ∧ (t = 1 ∨ t = 2)) := by
  obtain ⟨blk, hb, ht⟩ := h
  rcases count_block hb with ⟨rfl, rfl⟩ | ⟨rfl, rfl⟩ | ⟨rfl, rfl⟩ <;> simp [countFn, Term.succs] at ht <;> simp [ht]

theorem count_def {x d : Nat} (h : DefIn countFn x d) : (d = 0 ∧ x = 5) ∨ (d = 1 ∧ x < 3) ∨ (d = 2 ∧ (x = 3 ∨ x = 4)) := by
  obtain ⟨blk, hb, hx⟩ := h
  rcases count_block hb with ⟨rfl, rfl⟩ | ⟨rfl, rfl⟩ | ⟨rfl, rfl⟩ <;> simp [countFn, dsts] at hx
  · exact .inl ⟨rfl, hx⟩
  · exact .inr (.inl ⟨rfl, by rcases hx with rfl | rfl | rfl <;> decide⟩)
  · exact .inr (.inr ⟨rfl, hx⟩)

theorem count_avoid0 {b : Nat} (h : Avoid countFn 0 b) : False := by
  induction h with
  | entry h => exact h rfl
  | step b t _ he hne ih => exact ih

theorem count_avoid1 {b : Nat} (h : Avoid countFn 1 b) : b = 0 := by
  induction h with
  | entry => rfl
  | step b t _ he hne ih =>
    subst ih
    rcases count_edge he with ⟨_, rfl⟩ | ⟨h, _⟩
    · exact absurd rfl hne
    · cases h

theorem count_dom0 {b : Nat} : Dom countFn 0 b := fun h => count_avoid0 h
theorem count_dom1 {b : Nat} (h : b ≠ 0) : Dom countFn 1 b := fun ha => h (count_avoid1 ha)

theorem count_end {b x : Nat} (h : b ≠ 0) (hx : x ≠ 3 ∧ x ≠ 4) : AvailEnd countFn b x := by
  intro d hd
  rcases count_def hd with ⟨rfl, _⟩ | ⟨rfl, _⟩ | ⟨_, h⟩
  · exact count_dom0
  · exact count_dom1 h
  · omega

theorem count_ssa : Ssa countFn where
  nonempty := by simp [countFn]
  unique := fun x d d' h h' => by
    rcases count_def h with h | h | h <;> rcases count_def h' with h' | h' | h' <;> omega
  nodup := by
    intro b blk hb
    rcases count_block hb with ⟨rfl, rfl⟩ | ⟨rfl, rfl⟩ | ⟨rfl, rfl⟩ <;> simp [countFn, dsts]
  body := by
    have five : ∀ b i, b ≠ 0 → Avail countFn b i 5 := by
      intro b i hb d hd
      rcases count_def hd with ⟨rfl, _⟩ | ⟨rfl, h⟩ | ⟨_, h⟩
      · exact .inl ⟨fun e => hb e.symm, count_dom0⟩
      · omega
      · omega
    intro b blk i ins hb hi o ho
    rcases count_block hb with ⟨rfl, rfl⟩ | ⟨rfl, rfl⟩ | ⟨rfl, rfl⟩
    · rcases i with _ | i
      · simp [countFn] at hi; subst hi; simp at ho
      · simp [countFn] at hi
    · rcases i with _ | _ | i
      · simp [countFn] at hi; subst hi; simp at ho; subst ho
        intro d hd
        have := count_def hd
        exact .inr ⟨by omega, _, rfl, by simp⟩
      · simp [countFn] at hi; subst hi; simp at ho
        rcases ho with rfl | rfl
        · intro d hd
          have := count_def hd
          exact .inr ⟨by omega, _, rfl, by simp [dsts]⟩
        · exact five _ _ (by decide)
      · simp [countFn] at hi
    · rcases i with _ | _ | _ | i
      · simp [countFn] at hi; subst hi; simp at ho
        rcases ho with rfl | rfl
        · intro d hd
          have := count_def hd
          refine .inl ⟨by omega, ?_⟩
          have : d = 1 := by omega
          subst this
          exact count_dom1 (by decide)
        · exact five _ _ (by decide)
      · simp [countFn] at hi; subst hi; simp at ho; subst ho
        intro d hd
        have := count_def hd
        exact .inr ⟨by omega, _, rfl, by simp [dsts]⟩
      · simp [countFn] at hi; subst hi; simp at ho; subst ho
        intro d hd
        have := count_def hd
        exact .inr ⟨by omega, _, rfl, by simp [dsts]⟩
      · simp [countFn] at hi
  term := by
    intro b blk hb o ho
    rcases count_block hb with ⟨rfl, rfl⟩ | ⟨rfl, rfl⟩ | ⟨rfl, rfl⟩ <;> simp [countFn, Term.uses] at ho
    · subst ho; exact count_end (by decide) (by decide)
    · subst ho; exact count_end (by decide) (by decide)
  phi := by
    intro b t blk he hb p hp
    rcases count_block hb with ⟨rfl, rfl⟩ | ⟨rfl, rfl⟩ | ⟨rfl, rfl⟩ <;> simp [countFn] at hp
    subst hp
    rcases count_edge he with ⟨rfl, _⟩ | ⟨rfl, _⟩
    · exact ⟨.const ⟨32, 0⟩, rfl, trivial⟩
    · exact ⟨.var 1, rfl, count_end (by decide) (by decide)⟩
  phiPreds := by
    intro t blk hb p hp q hq
    rcases count_block hb with ⟨rfl, rfl⟩ | ⟨rfl, rfl⟩ | ⟨rfl, rfl⟩ <;> simp [countFn] at hp
    subst hp
    simp at hq
    rcases hq with rfl | rfl
    · exact ⟨_, rfl, by simp [Term.succs]⟩
    · exact ⟨_, rfl, by simp [Term.succs]⟩
  succs := by
    intro b t he
    rcases count_edge he with ⟨_, rfl⟩ | ⟨_, rfl | rfl⟩ <;> simp [countFn]
  entry := by
    intro b he
    rcases count_edge he with ⟨_, h⟩ | ⟨_, h | h⟩ <;> cases h

theorem count_plain : Plain countFn where
  noSwitch := by
    intro b blk c cs d hb
    rcases count_block hb with ⟨rfl, rfl⟩ | ⟨rfl, rfl⟩ | ⟨rfl, rfl⟩ <;> simp [countFn]
  distinct := by
    intro b blk hb
    rcases count_block hb with ⟨rfl, rfl⟩ | ⟨rfl, rfl⟩ | ⟨rfl, rfl⟩ <;> simp [countFn, Term.succs]
  invoke := by
    intro b blk n u hb ht
    rcases count_block hb with ⟨rfl, rfl⟩ | ⟨rfl, rfl⟩ | ⟨rfl, rfl⟩ <;> simp [countFn] at ht

theorem count_complete : LoopsComplete countFn [⟨1, [1]⟩] := by
  intro b t _ he hd
  rcases count_edge he with ⟨rfl, rfl⟩ | ⟨rfl, rfl | rfl⟩
  · exact absurd (.entry (by decide)) hd
  · exact ⟨⟨1, [1]⟩, by simp, rfl, by simp⟩
  · exact absurd (.step 0 1 (.entry (by decide)) ⟨_, rfl, by simp [Term.succs]⟩ (by decide)) hd

theorem count_ok (enc : Enc) : FnOk enc countCtx countOps countFn where
  positive := fun x => by simp only [countCtx]; split <;> omega
  instr := by
    intro b blk hb i hi
    have hi' : i ∈ countFn[0].body ∨ i ∈ countFn[1].body ∨ i ∈ countFn[2].body := by
      rcases count_block hb with ⟨rfl, rfl⟩ | ⟨rfl, rfl⟩ | ⟨rfl, rfl⟩
      · exact .inl hi
      · exact .inr (.inl hi)
      · exact .inr (.inr hi)
    simp [countFn] at hi'
    rcases hi' with rfl | (rfl | rfl) | rfl | rfl | rfl <;>
      simp [InstrOk, countOps, Expr.WellTyped, Expr.NarrowLits, VarsIn, NoArith1, Reduced, countCtx, Ctx.opdWidth, Ctx.opdReduced,
        Nondet.Shape.width]
  phi := by
    intro b blk hb p hp q hq
    rcases count_block hb with ⟨rfl, rfl⟩ | ⟨rfl, rfl⟩ | ⟨rfl, rfl⟩ <;> simp [countFn] at hp
    subst hp
    simp at hq
    rcases hq with rfl | rfl <;> simp [countCtx, Ctx.opdWidth, Ctx.opdReduced]
  cond := by
    intro b blk c t f hb ht
    rcases count_block hb with ⟨rfl, rfl⟩ | ⟨rfl, rfl⟩ | ⟨rfl, rfl⟩ <;> simp [countFn] at ht
    rw [← ht.1]; simp [countCtx, Ctx.opdWidth]
  term := by
    intro b blk hb
    rcases count_block hb with ⟨rfl, rfl⟩ | ⟨rfl, rfl⟩ | ⟨rfl, rfl⟩ <;> simp [countFn]

/-- The hypotheses hold of a function with a loop, an unknown bound and an assertion, in both encodings. -/
example (enc : Enc) : Ssa countFn ∧ Plain countFn ∧ LoopsComplete countFn [⟨1, [1]⟩] ∧ FnOk enc countCtx countOps countFn ∧
    ∃ ρ σ, EnvRel enc countCtx ρ σ := by
  obtain ⟨σ, h⟩ := exists_env enc countCtx (fun x => ⟨countCtx.width x, 0⟩) (fun _ => rfl)
  exact ⟨count_ssa, count_plain, count_complete, count_ok enc, _, σ, h⟩

/-- It has an execution in LLVM that returns 1 (for `n = 1`) in both encodings. -/
example (enc : Enc) (ρ : Env Word) : Run (llvm enc countOps) countFn 0 ρ () (.ret (some ⟨32, 1#32⟩) ()) := by
  have hn : ∀ {w : Nat} (e : Expr w) l v x, e.evalBv (argBits l) = some v → e.SdivExact (argBits l) → e.exact (argBits l) = some x →
      ¬ Stops enc e l := by
    intro w e l v x h1 h2 h3 h
    rcases h with h | h
    · rw [h1] at h; cases h
    · cases enc with
      | wrapped => exact h h2
      | unbounded => rw [show e.exact (argBits l) = none from h] at h3; cases h3
  have s1 : ¬ Stops enc (.add (.var 32 0) (.lit false false 1#32)) [⟨32, 0#32⟩] := hn _ _ 1#32 1 (by decide) ⟨trivial, trivial⟩ (by decide)
  have s2 : ¬ Stops enc (.icmp .ult (.var 32 0) (.var 32 1)) [⟨32, 1#32⟩, ⟨32, 1#32⟩] :=
    hn _ _ 0#1 0 (by decide) ⟨trivial, trivial⟩ (by decide)
  have s3 : ¬ Stops enc (.icmp .uge (.var 32 0) (.var 32 1)) [⟨32, 1#32⟩, ⟨32, 1#32⟩] :=
    hn _ _ 1#1 1 (by decide) ⟨trivial, trivial⟩ (by decide)
  have s4 : ¬ Stops enc (.zext 32 (.var 1 0)) [⟨1, 1#1⟩] := hn _ _ 1#32 1 (by decide) trivial (by decide)
  have e1 : Expr.evalBv (argBits [⟨32, 0#32⟩]) (.add (.var 32 0) (.lit false false 1#32)) = some 1#32 := by decide
  have e2 : Expr.evalBv (argBits [⟨32, 1#32⟩, ⟨32, 1#32⟩]) (.icmp .ult (.var 32 0) (.var 32 1)) = some 0#1 := by decide
  have e3 : Expr.evalBv (argBits [⟨32, 1#32⟩, ⟨32, 1#32⟩]) (.icmp .uge (.var 32 0) (.var 32 1)) = some 1#1 := by decide
  have e4 : Expr.evalBv (argBits [⟨1, 1#1⟩]) (.zext 32 (.var 1 0)) = some 1#32 := by decide
  have q0 : (llvm enc countOps).sem 0 [] () (some (⟨32, 1#32⟩, ())) := ⟨1#32, .inr ⟨fun h => absurd h.2.2 (by decide), rfl⟩⟩
  have q1 : (llvm enc countOps).sem 1 [⟨32, 0#32⟩] () (some (⟨32, 1#32⟩, ())) := .inr ⟨s1, 1#32, e1, rfl⟩
  have q2 : (llvm enc countOps).sem 2 [⟨32, 1#32⟩, ⟨32, 1#32⟩] () (some (⟨1, 0#1⟩, ())) := .inr ⟨s2, 0#1, e2, rfl⟩
  have q3 : (llvm enc countOps).sem 3 [⟨32, 1#32⟩, ⟨32, 1#32⟩] () (some (⟨1, 1#1⟩, ())) := .inr ⟨s3, 1#1, e3, rfl⟩
  have q4 : (llvm enc countOps).sem 4 [⟨1, 1#1⟩] () (some (⟨32, 1#32⟩, ())) := .inr ⟨s4, 1#32, e4, rfl⟩
  have q5 : (llvm enc countOps).sem 5 [⟨32, 1#32⟩] () (some (⟨32, 1#32⟩, ())) := ⟨⟨32, 1#32⟩, rfl, .inr ⟨by decide, rfl⟩⟩
  refine .step 0 _ _ _ _ () 1 _ _ rfl (.cons _ _ _ _ _ () _ _ q0 (.nil _ _)) rfl rfl ?_
  refine .step 1 _ _ _ _ () 2 _ _ rfl (.cons _ _ _ _ _ () _ _ q1 (.cons _ _ _ _ _ () _ _ q2 (.nil _ _))) rfl rfl ?_
  exact .leave 2 _ _ _ _ () _ rfl (.cons _ _ _ _ _ () _ _ q3 (.cons _ _ _ _ _ () _ _ q4 (.cons _ _ _ _ _ () _ _ q5 (.nil _ _)))) rfl

/-! ### Assertions and assumptions on values that are not reduced -/

/-- `y = x * x; __VERIFIER_assert(y);` -/
def squareFn : Fn Word := [⟨[], [⟨some 1, 0, [.var 0]⟩, ⟨none, 1, [.var 1]⟩], .ret none⟩]

def squareOps : List Op := [.expr 32 (.mul (.var 32 0) (.var 32 0)), .check 32]

/-- A missed failure with wrapped integers: for `x = 65536` the assertion fails in LLVM, because `x * x` wraps to 0. In Boogie the
argument is compared with 0 without being wrapped, and no execution fails. -/
theorem c66_unreduced_assert_fails : ∃ (ρ : Env Word) (σ : Env Int), (∀ x, (ρ x).1 = 32 ∧ Represents .wrapped (ρ x) (σ x)) ∧
    Run (llvm .wrapped squareOps) squareFn 0 ρ () (.fail 1 [⟨32, 0⟩] ()) ∧
    ∀ S n o, BRun (boogie S .wrapped squareOps) (compile [] squareFn) n (compile [] squareFn (.real 0)) ⟨σ, (), none⟩ o → o = .ret none () := by
  refine ⟨fun _ => ⟨32, 65536⟩, fun _ => 65536, fun x => ⟨rfl, (by show BitVec.ofInt 32 65536 = 65536; decide), fun h => absurd (show 32 = 1 from h) (by decide)⟩, ?_, ?_⟩
  · have q0 : (llvm .wrapped squareOps).sem 0 [⟨32, 65536⟩] () (some (⟨32, 0⟩, ())) := by
      refine .inr ⟨?_, 0, by decide, rfl⟩
      rintro (h | h)
      · exact absurd h (by decide)
      · exact h ⟨trivial, trivial⟩
    have q1 : (llvm .wrapped squareOps).sem 1 [⟨32, 0⟩] () none := ⟨⟨32, 0⟩, rfl, .inl ⟨rfl, rfl⟩⟩
    exact .fail 0 _ _ _ _ rfl (.there _ _ _ _ (⟨32, 0⟩ : Word) () _ q0 (.here ⟨none, 1, [.var 1]⟩ _ _ _ q1))
  · intro S n o h
    have c0 : compile [] squareFn (.real 0) = [.instr ⟨some 1, 0, [.var 0]⟩, .instr ⟨none, 1, [.var 1]⟩, .setExn false, .return_] := rfl
    rw [c0] at h
    cases h with
    | instr n _ _ _ v m' _ hs h =>
      obtain ⟨i, hi, he⟩ := hs
      have hv : v = i := by cases he; rfl
      subst hv
      have hi' : v = 4294967296 := (Option.some.inj hi).symm
      cases h with
      | instr n _ _ _ v m' _ hs h =>
        cases h with
        | setExn n _ _ _ _ h =>
          cases h with
          | return_ => rfl
      | fail n _ _ _ hs =>
        obtain ⟨j, hj, he⟩ := hs
        have : j = v := by simpa [eval, setOpt] using hj.symm
        rw [if_pos (by omega)] at he
        cases he
    | fail n _ _ _ hs =>
      obtain ⟨i, hi, he⟩ := hs
      cases he

/-- `y = x * x; __VERIFIER_assume(y); __VERIFIER_assert(0);` -/
def assumeFn : Fn Word := [⟨[], [⟨some 1, 0, [.var 0]⟩, ⟨none, 1, [.var 1]⟩, ⟨none, 2, [.const ⟨32, 0⟩]⟩], .ret none⟩]

def assumeOps : List Op := [.expr 32 (.mul (.var 32 0) (.var 32 0)), .assume 32, .check 32]

/-- A false alarm for the same reason: with `x = 65536` LLVM does not get past the assumption, but Boogie does. -/
theorem c66_unreduced_assume_fails : ∃ (ρ : Env Word) (σ : Env Int), (∀ x, (ρ x).1 = 32 ∧ Represents .wrapped (ρ x) (σ x)) ∧
    (∀ o, ¬ Run (llvm .wrapped assumeOps) assumeFn 0 ρ () o) ∧
    ∀ S, ∃ n, BRun (boogie S .wrapped assumeOps) (compile [] assumeFn) n (compile [] assumeFn (.real 0)) ⟨σ, (), none⟩ (.fail 2 [0] ()) := by
  have stuck : ∀ l, (llvm .wrapped assumeOps).sem 0 [⟨32, 65536⟩] () l → l = some (⟨32, 0⟩, ()) := by
    rintro l (⟨h, rfl⟩ | ⟨_, v, hv, rfl⟩)
    · rcases h with h | h
      · cases h
      · exact absurd ⟨trivial, trivial⟩ h
    · have : v = 0 := by
        have := Option.some.inj hv
        rw [← this]; decide
      rw [this]
  have stuck2 : ∀ l, ¬ (llvm .wrapped assumeOps).sem 1 [⟨32, 0⟩] () l := by
    rintro l ⟨v, hv, hne, _⟩
    have : v = ⟨32, 0⟩ := by simpa using hv.symm
    rw [this] at hne
    exact hne rfl
  refine ⟨fun _ => ⟨32, 65536⟩, fun _ => 65536, fun x => ⟨rfl, (by show BitVec.ofInt 32 65536 = 65536; decide), fun h => absurd (show 32 = 1 from h) (by decide)⟩, ?_, ?_⟩
  · have body : ∀ blk, assumeFn[0]? = some blk → blk.body = [⟨some 1, 0, [.var 0]⟩, ⟨none, 1, [.var 1]⟩, ⟨none, 2, [.const ⟨32, 0⟩]⟩] := by
      intro blk h
      cases h
      rfl
    have ex : ∀ ρ' m', ¬ Exec (llvm .wrapped assumeOps) [⟨some 1, 0, [.var 0]⟩, ⟨none, 1, [.var 1]⟩, ⟨none, 2, [.const ⟨32, 0⟩]⟩]
        (fun _ => (⟨32, 65536⟩ : Word)) () ρ' m' := by
      intro ρ' m' h
      cases h with
      | cons _ _ _ _ v _ _ _ h1 h =>
        have := stuck _ h1
        cases this
        cases h with
        | cons _ _ _ _ v _ _ _ h1 h => exact stuck2 _ h1
    intro o h
    cases h with
    | fail _ blk _ _ _ hb hf =>
      rw [body blk hb] at hf
      cases hf with
      | here _ _ _ _ h => cases stuck _ h
      | there _ _ _ _ v _ _ h1 h =>
        have := stuck _ h1
        cases this
        cases h with
        | here _ _ _ _ h => exact stuck2 _ h
        | there _ _ _ _ v _ _ h1 h => exact stuck2 _ h1
    | leave _ blk _ _ _ _ _ hb he => rw [body blk hb] at he; exact ex _ _ he
    | step _ blk _ _ _ _ _ _ _ hb he => rw [body blk hb] at he; exact ex _ _ he
  · intro S
    refine ⟨2, ?_⟩
    have c0 : compile [] assumeFn (.real 0) = [.instr ⟨some 1, 0, [.var 0]⟩, .instr ⟨none, 1, [.var 1]⟩, .instr ⟨none, 2, [.const 0]⟩,
      .setExn false, .return_] := rfl
    rw [c0]
    refine .instr _ _ _ _ 4294967296 () _ ⟨4294967296, rfl, rfl⟩ (.instr _ _ _ _ 4294967296 () _ ⟨4294967296, rfl, by decide, rfl⟩
      (.fail _ _ _ _ ⟨0, rfl, rfl⟩))

end Smack.E2E
