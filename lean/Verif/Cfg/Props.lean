/-
Properties C26, C27, C28, C29 and C60: control flow.
-/
import Verif.Cfg.Exits

namespace Smack.Cfg

open Spec

variable {V M : Type} [DecidableEq V] (P : Params V M) (fn : Fn V)

/-! ## C26: branches and phi nodes -/

/-- C26: for a function in SSA form, without switches and duplicate successors, whose loops are normalised, the generated Boogie
code, started in a state that agrees on the variables available at the entry (the parameters), has exactly the outcomes of the LLVM
function: the same return values and memories, and the same failing operations with the same operands in the same memory. What an
operation does is arbitrary, so "fails with operands vs in memory m" can be made to mean "is reached". -/
theorem c26_executions (hs : Ssa fn) (hp : Plain fn) (hn : Normalised fn) (ρ σ : Env V) (m : M)
    (ha : ∀ x, Avail fn 0 0 x → ρ x = σ x) (o : Outcome V M) :
    Run P fn 0 ρ m o ↔ ∃ n, BRun P (translate fn) n (translate fn (.real 0)) ⟨σ, m, none⟩ o := by
  rw [real_entry hs]
  constructor
  · intro h
    exact sim_fwd hs hp hn h .entry σ ha
  · rintro ⟨n, h⟩
    exact sim_bwd hs hp hn n 0 ρ σ m o hs.nonempty .entry ha h

/-- C26 and C27 together: NormalizeLoops followed by the translation has exactly the outcomes of the original function, if the loop
information is complete. -/
theorem c26_normalised_executions (hs : Ssa fn) (hp : Plain fn) (ls : List Loop) (hl : LoopsComplete fn ls) (ρ : Env V) (m : M)
    (o : Outcome V M) : Run P fn 0 ρ m o ↔
      ∃ n, BRun P (translate (normalize ls fn)) n (translate (normalize ls fn) (.real 0)) ⟨ρ, m, none⟩ o := by
  obtain ⟨h1, h2, _⟩ := normalize_spec ls fn hs
  rw [← c26_executions P (normalize ls fn) h1 (h2 hp) (normalize_normalised hs hl) ρ ρ m (fun _ _ => rfl) o]
  exact (normalize_run P ls fn hs 0 ρ m o hs.nonempty).symm

/-! ### A loop that meets the hypotheses -/

/-- `for (x = 0; ; x = y) { y = op0(x); c = op1(y); if (!c) return y; }` -/
def loopFn : Fn Int :=
  [⟨[], [], .br 1⟩,
   ⟨[⟨0, [(0, .const 0), (1, .var 1)]⟩], [⟨some 1, 0, [.var 0]⟩, ⟨some 2, 1, [.var 1]⟩], .cbr (.var 2) 1 2⟩,
   ⟨[], [], .ret (some (.var 1))⟩]

theorem loop_block {b : Nat} {blk : Block Int} (h : loopFn[b]? = some blk) : (b = 0 ∧ blk = loopFn[0]) ∨ (b = 1 ∧ blk = loopFn[1]) ∨
    (b = 2 ∧ blk = loopFn[2]) := by
  rcases b with _ | _ | _ | b
  · exact .inl ⟨rfl, (Option.some.inj h).symm⟩
  · exact .inr (.inl ⟨rfl, (Option.some.inj h).symm⟩)
  · exact .inr (.inr ⟨rfl, (Option.some.inj h).symm⟩)
  · cases h

theorem loop_edge {b t : Nat} (h : Edge loopFn b t) : (b = 0 ∧ t = 1) ∨ (b = 1 ∧ (t = 1 ∨ t = 2)) := by
  obtain ⟨blk, hb, ht⟩ := h
  rcases loop_block hb with ⟨rfl, rfl⟩ | ⟨rfl, rfl⟩ | ⟨rfl, rfl⟩ <;> simp [loopFn, Term.succs] at ht <;> simp [ht]

theorem loop_def {x d : Nat} (h : DefIn loopFn x d) : d = 1 ∧ x < 3 := by
  obtain ⟨blk, hb, hx⟩ := h
  rcases loop_block hb with ⟨rfl, rfl⟩ | ⟨rfl, rfl⟩ | ⟨rfl, rfl⟩ <;> simp [loopFn, dsts] at hx
  exact ⟨rfl, by rcases hx with rfl | rfl | rfl <;> decide⟩

theorem loop_avoid {b : Nat} (h : Avoid loopFn 1 b) : b = 0 := by
  induction h with
  | entry => rfl
  | step b t _ he hne ih =>
    subst ih
    rcases loop_edge he with ⟨_, rfl⟩ | ⟨h, _⟩
    · exact absurd rfl hne
    · cases h

theorem loop_dom {b : Nat} (h : b ≠ 0) : Dom loopFn 1 b := fun ha => h (loop_avoid ha)

theorem loop_availEnd {b x : Nat} (h : b ≠ 0) : AvailEnd loopFn b x := by
  intro d hd
  rw [(loop_def hd).1]
  exact loop_dom h

theorem loop_ssa : Ssa loopFn where
  nonempty := by simp [loopFn]
  unique := fun x d d' h h' => (loop_def h).1.trans (loop_def h').1.symm
  nodup := by
    intro b blk hb
    rcases loop_block hb with ⟨rfl, rfl⟩ | ⟨rfl, rfl⟩ | ⟨rfl, rfl⟩ <;> simp [loopFn, dsts]
  body := by
    intro b blk i ins hb hi o ho
    rcases loop_block hb with ⟨rfl, rfl⟩ | ⟨rfl, rfl⟩ | ⟨rfl, rfl⟩
    · simp [loopFn] at hi
    · rcases i with _ | _ | i
      · simp [loopFn] at hi
        subst hi
        simp at ho
        subst ho
        intro d hd
        exact .inr ⟨(loop_def hd).1, _, rfl, by simp⟩
      · simp [loopFn] at hi
        subst hi
        simp at ho
        subst ho
        intro d hd
        exact .inr ⟨(loop_def hd).1, _, rfl, by simp [dsts]⟩
      · simp [loopFn] at hi
    · simp [loopFn] at hi
  term := by
    intro b blk hb o ho
    rcases loop_block hb with ⟨rfl, rfl⟩ | ⟨rfl, rfl⟩ | ⟨rfl, rfl⟩ <;> simp [loopFn, Term.uses] at ho
    · subst ho; exact loop_availEnd (by decide)
    · subst ho; exact loop_availEnd (by decide)
  phi := by
    intro b t blk he hb p hp
    rcases loop_block hb with ⟨rfl, rfl⟩ | ⟨rfl, rfl⟩ | ⟨rfl, rfl⟩ <;> simp [loopFn] at hp
    subst hp
    rcases loop_edge he with ⟨rfl, _⟩ | ⟨rfl, _⟩
    · exact ⟨.const 0, rfl, trivial⟩
    · exact ⟨.var 1, rfl, loop_availEnd (by decide)⟩
  phiPreds := by
    intro t blk hb p hp q hq
    rcases loop_block hb with ⟨rfl, rfl⟩ | ⟨rfl, rfl⟩ | ⟨rfl, rfl⟩ <;> simp [loopFn] at hp
    subst hp
    simp at hq
    rcases hq with rfl | rfl
    · exact ⟨_, rfl, by simp [Term.succs]⟩
    · exact ⟨_, rfl, by simp [Term.succs]⟩
  succs := by
    intro b t he
    rcases loop_edge he with ⟨_, rfl⟩ | ⟨_, rfl | rfl⟩ <;> simp [loopFn]
  entry := by
    intro b he
    rcases loop_edge he with ⟨_, h⟩ | ⟨_, h | h⟩ <;> cases h

theorem loop_plain : Plain loopFn where
  noSwitch := by
    intro b blk c cs d hb
    rcases loop_block hb with ⟨rfl, rfl⟩ | ⟨rfl, rfl⟩ | ⟨rfl, rfl⟩ <;> simp [loopFn]
  distinct := by
    intro b blk hb
    rcases loop_block hb with ⟨rfl, rfl⟩ | ⟨rfl, rfl⟩ | ⟨rfl, rfl⟩ <;> simp [loopFn, Term.succs]
  invoke := by
    intro b blk n u hb ht
    rcases loop_block hb with ⟨rfl, rfl⟩ | ⟨rfl, rfl⟩ | ⟨rfl, rfl⟩ <;> simp [loopFn] at ht

theorem loop_complete : LoopsComplete loopFn [⟨1, [1]⟩] := by
  intro b t _ he hd
  rcases loop_edge he with ⟨rfl, rfl⟩ | ⟨rfl, rfl | rfl⟩
  · exact absurd (.entry (by decide)) hd
  · exact ⟨⟨1, [1]⟩, by simp, rfl, by simp⟩
  · exact absurd (.step 0 1 (.entry (by decide)) ⟨_, rfl, by simp [Term.succs]⟩ (by decide)) hd

/-- The hypotheses of `c26_normalised_executions` hold of a function with a loop, a branch and a phi node; the loop is split. -/
example : Ssa loopFn ∧ Plain loopFn ∧ LoopsComplete loopFn [⟨1, [1]⟩] ∧ (normalize [⟨1, [1]⟩] loopFn).length = 4 :=
  ⟨loop_ssa, loop_plain, loop_complete, by decide⟩

/-- Those of `c26_executions` hold of the normalised function. -/
example : Ssa (normalize [⟨1, [1]⟩] loopFn) ∧ Plain (normalize [⟨1, [1]⟩] loopFn) ∧ Normalised (normalize [⟨1, [1]⟩] loopFn) := by
  obtain ⟨h1, h2, _⟩ := normalize_spec [⟨1, [1]⟩] loopFn loop_ssa
  exact ⟨h1, h2 loop_plain, normalize_normalised loop_ssa loop_complete⟩

/-! ### Where the translation needs the conditions -/

/-- Values are integers, there is no memory, operation 9 fails and every other operation returns 0. -/
def wit : Params Int Unit where
  one := 1
  exn := fun _ => false
  setExn := fun _ m => m
  setExnVal := fun _ m => m
  sem := fun op _ _ r => if op = 9 then r = none else r = some (0, ())

/-- `1: x = phi [5, 0], [7, 1]; br false, 1, 2` and `2: ret x` -/
def unnormFn : Fn Int :=
  [⟨[], [], .br 1⟩, ⟨[⟨0, [(0, .const 5), (1, .const 7)]⟩], [], .cbr (.const 0) 1 2⟩, ⟨[], [], .ret (some (.var 0))⟩]

/-- Without NormalizeLoops the translation is wrong: the block that jumps back to its own phi node assigns it before it is known that
the jump is taken, and 7 is returned instead of 5. -/
theorem c26_unnormalised_fails :
    Run wit unnormFn 0 (fun _ => 0) () (.ret (some 5) ()) ∧
    ¬ (∃ n, BRun wit (translate unnormFn) n (translate unnormFn (.real 0)) ⟨fun _ => 0, (), none⟩ (.ret (some 5) ())) ∧
    (∃ n, BRun wit (translate unnormFn) n (translate unnormFn (.real 0)) ⟨fun _ => 0, (), none⟩ (.ret (some 7) ())) := by
  have c0 : translate unnormFn (.real 0) = [.assign [(0, .const 5)], .goto [.real 1]] := rfl
  have c1 : translate unnormFn (.real 1) = [.assign [(0, .const 7)], .annot (some (.const 0)), .goto [.disp 1 0, .real 2]] := rfl
  have c2 : translate unnormFn (.real 2) = [.assume (.notOne (.const 0)), .setRet (.var 0), .setExn false, .return_] := rfl
  have cd : translate unnormFn (.disp 1 0) = [.assume (.isOne (.const 0)), .goto [.real 1]] := rfl
  refine ⟨?_, ?_, ?_⟩
  · refine .step 0 _ _ _ _ () 1 _ _ rfl (.nil _ _) rfl rfl ?_
    refine .step 1 _ _ _ _ () 2 _ _ rfl (.nil _ _) rfl rfl ?_
    exact .leave 2 _ _ _ _ () _ rfl (.nil _ _) rfl
  · rintro ⟨n, h⟩
    rw [c0] at h
    cases h with
    | assign _ _ _ _ _ _ h =>
      cases h with
      | goto _ _ _ _ l _ hl h =>
        simp only [List.mem_singleton] at hl
        subst hl
        rw [c1] at h
        cases h with
        | assign _ _ _ _ _ _ h =>
          cases h with
          | annot _ _ _ _ _ h =>
            cases h with
            | goto _ _ _ _ l _ hl h =>
              simp only [List.mem_cons, List.not_mem_nil, or_false] at hl
              rcases hl with rfl | rfl
              · rw [cd] at h
                cases h with
                | assume _ _ _ _ _ hh _ => simp [holds, eval, wit] at hh
              · rw [c2] at h
                cases h with
                | assume _ _ _ _ _ _ h =>
                  cases h with
                  | setRet _ _ _ _ _ h =>
                    generalize hst : (St.mk _ _ _ : St Int Unit) = st at h
                    cases h with
                    | setExn _ _ _ _ _ h =>
                      generalize hst' : (St.mk _ _ _ : St Int Unit) = st' at h
                      generalize ho : (Outcome.ret (some 5) () : Outcome Int Unit) = o' at h
                      cases h with
                      | return_ =>
                        rw [← hst', ← hst] at ho
                        simp [eval, parallel] at ho
  · refine ⟨9, ?_⟩
    rw [c0]
    refine .assign 8 _ _ _ _ (by simp) (.goto 7 _ _ _ (.real 1) _ (by simp) ?_)
    rw [c1]
    refine .assign 6 _ _ _ _ (by simp) (.annot 5 _ _ _ _ (.goto 4 _ _ _ (.real 2) _ (by simp) ?_))
    rw [c2]
    exact .assume 3 _ _ _ _ (by simp [holds, eval, wit]) (.setRet 2 _ _ _ _ (.setExn 1 _ _ _ _ (.return_ 1 _ _)))

/-- `0: invoke to 1 unwind 2`, `1: x = phi [5, 0]; ret x`, `2: ret` -/
def invokeFn : Fn Int := [⟨[], [], .invoke 1 2⟩, ⟨[⟨0, [(0, .const 5)]⟩], [], .ret (some (.var 0))⟩, ⟨[], [], .ret none⟩]

/-- The phi nodes in the destinations of an invoke are not assigned (visitInvokeInst does not call generatePhiAssigns): the initial
value of `x` is returned instead of 5. -/
theorem c26_invoke_fails :
    Run wit invokeFn 0 (fun _ => 0) () (.ret (some 5) ()) ∧
    ¬ (∃ n, BRun wit (translate invokeFn) n (translate invokeFn (.real 0)) ⟨fun _ => 0, (), none⟩ (.ret (some 5) ())) ∧
    (∃ n, BRun wit (translate invokeFn) n (translate invokeFn (.real 0)) ⟨fun _ => 0, (), none⟩ (.ret (some 0) ())) := by
  have c0 : translate invokeFn (.real 0) = [.annot none, .goto [.real 1, .real 2]] := rfl
  have c1 : translate invokeFn (.real 1) = [.assume .notExn, .setRet (.var 0), .setExn false, .return_] := rfl
  have c2 : translate invokeFn (.real 2) = [.assume .exn, .setExn false, .return_] := rfl
  refine ⟨?_, ?_, ?_⟩
  · refine .step 0 _ _ _ _ () 1 _ _ rfl (.nil _ _) rfl rfl ?_
    exact .leave 1 _ _ _ _ () _ rfl (.nil _ _) rfl
  · rintro ⟨n, h⟩
    rw [c0] at h
    cases h with
    | annot _ _ _ _ _ h =>
      cases h with
      | goto _ _ _ _ l _ hl h =>
        simp only [List.mem_cons, List.not_mem_nil, or_false] at hl
        rcases hl with rfl | rfl
        · rw [c1] at h
          cases h with
          | assume _ _ _ _ _ _ h =>
            cases h with
            | setRet _ _ _ _ _ h =>
              generalize hst : (St.mk _ _ _ : St Int Unit) = st at h
              cases h with
              | setExn _ _ _ _ _ h =>
                generalize hst' : (St.mk _ _ _ : St Int Unit) = st' at h
                generalize ho : (Outcome.ret (some 5) () : Outcome Int Unit) = o' at h
                cases h with
                | return_ =>
                  rw [← hst', ← hst] at ho
                  simp [eval] at ho
        · rw [c2] at h
          cases h with
          | assume _ _ _ _ _ hh _ => simp [holds, wit] at hh
  · refine ⟨5, ?_⟩
    rw [c0]
    refine .annot 4 _ _ _ _ (.goto 3 _ _ _ (.real 1) _ (by simp) ?_)
    rw [c1]
    exact .assume 2 _ _ _ _ (by simp [holds, wit]) (.setRet 1 _ _ _ _ (.setExn 0 _ _ _ _ (.return_ 0 _ _)))

/-! ## C27: loop normalisation -/

/-- C27, behaviour: NormalizeLoops, whatever loops it is given, keeps the function in SSA form and keeps, from each of its blocks, all
outcomes and adds none. -/
theorem c27_preserves (hs : Ssa fn) (ls : List Loop) : Ssa (normalize ls fn) ∧
    ∀ b ρ m o, b < fn.length → (Run P (normalize ls fn) b ρ m o ↔ Run P fn b ρ m o) :=
  ⟨(normalize_spec ls fn hs).1, normalize_run P ls fn hs⟩

/-- C27, structure, for loop headers with phi nodes: afterwards no block of the loop that has several successors is a predecessor of the
header. (For headers without phi nodes nothing is split, see `c27_no_phi_fails`.) -/
theorem c27_split_partial (hs : Ssa fn) (ls : List Loop) (l : Loop) (hl : l ∈ ls) (b : Nat) (hb : b ∈ l.blocks) (blk hblk : Block V)
    (h1 : (normalize ls fn)[b]? = some blk) (h2 : (normalize ls fn)[l.header]? = some hblk) (h3 : hblk.phis ≠ [])
    (h4 : 1 < blk.term.succs.length) : l.header ∉ blk.term.succs := fun h =>
  (((normalize_spec ls fn hs).2.2.2.2 b l.header ⟨blk, hblk, h1, h4, h, h2, h3⟩).2 l hl rfl) hb

/-- C27, in the form the translation needs: if the loop information is complete, no block with several successors has an edge back to a
block with phi nodes that dominates it. -/
theorem c27_normalised (hs : Ssa fn) (ls : List Loop) (hl : LoopsComplete fn ls) : Normalised (normalize ls fn) :=
  normalize_normalised hs hl

/-- In `loopFn`, block 1 jumps back to itself; afterwards it jumps to the new block 3, which the phi node names instead. -/
example : ((normalize [⟨1, [1]⟩] loopFn).map fun b => (b.term.succs, b.phis.map fun p => p.inc.map Prod.fst)) =
    [([1], []), ([3, 2], [[0, 3]]), ([], []), ([1], [])] := by decide

/-- `0: br 1`, `1: op0(); br v0, 1, 2`, `2: ret`: a loop without phi nodes. -/
def noPhiFn : Fn Int := [⟨[], [], .br 1⟩, ⟨[], [⟨some 0, 0, []⟩], .cbr (.var 0) 1 2⟩, ⟨[], [], .ret none⟩]

/-- A header without phi nodes keeps its predecessors with several successors. -/
theorem c27_no_phi_fails : ∃ l b blk, l ∈ [(⟨1, [1]⟩ : Loop)] ∧ b ∈ l.blocks ∧ (normalize [⟨1, [1]⟩] noPhiFn)[b]? = some blk ∧
    1 < blk.term.succs.length ∧ l.header ∈ blk.term.succs :=
  ⟨⟨1, [1]⟩, 1, _, by simp, by simp, rfl, by decide, by decide⟩

/-! ## C28: both successors equal -/

/-- C28 fails when the branching block is the only predecessor: both conditions are assumed at the front of the target, so no execution
enters it, although execution continues there whatever the condition is. -/
theorem c28_unique_fails {b t : Nat} {blk : Block V} {c : Opd V} (hb : fn[b]? = some blk) (hterm : blk.term = .cbr c t t)
    (ht : t < fn.length) (hu : ∀ p, Edge fn p t → p = b) :
    (∀ ρ m, next P ρ m blk.term = some t) ∧ ∀ n st o, ¬ BRun P (translate fn) n (translate fn (.real t)) st o := by
  constructor
  · intro ρ m
    rw [hterm]
    simp [next]
  · intro n st o h
    rw [same_target_front hb hterm ht hu] at h
    cases h with
    | assume _ _ _ _ _ h1 h =>
      cases h with
      | assume _ _ _ _ _ h2 h =>
        simp only [holds, decide_eq_true_eq] at h1 h2
        simp [h2] at h1

/-- `0: br v0, 1, 1`, `1: ret 5` -/
def sameFn : Fn Int := [⟨[], [], .cbr (.var 0) 1 1⟩, ⟨[], [], .ret (some (.const 5))⟩]

/-- A whole function: LLVM returns 5, the Boogie procedure has no execution at all, so anything verifies. -/
theorem c28_function_fails : (∀ ρ, Run wit sameFn 0 ρ () (.ret (some 5) ())) ∧
    ∀ n st o, ¬ BRun wit (translate sameFn) n (translate sameFn (.real 0)) st o := by
  constructor
  · intro ρ
    have hnx : next wit ρ () (.cbr (.var 0) 1 1 : Term Int) = some 1 := by simp [next]
    exact .step 0 _ _ _ _ () 1 _ _ rfl (.nil _ _) hnx rfl (.leave 1 _ _ _ _ () _ rfl (.nil _ _) rfl)
  · intro n st o h
    have c0 : translate sameFn (.real 0) = [.annot (some (.var 0)), .goto [.real 1, .real 1]] := rfl
    rw [c0] at h
    cases h with
    | annot _ _ _ _ _ h =>
      cases h with
      | goto _ _ _ _ l _ hl h =>
        simp only [List.mem_cons, List.not_mem_nil, or_false, or_self] at hl
        subst hl
        refine (c28_unique_fails wit sameFn (b := 0) (t := 1) (c := .var 0) rfl rfl (by decide) ?_).2 _ _ _ h
        intro p ⟨blk, hp, hm⟩
        rcases p with _ | _ | p
        · rfl
        · have := Option.some.inj hp
          subst this
          simp [Term.succs] at hm
        · cases hp

/-- The part of the code of block `b` after its instructions. -/
def Rest (b : Nat) (blk : Block V) (tail : List (Stmt V)) : Prop :=
  ∃ pre, (∀ s ∈ pre, ∃ c, s = Stmt.assume c) ∧ translate fn (.real b) = pre ++ blk.body.map .instr ++ tail

theorem rest_term {b : Nat} {blk : Block V} (hb : fn[b]? = some blk) : Rest fn b blk (termCode fn b blk.term) := by
  obtain ⟨as, h1, h2⟩ := real_assumes (List.getElem?_eq_some_iff.mp hb).1
  exact ⟨as, h1, by rw [h2, own_eq hb, List.append_assoc]⟩

/-- C28 where another block also jumps to the target and the target has no phi nodes: execution continues in the target with the same
state, whatever the condition. Missing: the target has no other predecessor (`c28_unique_fails`), or has phi nodes (the parallel
assignment then has the same variable on the left twice, `c28_phi_fails`). -/
theorem c28_other_pred_partial {b t p : Nat} {blk blk' : Block V} {c : Opd V} (hb : fn[b]? = some blk) (hterm : blk.term = .cbr c t t)
    (ht : fn[t]? = some blk') (hph : blk'.phis = []) (hp : Edge fn p t) (hpb : p ≠ b) :
    ∃ tail, Rest fn b blk tail ∧ ∀ st o, (∃ n, BRun P (translate fn) n tail st o) ↔
      ∃ n, BRun P (translate fn) n (translate fn (.real t)) st o := by
  refine ⟨_, rest_term fn hb, ?_⟩
  have htl := (List.getElem?_eq_some_iff.mp ht).1
  have hbl := (List.getElem?_eq_some_iff.mp hb).1
  have hu : uniquePred fn t ≠ some b := fun h => hpb (uniquePred_eq h hp)
  have hphi : phiStmt fn b (.cbr c t t) = [] := by
    unfold phiStmt phiCode
    simp [Term.succs, ht, phiPairs, hph]
  have hd : ∀ j, translate fn (.disp b j) = dispCode fn b (targets (.cbr c t t)) 0 j := by
    intro j
    rw [translate_disp fn b j hbl]
    unfold disp
    rw [hb]
    simp only [hterm]
    rw [if_pos (by simp [targets])]
  have d0 : translate fn (.disp b 0) = [.assume (.isOne c), .goto [.real t]] := by
    rw [hd]; simp [targets, dispCode, hu]
  have d1 : translate fn (.disp b 1) = [.assume (.notOne c), .goto [.real t]] := by
    rw [hd]; simp [targets, dispCode, hu]
  have htc : termCode fn b blk.term = [.annot (some c), .goto [.disp b 0, .disp b 1]] := by
    rw [hterm, termCode, hphi]
    simp [gotoCode, targets, dispLabels, hu]
  rw [htc]
  intro st o
  constructor
  · rintro ⟨n, h⟩
    cases h with
    | annot _ _ _ _ _ h =>
      cases h with
      | goto _ _ _ _ l _ hl h =>
        simp only [List.mem_cons, List.not_mem_nil, or_false] at hl
        rcases hl with rfl | rfl
        · rw [d0] at h
          cases h with
          | assume _ _ _ _ _ _ h =>
            cases h with
            | goto n _ _ _ l _ hl h =>
              simp only [List.mem_singleton] at hl
              subst hl
              exact ⟨n, h⟩
        · rw [d1] at h
          cases h with
          | assume _ _ _ _ _ _ h =>
            cases h with
            | goto n _ _ _ l _ hl h =>
              simp only [List.mem_singleton] at hl
              subst hl
              exact ⟨n, h⟩
  · rintro ⟨n, h⟩
    by_cases hc : eval st.env c = P.one
    · refine ⟨n + 1 + 1 + 1 + 1, .annot (n + 1 + 1 + 1) _ _ _ _ (.goto (n + 1 + 1) _ _ _ (.disp b 0) _ (by simp) ?_)⟩
      rw [d0]
      exact .assume (n + 1) _ _ _ _ (by simpa [holds] using hc) (.goto n _ _ _ (.real t) _ (by simp) h)
    · refine ⟨n + 1 + 1 + 1 + 1, .annot (n + 1 + 1 + 1) _ _ _ _ (.goto (n + 1 + 1) _ _ _ (.disp b 1) _ (by simp) ?_)⟩
      rw [d1]
      exact .assume (n + 1) _ _ _ _ (by simpa [holds] using hc) (.goto n _ _ _ (.real t) _ (by simp) h)

/-- `0: br v0, 1, 2`, `1: br v1, 2, 2`, `2: ret 5`: block 2 has two predecessors. -/
example : let f : Fn Int := [⟨[], [], .cbr (.var 0) 1 2⟩, ⟨[], [], .cbr (.var 1) 2 2⟩, ⟨[], [], .ret (some (.const 5))⟩]
    f[1]?.map (fun b => b.term.succs) = some [2, 2] ∧ f[2]?.map (fun b => b.phis.length) = some 0 ∧ Edge f 0 2 ∧ (0 : Nat) ≠ 1 :=
  ⟨rfl, rfl, ⟨_, rfl, by decide⟩, by decide⟩

/-- With phi nodes in the target, the generated parallel assignment assigns each of them twice, which Boogie rejects: there is no
execution past it. -/
theorem c28_phi_fails {b t : Nat} {blk blk' : Block V} {c : Opd V} (hb : fn[b]? = some blk) (hterm : blk.term = .cbr c t t)
    (ht : fn[t]? = some blk') {p : Phi V} (hp : p ∈ blk'.phis) {x : Opd V} (hx : p.inc.lookup b = some x) :
    ∃ tail, Rest fn b blk tail ∧ ∀ n st o, ¬ BRun P (translate fn) n tail st o := by
  refine ⟨_, rest_term fn hb, ?_⟩
  intro n st o h
  have hm : (p.var, x) ∈ phiPairs b blk'.phis := mem_phiPairs.mpr ⟨p, hp, rfl, hx⟩
  have hcode : phiCode fn b (.cbr c t t) = phiPairs b blk'.phis ++ phiPairs b blk'.phis := by
    unfold phiCode
    simp [Term.succs, ht]
  have hne : (phiCode fn b (.cbr c t t)).isEmpty = false := by
    rw [hcode]
    cases hq : phiPairs b blk'.phis with
    | nil => rw [hq] at hm; cases hm
    | cons a l => rfl
  rw [hterm, termCode, phiStmt, hne] at h
  cases h with
  | assign _ _ _ _ _ hnd _ =>
    rw [hcode, List.map_append, List.nodup_append] at hnd
    exact hnd.2.2 p.var (List.mem_map_of_mem (f := Prod.fst) hm) p.var (List.mem_map_of_mem (f := Prod.fst) hm) rfl

example : let f : Fn Int := [⟨[], [], .cbr (.var 0) 1 1⟩, ⟨[⟨1, [(0, .const 5), (0, .const 5)]⟩], [], .ret (some (.var 1))⟩]
    f[0]?.map (fun b => b.term.succs) = some [1, 1] ∧ ((⟨1, [(0, .const 5), (0, .const 5)]⟩ : Phi Int).inc.lookup 0) = some (.const 5) :=
  ⟨rfl, rfl⟩

/-! ## C29: switch -/

/-- C29 fails: the loop over the cases never runs (`i != si.case_begin()`), so a switch (with no phi nodes in its successors) always
continues to its default block, whatever its cases and the value. -/
theorem c29_always_default_fails {b d : Nat} {blk : Block V} {c : Opd V} {cs : List (V × Nat)} (hb : fn[b]? = some blk)
    (hterm : blk.term = .switch c cs d) (hph : ∀ t ∈ blk.term.succs, ∀ blk', fn[t]? = some blk' → blk'.phis = []) :
    ∃ tail, Rest fn b blk tail ∧ ∀ st o, (∃ n, BRun P (translate fn) n tail st o) ↔
      ∃ n, BRun P (translate fn) n (translate fn (.real d)) st o := by
  refine ⟨_, rest_term fn hb, ?_⟩
  have hphi : phiStmt fn b (.switch c cs d) = [] := by
    unfold phiStmt
    have : phiCode fn b (.switch c cs d) = [] := by
      apply List.eq_nil_iff_forall_not_mem.mpr
      intro q hq
      obtain ⟨s, hsm, blk', hf, p, hp, _⟩ := mem_phiCode.mp hq
      rw [hph s (by rw [hterm]; exact hsm) blk' hf] at hp
      cases hp
    rw [this]
    rfl
  have hts : targets (.switch c cs d) = [(.tt, d)] := by
    unfold targets
    cases cs with
    | nil => rfl
    | cons p ps => simp [switchLoop]
  have htc : termCode fn b blk.term = [.annot (some c), .goto [.real d]] := by
    rw [hterm, termCode, hphi, hts]
    rfl
  rw [htc]
  intro st o
  constructor
  · rintro ⟨n, h⟩
    cases h with
    | annot _ _ _ _ _ h =>
      cases h with
      | goto n _ _ _ l _ hl h =>
        simp only [List.mem_singleton] at hl
        subst hl
        exact ⟨n, h⟩
  · rintro ⟨n, h⟩
    exact ⟨n + 1 + 1, .annot (n + 1) _ _ _ _ (.goto n _ _ _ (.real d) _ (by simp) h)⟩

/-- C29 for values without a matching case: the block LLVM continues to is the one the generated code continues to. Missing: values with
a matching case. llvm2bpl runs LLVM's LowerSwitch pass before (llvm2bpl.cpp:185), so that no switch reaches the translation. -/
theorem c29_no_match_partial {b d : Nat} {blk : Block V} {c : Opd V} {cs : List (V × Nat)} (hb : fn[b]? = some blk)
    (hterm : blk.term = .switch c cs d) (hph : ∀ t ∈ blk.term.succs, ∀ blk', fn[t]? = some blk' → blk'.phis = []) : ∃ tail, Rest fn b blk tail ∧ ∀ st o, (∀ p ∈ cs, p.1 ≠ eval st.env c) →
      ∀ t, next P st.env st.mem blk.term = some t → ((∃ n, BRun P (translate fn) n tail st o) ↔
        ∃ n, BRun P (translate fn) n (translate fn (.real t)) st o) := by
  obtain ⟨tail, h1, h2⟩ := c29_always_default_fails P fn hb hterm hph
  refine ⟨tail, h1, ?_⟩
  intro st o hno t hnx
  have : t = d := by
    rw [hterm] at hnx
    have hf : cs.find? (fun p => p.1 = eval st.env c) = none := by
      rw [List.find?_eq_none]
      intro p hp
      simpa using hno p hp
    simp only [next, hf, Option.some.injEq] at hnx
    exact hnx.symm
  rw [this]
  exact h2 st o

/-- `0: switch v0 [1 → 1] default 2`, `1: op9 (fails)`, `2: ret 5` -/
def switchFn : Fn Int := [⟨[], [], .switch (.var 0) [(1, 1)] 2⟩, ⟨[], [⟨none, 9, []⟩], .unreachable⟩, ⟨[], [], .ret (some (.const 5))⟩]

/-- A whole function: for v0 = 1 LLVM reaches the failure, the Boogie procedure does not. -/
theorem c29_function_fails : Run wit switchFn 0 (fun _ => 1) () (.fail 9 [] ()) ∧
    ¬ ∃ n, BRun wit (translate switchFn) n (translate switchFn (.real 0)) ⟨fun _ => 1, (), none⟩ (.fail 9 [] ()) := by
  constructor
  · refine .step 0 _ _ _ _ () 1 _ _ rfl (.nil _ _) rfl rfl (.fail 1 _ _ _ _ rfl ?_)
    exact ExecFail.here (P := wit) ⟨none, 9, []⟩ [] _ () (by simp [wit])
  · rintro ⟨n, h⟩
    have c0 : translate switchFn (.real 0) = [.annot (some (.var 0)), .goto [.real 2]] := rfl
    have c2 : translate switchFn (.real 2) = [.setRet (.const 5), .setExn false, .return_] := rfl
    rw [c0] at h
    cases h with
    | annot _ _ _ _ _ h =>
      cases h with
      | goto _ _ _ _ l _ hl h =>
        simp only [List.mem_singleton] at hl
        subst hl
        rw [c2] at h
        cases h with
        | setRet _ _ _ _ _ h =>
          cases h with
          | setExn _ _ _ _ _ h => cases h

/-! ## C60: loop exits -/

/-- C60 for loops that are in no other loop: after AnnotateLoopExits, an execution of the generated code that enters a block outside such
a loop to which a block of the loop jumps can only fail in `__SMACK_loop_exit`. Missing: inner loops (`c60_inner_fails`). -/
theorem c60_top_partial (op : Nat) (hop : ∀ args m r, P.sem op args m r → r = none) (tops : List Loop) (l : Loop) (hl : l ∈ tops)
    (b t : Nat) (hb : b ∈ l.blocks) (he : Edge fn b t) (hn : t ∉ l.blocks) (ht : t < fn.length) (n : Nat) (st : St V M)
    (o : Outcome V M) (h : BRun P (translate (annotateLoopExits op tops fn)) n (translate (annotateLoopExits op tops fn) (.real t)) st o) :
    o = .fail op [] st.mem := by
  obtain ⟨blk, is, hblk, hbody⟩ := (annotate_exits (op := op) tops fn).2 l hl b hb t he hn ht
  obtain ⟨as, h1, h2⟩ := real_assumes (List.getElem?_eq_some_iff.mp hblk).1
  rw [h2] at h
  obtain ⟨n', h⟩ := run_assumes as n h1 h
  rw [own_eq hblk, hbody, List.map_cons, List.cons_append] at h
  cases h with
  | instr _ _ _ _ _ _ _ hsem _ => cases hop _ _ _ hsem
  | fail => rfl

/-- `1` is the header of an outer loop, `2` an inner loop, `3` (operation 9 fails) leaves the inner loop, `4` leaves both. -/
def nestFn : Fn Int :=
  [⟨[], [], .br 1⟩, ⟨[], [], .br 2⟩, ⟨[], [], .cbr (.var 0) 2 3⟩, ⟨[], [⟨none, 9, []⟩], .cbr (.var 0) 1 4⟩, ⟨[], [], .ret none⟩]

/-- The hypotheses of `c60_top_partial`: the outer loop is left by 3 → 4. -/
example : (⟨1, [1, 2, 3]⟩ : Loop) ∈ [(⟨1, [1, 2, 3]⟩ : Loop)] ∧ 3 ∈ [1, 2, 3] ∧ Edge nestFn 3 4 ∧ 4 ∉ [1, 2, 3] ∧ 4 < nestFn.length :=
  ⟨by simp, by simp, ⟨_, rfl, by decide⟩, by decide, by decide⟩

/-- C60 fails for inner loops: operation 8 being `__SMACK_loop_exit`, the inner loop is left (2 → 3) and the failure of operation 9 is
reached, not that of operation 8. -/
theorem c60_inner_fails :
    ∃ n, BRun { wit with sem := fun op _ _ r => if op = 9 ∨ op = 8 then r = none else r = some (0, ()) }
      (translate (annotateLoopExits 8 [⟨1, [1, 2, 3]⟩] nestFn)) n (translate (annotateLoopExits 8 [⟨1, [1, 2, 3]⟩] nestFn) (.real 0))
      ⟨fun _ => 0, (), none⟩ (.fail 9 [] ()) := by
  have c0 : translate (annotateLoopExits 8 [⟨1, [1, 2, 3]⟩] nestFn) (.real 0) = [.goto [.real 1]] := rfl
  have c1 : translate (annotateLoopExits 8 [⟨1, [1, 2, 3]⟩] nestFn) (.real 1) = [.goto [.real 2]] := rfl
  have c2 : translate (annotateLoopExits 8 [⟨1, [1, 2, 3]⟩] nestFn) (.real 2) =
    [.annot (some (.var 0)), .goto [.disp 2 0, .real 3]] := rfl
  have c3 : translate (annotateLoopExits 8 [⟨1, [1, 2, 3]⟩] nestFn) (.real 3) = [.assume (.notOne (.var 0)), .instr ⟨none, 9, []⟩,
    .annot (some (.var 0)), .goto [.disp 3 0, .real 4]] := rfl
  refine ⟨5, ?_⟩
  rw [c0]
  refine .goto 4 _ _ _ (.real 1) _ (by simp) ?_
  rw [c1]
  refine .goto 3 _ _ _ (.real 2) _ (by simp) ?_
  rw [c2]
  refine .annot 2 _ _ _ _ (.goto 1 _ _ _ (.real 3) _ (by simp) ?_)
  rw [c3]
  refine .assume 0 _ _ _ _ (by simp [holds, eval, wit]) ?_
  exact BRun.fail 0 ⟨none, 9, []⟩ _ _ (by simp)

end Smack.Cfg
