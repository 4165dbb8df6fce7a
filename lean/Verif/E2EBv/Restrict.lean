/-
An execution whose memories only grow stays below its last memory.
-/
import Verif.Cfg.Spec

set_option linter.unusedSectionVars false

namespace Smack.E2EBv

open Smack.Cfg Smack.Cfg.Spec

variable {V M : Type} [DecidableEq V]

/-- The operations that lead to memories satisfying `R`. -/
def restrict (P : Params V M) (R : M → Prop) : Params V M :=
  { P with sem := fun op args m r => P.sem op args m r ∧ ∀ v m', r = some (v, m') → R m' }

def lastMem : Outcome V M → M
  | .ret _ m => m
  | .fail _ _ m => m

/-- The operations only grow the memory. -/
structure Grows (P : Params V M) (le : M → M → Prop) : Prop where
  refl : ∀ m, le m m
  trans : ∀ a b c, le a b → le b c → le a c
  sem : ∀ op args m v m', P.sem op args m (some (v, m')) → le m m'
  exn : ∀ b m, le m (P.setExn b m)
  exnVal : ∀ v m, le m (P.setExnVal v m)

variable {P : Params V M} {le : M → M → Prop}

omit [DecidableEq V] in
theorem exec_grows (G : Grows P le) {is : List (Instr V)} {ρ : Env V} {m : M} {ρ₁ : Env V} {m₁ : M} (h : Exec P is ρ m ρ₁ m₁) : le m m₁ := by
  induction h with
  | nil => exact G.refl _
  | cons i is ρ m v m' ρ₂ m₂ hs _ ih => exact G.trans _ _ _ (G.sem _ _ _ _ _ hs) ih

omit [DecidableEq V] in
theorem exec_restrict (G : Grows P le) {is : List (Instr V)} {ρ : Env V} {m : M} {ρ₁ : Env V} {m₁ : M} (h : Exec P is ρ m ρ₁ m₁)
    {R : M → Prop} (hR : ∀ m', le m' m₁ → R m') : Exec (restrict P R) is ρ m ρ₁ m₁ := by
  induction h with
  | nil => exact .nil _ _
  | cons i is ρ m v m' ρ₂ m₂ hs hr ih =>
    refine .cons _ _ _ _ v m' _ _ ⟨hs, ?_⟩ (ih hR)
    intro _ _ h
    cases h
    exact hR _ (exec_grows G hr)

omit [DecidableEq V] in
theorem execFail_grows (G : Grows P le) {is : List (Instr V)} {ρ : Env V} {m : M} {o : Outcome V M} (h : ExecFail P is ρ m o) :
    le m (lastMem o) := by
  induction h with
  | here => exact G.refl _
  | there i is ρ m v m' o hs _ ih => exact G.trans _ _ _ (G.sem _ _ _ _ _ hs) ih

omit [DecidableEq V] in
theorem execFail_restrict (G : Grows P le) {is : List (Instr V)} {ρ : Env V} {m : M} {o : Outcome V M} (h : ExecFail P is ρ m o)
    {R : M → Prop} (hR : ∀ m', le m' (lastMem o) → R m') : ExecFail (restrict P R) is ρ m o := by
  induction h with
  | here i is ρ m hs => exact .here _ _ _ _ ⟨hs, fun _ _ h => by cases h⟩
  | there i is ρ m v m' o hs hr ih =>
    refine .there _ _ _ _ v m' _ ⟨hs, ?_⟩ (ih hR)
    intro _ _ h
    cases h
    exact hR _ (execFail_grows G hr)

theorem leave_grows (G : Grows P le) {ρ : Env V} {m : M} {t : Term V} {o : Outcome V M} (h : leave P ρ m t = some o) : le m (lastMem o) := by
  cases t <;> simp only [leave, Option.some.injEq, reduceCtorEq] at h
  · subst h; exact G.exn _ _
  · subst h; exact G.trans _ _ _ (G.exn _ _) (G.exnVal _ _)

theorem run_grows (G : Grows P le) {fn : Fn V} {b : Nat} {ρ : Env V} {m : M} {o : Outcome V M} (h : Run P fn b ρ m o) : le m (lastMem o) := by
  induction h with
  | fail b blk ρ m o _ hf => exact execFail_grows G hf
  | leave b blk ρ m ρ₁ m₁ o _ he hl => exact G.trans _ _ _ (exec_grows G he) (leave_grows G hl)
  | step b blk ρ m ρ₁ m₁ t blk' o _ he _ _ _ ih => exact G.trans _ _ _ (exec_grows G he) ih

/-- The execution is one of the restricted operations. -/
theorem run_restrict (G : Grows P le) {fn : Fn V} {b : Nat} {ρ : Env V} {m : M} {o : Outcome V M} (h : Run P fn b ρ m o)
    {R : M → Prop} (hR : ∀ m', le m' (lastMem o) → R m') : Run (restrict P R) fn b ρ m o := by
  induction h with
  | fail b blk ρ m o hb hf => exact .fail b _ _ _ _ hb (execFail_restrict G hf hR)
  | leave b blk ρ m ρ₁ m₁ o hb he hl =>
    exact .leave b _ _ _ _ _ _ hb (exec_restrict G he fun m' h => hR _ (G.trans _ _ _ h (leave_grows G hl))) hl
  | step b blk ρ m ρ₁ m₁ t blk' o hb he hn ht hr ih =>
    exact .step b _ _ _ _ _ t _ _ hb (exec_restrict G he fun m' h => hR _ (G.trans _ _ _ h (run_grows G hr))) hn ht (ih hR)

omit [DecidableEq V] in
theorem exec_weaken {R : M → Prop} {is : List (Instr V)} {ρ : Env V} {m : M} {ρ₁ : Env V} {m₁ : M} (h : Exec (restrict P R) is ρ m ρ₁ m₁) :
    Exec P is ρ m ρ₁ m₁ := by
  induction h with
  | nil => exact .nil _ _
  | cons i is ρ m v m' ρ₂ m₂ hs _ ih => exact .cons _ _ _ _ v m' _ _ hs.1 ih

omit [DecidableEq V] in
theorem execFail_weaken {R : M → Prop} {is : List (Instr V)} {ρ : Env V} {m : M} {o : Outcome V M} (h : ExecFail (restrict P R) is ρ m o) :
    ExecFail P is ρ m o := by
  induction h with
  | here i is ρ m hs => exact .here _ _ _ _ hs.1
  | there i is ρ m v m' o hs _ ih => exact .there _ _ _ _ v m' _ hs.1 ih

theorem run_weaken {R : M → Prop} {fn : Fn V} {b : Nat} {ρ : Env V} {m : M} {o : Outcome V M} (h : Run (restrict P R) fn b ρ m o) :
    Run P fn b ρ m o := by
  induction h with
  | fail b blk ρ m o hb hf => exact .fail b _ _ _ _ hb (execFail_weaken hf)
  | leave b blk ρ m ρ₁ m₁ o hb he hl => exact .leave b _ _ _ _ _ _ hb (exec_weaken he) hl
  | step b blk ρ m ρ₁ m₁ t blk' o hb he hn ht _ ih => exact .step b _ _ _ _ _ t _ _ hb (exec_weaken he) hn ht ih

end Smack.E2EBv
