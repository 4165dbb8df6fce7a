/-
C70: exceptions. Where every plain call is of a function that does not throw and every invoke of a function with definition, the generated
procedures propagate exceptions as LLVM does; elsewhere they do not.
-/
import Verif.Exn.Lemmas
import Verif.E2EMod.Star

namespace Smack.Exn

open Smack.Cfg Smack.Cfg.Spec Smack.E2EMod

section
variable {V M : Type} [DecidableEq V] (C : Calls V) (ok : Nat → Env V → Prop) (one u : V) (pad : Pads)
  (leaf : Nat → List V → M → Option (V × M) → Prop) (calm : Nat → Prop)

/-- C70, forwards, for programs as described by `ProgOk` in which functions without definition do not throw: for every LLVM execution, from
whatever values of `$exn` and `$exnv`, the generated procedure has one that returns the same value with `$exn` false, or ends with `$exn`
true and the same exception in `$exnv`, or fails in the same operation. -/
theorem c70_forward_partial (hP : ProgOk C pad calm) (n g : Nat) (ρ : Env V) (m : M) (o : UOut V M)
    (h : UExec C ok one u pad leaf quiet n g ρ m o) (e : Bool) (x : V) :
    ∃ o', OutRel o o' ∧ BExec C ok u procCode (flags one pad leaf) n g ρ ⟨m, e, x⟩ o' := by
  induction n generalizing g ρ m o e x with
  | zero =>
    obtain ⟨d, hd, hr⟩ := h
    have hdo := hP.defs g d hd
    obtain ⟨o', h1, h2⟩ := run_fwd (stepOk hP 0) (ctl_calls 0) hP hdo hr e x (entry_other hdo)
    cases o with
    | ret v m' =>
      obtain ⟨x', rfl⟩ := h2
      exact ⟨_, .ret _ _ _, (bexec_iff (code_ok hP)).2 (.ret _ _ _ _ _ _ ⟨d, hd, h1⟩)⟩
    | unwound y m' =>
      have h2' : o' = .ret none ⟨m', true, y⟩ := h2
      subst h2'
      exact ⟨_, .unwound _ _, (bexec_iff (code_ok hP)).2 (.ret _ _ _ _ _ _ ⟨d, hd, h1⟩)⟩
    | fail op l m' =>
      obtain ⟨op₁, l₁, s₁, rfl, h3⟩ := h2
      obtain ⟨hc, _, rfl, rfl, rfl, _⟩ := h3
      exact ⟨_, .fail _ _ _ s₁.exn s₁.val, (bexec_iff (code_ok hP)).2 (.here _ _ _ _ _ _ _ ⟨d, hd, h1⟩ hc)⟩
  | succ n ih =>
    obtain ⟨d, hd, hr⟩ := h
    have hdo := hP.defs g d hd
    obtain ⟨o', h1, h2⟩ := run_fwd (stepOk hP (n + 1)) (ctl_calls (n + 1)) hP hdo hr e x (entry_other hdo)
    cases o with
    | ret v m' =>
      obtain ⟨x', rfl⟩ := h2
      exact ⟨_, .ret _ _ _, (bexec_iff (code_ok hP)).2 (.ret _ _ _ _ _ _ ⟨d, hd, h1⟩)⟩
    | unwound y m' =>
      have h2' : o' = .ret none ⟨m', true, y⟩ := h2
      subst h2'
      exact ⟨_, .unwound _ _, (bexec_iff (code_ok hP)).2 (.ret _ _ _ _ _ _ ⟨d, hd, h1⟩)⟩
    | fail op l m' =>
      obtain ⟨op₁, l₁, s₁, rfl, h3⟩ := h2
      cases hc : C.callee op₁ with
      | none =>
        obtain ⟨_, rfl, rfl, rfl, _⟩ := (ucalls_leaf hc).1 h3
        exact ⟨_, .fail _ _ _ s₁.exn s₁.val, (bexec_iff (code_ok hP)).2 (.here _ _ _ _ _ _ _ ⟨d, hd, h1⟩ hc)⟩
      | some g' =>
        obtain ⟨ρ', d', o₂, he, hd', hr', hv⟩ := (ucalls_call hc).1 h3
        cases o₂ with
        | ret => cases hv
        | unwound => cases hv
        | fail op₂ l₂ m₂ =>
          cases hv
          obtain ⟨o', hrel, hb⟩ := ih g' ρ' s₁.mem _ ⟨d', hd', hr'⟩ s₁.exn s₁.val
          cases hrel with
          | fail _ _ _ e₂ x₂ =>
            exact ⟨_, .fail _ _ _ e₂ x₂, (bexec_iff (code_ok hP)).2
              (.inside _ _ _ _ _ _ _ _ _ _ _ _ ⟨d, hd, h1⟩ hc he ((bexec_iff (code_ok hP)).1 hb))⟩

/-- C70, backwards: every execution of the generated procedure is one of LLVM. -/
theorem c70_backward_partial (hP : ProgOk C pad calm) (n g : Nat) (ρ : Env V) (s : Flags V M) (o' : Outcome V (Flags V M))
    (h : BExec C ok u procCode (flags one pad leaf) n g ρ s o') : ∃ o, OutRel o o' ∧ UExec C ok one u pad leaf quiet n g ρ s.mem o := by
  rw [bexec_iff (code_ok hP)] at h
  induction h with
  | ret n g ρ s v s' hb =>
    obtain ⟨d, hd, hr⟩ := hb
    have hdo := hP.defs g d hd
    rcases run_bwd (stepOk hP n) (ctl_calls n) hP hdo hr none (entry_other hdo) with ⟨h1, h2⟩ | ⟨h1, h2, h3⟩
    · refine ⟨.ret v s'.mem, ?_, d, hd, h2⟩
      cases s'; simp only at h1; subst h1; exact .ret _ _ _
    · refine ⟨.unwound s'.val s'.mem, ?_, d, hd, h3⟩
      cases s'; simp only at h1; subst h1; subst h2; exact .unwound _ _
  | here n g ρ s op l s' hb hc =>
    obtain ⟨d, hd, hr⟩ := hb
    have hdo := hP.defs g d hd
    obtain ⟨op', l', m', hS⟩ := (stepOk hP n).failB op l s' (run_sem hr)
    have hS' := hS
    obtain ⟨_, rfl, rfl, rfl, _⟩ := (ucalls_leaf hc).1 hS
    refine ⟨.fail op' l' s'.mem, .fail _ _ _ _ _, d, hd, ?_⟩
    exact run_bwd (stepOk hP n) (ctl_calls n) hP hdo hr none (entry_other hdo) _ _ _ hS'
  | inside n g ρ s op l s' g' ρ' op' l' s'' hb hc he _ ih =>
    obtain ⟨d, hd, hr⟩ := hb
    have hdo := hP.defs g d hd
    obtain ⟨o, hrel, d', hd', hr'⟩ := ih
    cases hrel with
    | fail _ _ m'' e x =>
      refine ⟨.fail op' l' m'', .fail _ _ _ _ _, d, hd, ?_⟩
      exact run_bwd (stepOk hP (n + 1)) (ctl_calls (n + 1)) hP hdo hr none (entry_other hdo) _ _ _
        ((ucalls_call hc).2 ⟨ρ', d', _, he, hd', hr', rfl⟩)

/-- C70: in such a program a function without `resume` never throws, whatever its invokes do. -/
theorem c70_calm_partial (hP : ProgOk C pad calm) (n g : Nat) (hg : calm g) (ρ : Env V) (s s' : Flags V M) (v : Option V)
    (h : BExec C ok u procCode (flags one pad leaf) n g ρ s (.ret v s')) : s'.exn = false := by
  obtain ⟨o, hrel, d, hd, hr⟩ := c70_backward_partial C ok one u pad leaf calm hP n g ρ s _ h
  have hdo := hP.defs g d hd
  cases hrel with
  | ret => rfl
  | unwound x m =>
    exact absurd rfl (run_calm (stepOk (leaf := leaf) (ok := ok) (one := one) (u := u) hP n).leafThrow (stepOk hP n).calm hP hdo (hP.calm g d hd hg) hr one
      (entry_other hdo) _ _)

end

/-! ### A program that meets the hypotheses -/

namespace Ex

/-- `int f(int c) { if (c == 1) throw 7; return 3; }` -/
def fBody : Fn Nat := [⟨[], [], .cbr (.var 0) 1 2⟩, ⟨[], [], .resume (.const 7)⟩, ⟨[], [], .ret (some (.const 3))⟩]

/-- `int main(int c) { try { return f(c); } catch (int x) { return x; } }` -/
def mainBody : Fn Nat :=
  [⟨[], [⟨some 1, 0, [.var 0]⟩], .invoke 1 2⟩, ⟨[], [], .ret (some (.var 1))⟩, ⟨[], [⟨some 2, 1, []⟩], .ret (some (.var 2))⟩]

def prog : Calls Nat := ⟨fun op => if op = 0 then some 1 else none, [⟨[0], mainBody, []⟩, ⟨[0], fBody, []⟩]⟩

/-- Operation 1 is a landing pad, not a cleanup. -/
def pad : Pads := fun op => if op = 1 then some false else none

def leaf : Nat → List Nat → Unit → Option (Nat × Unit) → Prop := fun _ _ _ _ => False

theorem fBlock {b : Nat} {blk : Block Nat} (h : fBody[b]? = some blk) : (b = 0 ∧ blk = fBody[0]) ∨ (b = 1 ∧ blk = fBody[1]) ∨ (b = 2 ∧ blk = fBody[2]) := by
  rcases b with _ | _ | _ | b
  · exact .inl ⟨rfl, (Option.some.inj h).symm⟩
  · exact .inr (.inl ⟨rfl, (Option.some.inj h).symm⟩)
  · exact .inr (.inr ⟨rfl, (Option.some.inj h).symm⟩)
  · cases h

theorem mainBlock {b : Nat} {blk : Block Nat} (h : mainBody[b]? = some blk) :
    (b = 0 ∧ blk = mainBody[0]) ∨ (b = 1 ∧ blk = mainBody[1]) ∨ (b = 2 ∧ blk = mainBody[2]) := by
  rcases b with _ | _ | _ | b
  · exact .inl ⟨rfl, (Option.some.inj h).symm⟩
  · exact .inr (.inl ⟨rfl, (Option.some.inj h).symm⟩)
  · exact .inr (.inr ⟨rfl, (Option.some.inj h).symm⟩)
  · cases h

theorem dest {w : Nat} : Dest mainBody w ↔ w = 2 := by
  constructor
  · rintro ⟨b, blk, n, hb, ht⟩
    rcases mainBlock hb with ⟨rfl, rfl⟩ | ⟨rfl, rfl⟩ | ⟨rfl, rfl⟩ <;> simp [mainBody] at ht
    exact ht.2.symm
  · rintro rfl; exact ⟨0, _, 1, rfl, rfl⟩

theorem no_dest {w : Nat} : ¬ Dest fBody w := by
  rintro ⟨b, blk, n, hb, ht⟩
  rcases fBlock hb with ⟨rfl, rfl⟩ | ⟨rfl, rfl⟩ | ⟨rfl, rfl⟩ <;> simp [fBody] at ht

theorem ok : ProgOk prog pad (· = 0) where
  defs := by
    intro g d hd
    rcases g with _ | _ | g
    · have : d = ⟨[0], mainBody, []⟩ := (Option.some.inj hd).symm
      subst this
      refine ⟨ssa_star (by decide), plain_star (by decide) (by decide), complete_star' (by decide), ?_, ?_, ?_, ?_, ?_⟩
      · intro b blk hb hD
        have := dest.1 hD
        subst this
        have : blk = mainBody[2] := (Option.some.inj hb).symm
        subst this
        exact ⟨_, _, rfl, rfl, by simp⟩
      · intro b blk hb hD
        have h2 : b ≠ 2 := fun h => hD (dest.2 h)
        rcases mainBlock hb with ⟨rfl, rfl⟩ | ⟨rfl, rfl⟩ | ⟨rfl, rfl⟩ <;> simp [mainBody, pad] at h2 ⊢
      · intro b blk t hb ht hD
        have := dest.1 hD
        subst this
        rcases mainBlock hb with ⟨rfl, rfl⟩ | ⟨rfl, rfl⟩ | ⟨rfl, rfl⟩ <;> simp [mainBody, Term.succs] at ht ⊢
      · intro b blk n w hb ht
        rcases mainBlock hb with ⟨rfl, rfl⟩ | ⟨rfl, rfl⟩ | ⟨rfl, rfl⟩ <;> simp [mainBody] at ht
        exact ⟨[], _, 1, rfl, rfl⟩
      · intro b blk pre i post g hb he hc
        have hi : i ∈ blk.body := by rw [he]; simp
        rcases mainBlock hb with ⟨rfl, rfl⟩ | ⟨rfl, rfl⟩ | ⟨rfl, rfl⟩ <;> simp [mainBody] at hi
        · refine .inr ⟨?_, 1, 2, rfl⟩
          have : (mainBody[0].body).length = 1 := rfl
          rw [he] at this
          simp at this
          exact List.length_eq_zero_iff.1 (by omega)
        · subst hi; simp [prog] at hc
    · have : d = ⟨[0], fBody, []⟩ := (Option.some.inj hd).symm
      subst this
      refine ⟨ssa_star (by decide), plain_star (by decide) (by decide), complete_star' (by decide), ?_, ?_, ?_, ?_, ?_⟩
      · intro b blk hb hD; exact absurd hD no_dest
      · intro b blk hb hD; rcases fBlock hb with ⟨rfl, rfl⟩ | ⟨rfl, rfl⟩ | ⟨rfl, rfl⟩ <;> simp [fBody]
      · intro b blk t hb ht hD; exact absurd hD no_dest
      · intro b blk n w hb ht; exact absurd ⟨b, blk, n, hb, ht⟩ (no_dest (w := w))
      · intro b blk pre i post g hb he hc
        have hi : i ∈ blk.body := by rw [he]; simp
        rcases fBlock hb with ⟨rfl, rfl⟩ | ⟨rfl, rfl⟩ | ⟨rfl, rfl⟩ <;> simp [fBody] at hi
    · cases hd
  pads := by
    intro op g h
    by_cases h0 : op = 0
    · subst h0; rfl
    · simp [prog, h0] at h
  calm := by
    rintro g d hd rfl b blk v hb
    have : d = ⟨[0], mainBody, []⟩ := (Option.some.inj hd).symm
    subst this
    rcases mainBlock hb with ⟨rfl, rfl⟩ | ⟨rfl, rfl⟩ | ⟨rfl, rfl⟩ <;> simp [mainBody]

/-- `main(1)` catches the exception 7 thrown by `f`. -/
theorem run_main : UExec prog (fun _ _ => True) 1 0 pad leaf quiet 1 0 (fun _ => 1) () (.ret (some 7) ()) := by
  have hf : URun (ucalls prog (fun _ _ => True) 1 0 pad leaf quiet 0) 1 0 pad fBody 0 (fun _ => 1) () none (.unwound 7 ()) :=
    .goto 0 _ _ _ _ _ _ _ _ 1 _ _ rfl rfl (.nil _ _) rfl rfl (.resume 1 _ _ () none _ _ _ () (.const 7) rfl rfl (.nil _ _) rfl)
  have hc : ucalls prog (fun _ _ => True) 1 0 pad leaf quiet 1 0 [1] () (.thrown 7 ()) :=
    (ucalls_call (g := 1) rfl).2 ⟨fun _ => 1, ⟨[0], fBody, []⟩, _, ⟨trivial, _, rfl, rfl⟩, rfl, hf, rfl⟩
  have hr : ∀ ρ, URun (ucalls prog (fun _ _ => True) 1 0 pad leaf quiet 1) 1 0 pad mainBody 2 ρ () (some 7) (.ret (some 7) ()) := fun ρ =>
    .ret 2 mainBody[2] ρ () (some 7) [] (setOpt ρ (some 2) 7) (setOpt ρ (some 2) 7) () (some (.var 2)) rfl rfl (.nil _ _) rfl
  exact ⟨_, rfl, .land 0 _ _ _ _ _ _ _ _ _ 1 2 _ _ rfl rfl (.throw _ _ _ _ _ _ hc) rfl rfl (hr _)⟩

/-- The generated procedure returns 7 from any values of `$exn` and `$exnv`. -/
example (e : Bool) (x : Nat) : ∃ y, BExec prog (fun _ _ => True) 0 procCode (flags 1 pad leaf) 1 0 (fun _ => 1) ⟨(), e, x⟩ (.ret (some 7) ⟨(), false, y⟩) := by
  obtain ⟨o', h1, h2⟩ := c70_forward_partial prog (fun _ _ => True) 1 0 pad leaf _ ok 1 0 _ _ _ run_main e x
  cases h1 with
  | ret _ _ y => exact ⟨y, h2⟩

end Ex

/-! ### Disagreements -/

namespace Wit

/-- Statements about the generated code are statements about executions with flags. -/
theorem code {C : Calls Nat} (h : ∀ (g : Nat) d, C.funcs[g]? = some d → Ssa d.body ∧ Plain d.body ∧ LoopsComplete d.body d.loops) : CodeOk C procCode := by
  intro M P g d hd σ m o
  obtain ⟨h1, h2, h3⟩ := h g d hd
  exact c26_normalised_executions P d.body h1 h2 d.loops h3 σ m o

/-- `f() { throw 7; }` and `main() { f(); assert(false); }`, the call of `f` is operation 0, the assertion operation 1. -/
def lost : Calls Nat where
  callee := fun op => if op = 0 then some 1 else none
  funcs := [⟨[], [⟨[], [⟨none, 0, []⟩, ⟨none, 1, []⟩], .ret none⟩], []⟩, ⟨[], [⟨[], [], .resume (.const 7)⟩], []⟩]

def fails : Nat → List Nat → Unit → Option (Nat × Unit) → Prop := fun _ _ _ r => r = none

def noPads : Pads := fun _ => none

theorem lost_code : CodeOk lost procCode := by
  apply code
  intro g d hd
  rcases g with _ | _ | g
  · have : d = lost.funcs[0] := (Option.some.inj hd).symm
    subst this
    exact ⟨ssa_star (by decide), plain_star (by decide) (by decide), complete_star' (by decide)⟩
  · have : d = lost.funcs[1] := (Option.some.inj hd).symm
    subst this
    exact ⟨ssa_star (by decide), plain_star (by decide) (by decide), complete_star' (by decide)⟩
  · cases hd

/-- C70 fails for plain calls of functions that throw: the exception leaves `main`, but the generated procedure goes on after the call and
fails the assertion. -/
theorem c70_call_fails : (∀ n ρ o, UExec lost (fun _ _ => True) 1 0 noPads fails quiet n 0 ρ () o → o = .unwound 7 ()) ∧
    ∀ σ e x, ∃ s, BExec lost (fun _ _ => True) 0 procCode (flags 1 noPads fails) 1 0 σ ⟨(), e, x⟩ (.fail 1 [] s) := by
  constructor
  · rintro n ρ o ⟨d, hd, hr⟩
    have : d = lost.funcs[0] := (Option.some.inj hd).symm
    subst this
    cases n with
    | zero =>
      have key : ∀ r, ¬ UBlock (ucalls lost (fun _ _ => True) 1 0 noPads fails quiet 0) 0 [⟨none, 0, []⟩, ⟨none, 1, []⟩] ρ () r := by
        intro r h
        cases h with
        | step _ _ _ _ _ _ _ h => exact ucalls_call0 (g := 1) rfl h
        | throw _ _ _ _ _ _ h => exact ucalls_call0 (g := 1) rfl h
        | fail _ _ _ _ _ _ _ h => exact ucalls_call0 (g := 1) rfl h
      cases hr with
      | fail _ _ _ _ _ is ρ₀ _ _ _ hb hs hu => cases hb; cases hs; exact absurd hu (key _)
      | ret _ _ _ _ _ is ρ₀ _ _ _ hb hs hu => cases hb; cases hs; exact absurd hu (key _)
      | resume _ _ _ _ _ is ρ₀ _ _ _ hb hs hu => cases hb; cases hs; exact absurd hu (key _)
      | out _ _ _ _ _ is ρ₀ _ _ _ _ hb hs hu => cases hb; cases hs; exact absurd hu (key _)
      | goto _ _ _ _ _ is ρ₀ _ _ _ _ _ hb hs hu => cases hb; cases hs; exact absurd hu (key _)
      | land _ _ _ _ _ is ρ₀ _ _ _ _ _ _ _ hb hs hu => cases hb; cases hs; exact absurd hu (key _)
    | succ n =>
      have call : ∀ m r, ucalls lost (fun _ _ => True) 1 0 noPads fails quiet (n + 1) 0 [] m r → r = .thrown 7 () := by
        intro m r h
        obtain ⟨ρ', d', o', _, hd', hr', rfl⟩ := (ucalls_call (g := 1) rfl).1 h
        have : d' = lost.funcs[1] := (Option.some.inj hd').symm
        subst this
        cases hr' with
        | fail _ _ _ _ _ is ρ₀ _ _ _ hb hs hu => cases hb; cases hs; cases hu
        | ret _ _ _ _ _ is ρ₀ _ _ _ hb hs hu ht => cases hb; cases ht
        | resume _ _ _ _ _ is ρ₀ _ _ _ hb hs hu ht => cases hb; cases ht; rfl
        | out _ _ _ _ _ is ρ₀ _ _ _ _ hb hs hu => cases hb; cases hs; cases hu
        | goto _ _ _ _ _ is ρ₀ _ _ _ _ _ hb hs hu ht => cases hb; cases ht
        | land _ _ _ _ _ is ρ₀ _ _ _ _ _ _ _ hb hs hu ht => cases hb; cases ht
      have key : ∀ r, UBlock (ucalls lost (fun _ _ => True) 1 0 noPads fails quiet (n + 1)) 0 [⟨none, 0, []⟩, ⟨none, 1, []⟩] ρ () r →
          r = .thrown false ρ 7 () := by
        intro r h
        cases h with
        | step _ _ _ _ _ _ _ h => cases call _ _ h
        | throw _ _ _ _ _ _ h => cases call _ _ h; rfl
        | fail _ _ _ _ _ _ _ h => cases call _ _ h
      cases hr with
      | fail _ _ _ _ _ is ρ₀ _ _ _ hb hs hu => cases hb; cases hs; cases key _ hu
      | ret _ _ _ _ _ is ρ₀ _ _ _ hb hs hu => cases hb; cases hs; cases key _ hu
      | resume _ _ _ _ _ is ρ₀ _ _ _ hb hs hu => cases hb; cases hs; cases key _ hu
      | out _ _ _ _ _ is ρ₀ _ _ _ _ hb hs hu => cases hb; cases hs; cases key _ hu; rfl
      | goto _ _ _ _ _ is ρ₀ _ _ _ _ _ hb hs hu => cases hb; cases hs; cases key _ hu
      | land _ _ _ _ _ is ρ₀ _ _ _ _ _ _ _ hb hs hu => cases hb; cases hs; cases key _ hu
  · intro σ e x
    have q0 : (calls lost (fun _ _ => True) 0 (flags 1 noPads fails) 1).sem 0 [] ⟨(), e, x⟩ (some (0, ⟨(), true, 7⟩)) :=
      (calls_call (g := 1) rfl).2 ⟨σ, _, ⟨trivial, _, rfl, rfl⟩, ⟨_, rfl, .leave 0 _ _ _ _ _ _ rfl (.nil _ _) rfl⟩, rfl⟩
    have q1 : (calls lost (fun _ _ => True) 0 (flags 1 noPads fails) 1).sem 1 [] ⟨(), true, 7⟩ none := (calls_leaf rfl).2 rfl
    exact ⟨_, (bexec_iff lost_code).2 (.here _ _ _ _ _ _ _ ⟨_, rfl, .fail 0 _ _ _ _ rfl (.there _ _ _ _ _ _ _ q0 (.here _ _ _ _ q1))⟩ rfl)⟩

/-- `main() { try { ext(); } catch (int x) { assert(false); } }`: operation 0 is the function without definition, 1 the landing pad, 2 the
assertion. -/
def extBody : Fn Nat :=
  [⟨[], [⟨none, 0, []⟩], .invoke 1 2⟩, ⟨[], [], .ret none⟩, ⟨[], [⟨some 0, 1, []⟩, ⟨none, 2, []⟩], .ret none⟩]

def ext : Calls Nat := ⟨fun _ => none, [⟨[], extBody, []⟩]⟩

def extPad : Pads := fun op => if op = 1 then some true else none

/-- The function returns, the assertion fails. -/
def extLeaf : Nat → List Nat → Unit → Option (Nat × Unit) → Prop := fun op _ _ r => if op = 0 then r = some (0, ()) else r = none

/-- The function may throw 7. -/
def extThrows : Nat → List Nat → Unit → Nat → Unit → Prop := fun op _ _ x _ => op = 0 ∧ x = 7

theorem ext_code : CodeOk ext procCode := by
  apply code
  intro g d hd
  rcases g with _ | g
  · have : d = ext.funcs[0] := (Option.some.inj hd).symm
    subst this
    exact ⟨ssa_star (by decide), plain_star (by decide) (by decide), complete_star' (by decide)⟩
  · cases hd

theorem ext_call {n : Nat} {s : Flags Nat Unit} {r : Option (Nat × Flags Nat Unit)}
    (h : (calls ext (fun _ _ => True) 0 (flags 1 extPad extLeaf) n).sem 0 [] s r) : r = some (0, s) := by
  replace h := (calls_leaf (op := 0) rfl).1 h
  cases r with
  | none => exact absurd h (by simp [flags, extPad, extLeaf])
  | some p =>
    obtain ⟨v, s'⟩ := p
    simp only [flags, extPad, extLeaf] at h
    obtain ⟨h1, h2, h3⟩ := h
    simp only [if_true, Option.some.injEq, Prod.mk.injEq, and_true] at h1
    subst h1
    cases s; cases s'; simp only at h2 h3; subst h2; subst h3; rfl

/-- The flag decides. -/
theorem ext_run {n : Nat} {σ : Env Nat} {s : Flags Nat Unit} {o : Outcome Nat (Flags Nat Unit)}
    (h : PExec ext (fun _ _ => True) 0 (flags 1 extPad extLeaf) n 0 σ s o) : if s.exn then ∃ s', o = .fail 2 [] s' else ∃ s', o = .ret none s' := by
  have hb : Body ext (calls ext (fun _ _ => True) 0 (flags 1 extPad extLeaf) n) 0 σ s o := by
    cases h with
    | ret _ _ _ _ _ _ h => exact h
    | here _ _ _ _ _ _ _ h => exact h
    | inside _ _ _ _ _ _ _ _ _ _ _ _ _ hc => cases hc
  clear h
  obtain ⟨d, hd, hr⟩ := hb
  have : d = ext.funcs[0] := (Option.some.inj hd).symm
  subst this
  cases hr with
  | fail _ _ _ _ _ hb hf =>
    cases hb
    cases hf with
    | here _ _ _ _ h => cases ext_call h
    | there _ _ _ _ _ _ _ _ h => cases h
  | leave _ _ _ _ _ _ _ hb _ hl => cases hb; cases hl
  | step _ _ _ _ ρ₁ s₁ t _ _ hb he hn hb' hr' =>
    cases hb
    cases he with
    | cons _ _ _ _ _ _ _ _ h he =>
      cases ext_call h
      cases he
      simp only [next, calls_exn, flags, Option.some.injEq] at hn
      cases hx : s.exn with
      | false =>
        rw [hx] at hn
        simp only [Bool.false_eq_true, if_false] at hn ⊢
        subst hn
        cases hb'
        cases hr' with
        | fail _ _ _ _ _ hb hf => cases hb; cases hf
        | leave _ _ _ _ _ _ _ hb he hl => cases hb; cases he; cases hl; exact ⟨_, rfl⟩
        | step _ _ _ _ _ _ _ _ _ hb _ hn => cases hb; cases hn
      | true =>
        rw [hx] at hn
        simp only [if_true] at hn ⊢
        subst hn
        cases hb'
        have two : ∀ s r, (calls ext (fun _ _ => True) 0 (flags 1 extPad extLeaf) n).sem 2 [] s r → r = none := by
          intro s r h
          replace h := (calls_leaf (op := 2) rfl).1 h
          cases r with
          | none => rfl
          | some p => obtain ⟨v, s'⟩ := p; simp [flags, extPad, extLeaf] at h
        cases hr' with
        | fail _ _ _ _ _ hb hf =>
          cases hb
          cases hf with
          | here _ _ _ _ h =>
            replace h := (calls_leaf (op := 1) rfl).1 h
            simp [flags, extPad] at h
          | there _ _ _ _ _ _ _ _ hf =>
            cases hf with
            | here _ _ _ _ h => exact ⟨_, rfl⟩
            | there _ _ _ _ _ _ _ _ h => cases h
        | leave _ _ _ _ _ _ _ hb he _ =>
          cases hb
          cases he with
          | cons _ _ _ _ _ _ _ _ _ he =>
            cases he with
            | cons _ _ _ _ _ _ _ _ h _ => cases two _ _ h
        | step _ _ _ _ _ _ _ _ _ hb _ hn => cases hb; cases hn

/-- C70 fails for invokes of functions without definition, since the procedure without body does not set `$exn`. If the function throws, the handler
fails the assertion, but the generated procedure started with `$exn` false never does. If the function does not throw, the handler is not
executed, but the generated procedure started with `$exn` true always executes it. -/
theorem c70_external_fails :
    (∀ ρ, UExec ext (fun _ _ => True) 1 0 extPad extLeaf extThrows 0 0 ρ () (.fail 2 [] ())) ∧
    (∀ n σ x o, BExec ext (fun _ _ => True) 0 procCode (flags 1 extPad extLeaf) n 0 σ ⟨(), false, x⟩ o → ∃ s, o = .ret none s) ∧
    (∀ ρ n o, UExec ext (fun _ _ => True) 1 0 extPad extLeaf quiet n 0 ρ () o → o = .ret none ()) ∧
    (∀ n σ x o, BExec ext (fun _ _ => True) 0 procCode (flags 1 extPad extLeaf) n 0 σ ⟨(), true, x⟩ o → ∃ s, o = .fail 2 [] s) := by
  refine ⟨?_, ?_, ?_, ?_⟩
  · intro ρ
    exact ⟨_, rfl, .land 0 _ _ _ _ _ _ _ 7 () 1 2 _ _ rfl rfl (.throw _ _ _ _ _ _ ⟨rfl, rfl, rfl, rfl⟩) rfl rfl
      (.fail 2 _ _ _ _ _ _ 2 [] () rfl rfl (.fail _ _ _ _ _ _ _ ⟨rfl, rfl, rfl, rfl, rfl, rfl⟩))⟩
  · intro n σ x o h
    have := ext_run ((bexec_iff ext_code).1 h)
    simpa using this
  · rintro ρ n o ⟨d, hd, hr⟩
    have : d = ext.funcs[0] := (Option.some.inj hd).symm
    subst this
    have key : ∀ r, UBlock (ucalls ext (fun _ _ => True) 1 0 extPad extLeaf quiet n) 0 [⟨none, 0, []⟩] ρ () r → r = .done ρ () := by
      intro r h
      cases h with
      | step _ _ _ _ _ _ _ h hu => cases hu; rfl
      | throw _ _ _ _ _ _ h => exact absurd ((ucalls_leaf rfl).1 h).2 (fun h => h)
      | fail _ _ _ _ _ _ _ h =>
        obtain ⟨_, _, _, _, h⟩ := (ucalls_leaf (C := ext) rfl).1 h
        simp [extLeaf] at h
    cases hr with
    | fail _ _ _ _ _ is ρ₀ _ _ _ hb hs hu => cases hb; cases hs; cases key _ hu
    | ret _ _ _ _ _ is ρ₀ _ _ _ hb hs hu ht => cases hb; cases ht
    | resume _ _ _ _ _ is ρ₀ _ _ _ hb hs hu ht => cases hb; cases ht
    | out _ _ _ _ _ is ρ₀ _ _ _ _ hb hs hu => cases hb; cases hs; cases key _ hu
    | land _ _ _ _ _ is ρ₀ _ _ _ _ _ _ _ hb hs hu => cases hb; cases hs; cases key _ hu
    | goto _ _ _ _ _ is ρ₀ _ _ _ _ _ hb hs hu ht hb' hr' =>
      cases hb; cases hs; cases key _ hu; cases ht; cases hb'
      cases hr' with
      | fail _ _ _ _ _ is ρ₀ _ _ _ hb hs hu => cases hb; cases hs; cases hu
      | ret _ _ _ _ _ is ρ₀ _ _ _ hb hs hu ht => cases hb; cases hs; cases hu; cases ht; rfl
      | resume _ _ _ _ _ is ρ₀ _ _ _ hb hs hu ht => cases hb; cases ht
      | out _ _ _ _ _ is ρ₀ _ _ _ _ hb hs hu => cases hb; cases hs; cases hu
      | land _ _ _ _ _ is ρ₀ _ _ _ _ _ _ _ hb hs hu ht => cases hb; cases ht
      | goto _ _ _ _ _ is ρ₀ _ _ _ _ _ hb hs hu ht => cases hb; cases ht
  · intro n σ x o h
    have := ext_run ((bexec_iff ext_code).1 h)
    simpa using this

/-- `f() { throw 7; }` and `main() { try { f(); } catch (int x) { try { ext(); } catch (int y) { assert(false); } } }`: operation 0 is the
call of `f`, 1 and 4 are the landing pads, 3 is the function without definition and 2 the assertion. -/
def handler : Calls Nat where
  callee := fun op => if op = 0 then some 1 else none
  funcs := [⟨[], [⟨[], [⟨none, 0, []⟩], .invoke 3 1⟩, ⟨[], [⟨some 0, 1, []⟩, ⟨none, 3, []⟩], .invoke 3 2⟩,
      ⟨[], [⟨some 1, 4, []⟩, ⟨none, 2, []⟩], .ret none⟩, ⟨[], [], .ret none⟩], []⟩, ⟨[], [⟨[], [], .resume (.const 7)⟩], []⟩]

def handlerPad (cleanup : Bool) : Pads := fun op => if op = 1 ∨ op = 4 then some cleanup else none

/-- The function returns, the assertion fails. -/
def handlerLeaf : Nat → List Nat → Unit → Option (Nat × Unit) → Prop := fun op _ _ r => if op = 3 then r = some (0, ()) else r = none

theorem handler_code : CodeOk handler procCode := by
  apply code
  intro g d hd
  rcases g with _ | _ | g
  · have : d = handler.funcs[0] := (Option.some.inj hd).symm
    subst this
    exact ⟨ssa_star (by decide), plain_star (by decide) (by decide), complete_star' (by decide)⟩
  · have : d = handler.funcs[1] := (Option.some.inj hd).symm
    subst this
    exact ⟨ssa_star (by decide), plain_star (by decide) (by decide), complete_star' (by decide)⟩
  · cases hd

/-- C70 fails in handlers: a landing pad that is not a cleanup leaves `$exn` true, so that an invoke in the handler of a function without
definition that returns continues at its unwind destination. -/
theorem c70_handler_fails :
    (∀ n ρ o, UExec handler (fun _ _ => True) 1 0 (handlerPad false) handlerLeaf quiet n 0 ρ () o → o = .ret none ()) ∧
    ∀ σ x, ∃ s, BExec handler (fun _ _ => True) 0 procCode (flags 1 (handlerPad false) handlerLeaf) 1 0 σ ⟨(), false, x⟩ (.fail 2 [] s) := by
  constructor
  · rintro n ρ o ⟨d, hd, hr⟩
    have : d = handler.funcs[0] := (Option.some.inj hd).symm
    subst this
    have call : ∀ m r, ucalls handler (fun _ _ => True) 1 0 (handlerPad false) handlerLeaf quiet n 0 [] m r → r = .thrown 7 () := by
      intro m r h
      cases n with
      | zero => exact absurd h (ucalls_call0 (g := 1) rfl)
      | succ n =>
        obtain ⟨ρ', d', o', _, hd', hr', rfl⟩ := (ucalls_call (g := 1) rfl).1 h
        have : d' = handler.funcs[1] := (Option.some.inj hd').symm
        subst this
        cases hr' with
        | fail _ _ _ _ _ is ρ₀ _ _ _ hb hs hu => cases hb; cases hs; cases hu
        | ret _ _ _ _ _ is ρ₀ _ _ _ hb hs hu ht => cases hb; cases ht
        | resume _ _ _ _ _ is ρ₀ _ _ _ hb hs hu ht => cases hb; cases ht; rfl
        | out _ _ _ _ _ is ρ₀ _ _ _ _ hb hs hu => cases hb; cases hs; cases hu
        | goto _ _ _ _ _ is ρ₀ _ _ _ _ _ hb hs hu ht => cases hb; cases ht
        | land _ _ _ _ _ is ρ₀ _ _ _ _ _ _ _ hb hs hu ht => cases hb; cases ht
    have first : ∀ r, UBlock (ucalls handler (fun _ _ => True) 1 0 (handlerPad false) handlerLeaf quiet n) 0 [⟨none, 0, []⟩] ρ () r →
        r = .thrown true ρ 7 () := by
      intro r h
      cases h with
      | step _ _ _ _ _ _ _ h => cases call _ _ h
      | throw _ _ _ _ _ _ h => cases call _ _ h; rfl
      | fail _ _ _ _ _ _ _ h => cases call _ _ h
    have second : ∀ ρ r, UBlock (ucalls handler (fun _ _ => True) 1 0 (handlerPad false) handlerLeaf quiet n) 0 [⟨none, 3, []⟩] ρ () r →
        r = .done ρ () := by
      intro ρ r h
      cases h with
      | step _ _ _ _ _ _ _ h hu => cases hu; rfl
      | throw _ _ _ _ _ _ h => exact absurd ((ucalls_leaf rfl).1 h).2 (fun h => h)
      | fail _ _ _ _ _ _ _ h =>
        obtain ⟨_, _, _, _, h⟩ := (ucalls_leaf (C := handler) rfl).1 h
        simp [handlerLeaf] at h
    have b2 : ∀ ρ x o, URun (ucalls handler (fun _ _ => True) 1 0 (handlerPad false) handlerLeaf quiet n) 1 0 (handlerPad false) handler.funcs[0].body 1 ρ ()
        (some x) o → o = .ret none () := by
      intro ρ x o h
      cases h with
      | fail _ _ _ _ _ is ρ₀ _ _ _ hb hs hu => cases hb; cases hs; cases second _ _ hu
      | ret _ _ _ _ _ is ρ₀ _ _ _ hb hs hu ht => cases hb; cases ht
      | resume _ _ _ _ _ is ρ₀ _ _ _ hb hs hu ht => cases hb; cases ht
      | out _ _ _ _ _ is ρ₀ _ _ _ _ hb hs hu => cases hb; cases hs; cases second _ _ hu
      | land _ _ _ _ _ is ρ₀ _ _ _ _ _ _ _ hb hs hu => cases hb; cases hs; cases second _ _ hu
      | goto _ _ _ _ _ is ρ₀ _ _ _ _ _ hb hs hu ht hb' hr' =>
        cases hb; cases hs; cases second _ _ hu; cases ht; cases hb'
        cases hr' with
        | fail _ _ _ _ _ is ρ₀ _ _ _ hb hs hu => cases hb; cases hs; cases hu
        | ret _ _ _ _ _ is ρ₀ _ _ _ hb hs hu ht => cases hb; cases hs; cases hu; cases ht; rfl
        | resume _ _ _ _ _ is ρ₀ _ _ _ hb hs hu ht => cases hb; cases ht
        | out _ _ _ _ _ is ρ₀ _ _ _ _ hb hs hu => cases hb; cases hs; cases hu
        | land _ _ _ _ _ is ρ₀ _ _ _ _ _ _ _ hb hs hu ht => cases hb; cases ht
        | goto _ _ _ _ _ is ρ₀ _ _ _ _ _ hb hs hu ht => cases hb; cases ht
    cases hr with
    | fail _ _ _ _ _ is ρ₀ _ _ _ hb hs hu => cases hb; cases hs; cases first _ hu
    | ret _ _ _ _ _ is ρ₀ _ _ _ hb hs hu => cases hb; cases hs; cases first _ hu
    | resume _ _ _ _ _ is ρ₀ _ _ _ hb hs hu => cases hb; cases hs; cases first _ hu
    | out _ _ _ _ _ is ρ₀ _ _ _ _ hb hs hu hn => cases hb; cases hs; cases first _ hu; exact absurd ⟨rfl, 3, 1, rfl⟩ hn
    | goto _ _ _ _ _ is ρ₀ _ _ _ _ _ hb hs hu => cases hb; cases hs; cases first _ hu
    | land _ _ _ _ _ is ρ₀ _ _ _ _ _ _ _ hb hs hu ht _ hr' => cases hb; cases hs; cases first _ hu; cases ht; exact b2 _ _ _ hr'
  · intro σ x
    have q0 : (calls handler (fun _ _ => True) 0 (flags 1 (handlerPad false) handlerLeaf) 1).sem 0 [] ⟨(), false, x⟩ (some (0, ⟨(), true, 7⟩)) :=
      (calls_call (g := 1) rfl).2 ⟨σ, _, ⟨trivial, _, rfl, rfl⟩, ⟨_, rfl, .leave 0 _ _ _ _ _ _ rfl (.nil _ _) rfl⟩, rfl⟩
    have q1 : (calls handler (fun _ _ => True) 0 (flags 1 (handlerPad false) handlerLeaf) 1).sem 1 [] ⟨(), true, 7⟩ (some (7, ⟨(), true, 7⟩)) := (calls_leaf rfl).2 rfl
    have q3 : (calls handler (fun _ _ => True) 0 (flags 1 (handlerPad false) handlerLeaf) 1).sem 3 [] ⟨(), true, 7⟩ (some (0, ⟨(), true, 7⟩)) :=
      (calls_leaf rfl).2 ⟨rfl, rfl, rfl⟩
    have q4 : (calls handler (fun _ _ => True) 0 (flags 1 (handlerPad false) handlerLeaf) 1).sem 4 [] ⟨(), true, 7⟩ (some (7, ⟨(), true, 7⟩)) := (calls_leaf rfl).2 rfl
    have q2 : (calls handler (fun _ _ => True) 0 (flags 1 (handlerPad false) handlerLeaf) 1).sem 2 [] ⟨(), true, 7⟩ none := (calls_leaf rfl).2 rfl
    exact ⟨⟨(), true, 7⟩, (bexec_iff handler_code).2 (.here _ _ _ _ 2 [] _ ⟨_, rfl, .step 0 _ _ _ _ _ 1 _ _ rfl (.cons _ _ _ _ _ _ _ _ q0 (.nil _ _)) rfl rfl
      (.step 1 _ _ _ _ _ 2 _ _ rfl (.cons _ _ _ _ _ _ _ _ q1 (.cons _ _ _ _ _ _ _ _ q3 (.nil _ _))) rfl rfl
        (.fail 2 _ _ _ _ rfl (.there _ _ _ _ _ _ _ q4 (.here _ _ _ _ q2))))⟩ rfl)⟩

end Wit

end Smack.Exn
