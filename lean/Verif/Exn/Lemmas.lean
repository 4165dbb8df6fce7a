/-
Helper lemmas for exceptions.
-/
import Verif.Exn.Spec
import Verif.E2EMod.Prog

set_option linter.unusedSectionVars false

namespace Smack.Exn

open Smack.Cfg Smack.Cfg.Spec Smack.E2EMod

section
variable {V M : Type} [DecidableEq V] {C : Calls V} {ok : Nat → Env V → Prop} {one u : V} {pad : Pads}
  {leaf : Nat → List V → M → Option (V × M) → Prop} {calm : Nat → Prop}

/-- No operation without definition throws. -/
def quiet : Nat → List V → M → V → M → Prop := fun _ _ _ _ _ => False

/-- The two semantics of the operations agree. -/
structure StepOk (C : Calls V) (pad : Pads) (u : V) (calm : Nat → Prop) (S : Nat → List V → M → URes V M → Prop) (Q : Params V (Flags V M)) : Prop where
  padQ : ∀ op c, C.callee op = none → pad op = some c → ∀ l s r, Q.sem op l s r ↔ r = some (s.val, { s with exn := if c then false else s.exn })
  leafOk : ∀ op, C.callee op = none → pad op = none → ∀ l m e x v s', Q.sem op l ⟨m, e, x⟩ (some (v, s')) ↔
    ∃ m', s' = ⟨m', e, x⟩ ∧ S op l m (.ok v m')
  leafThrow : ∀ op, C.callee op = none → ∀ l m x m', ¬ S op l m (.thrown x m')
  failF : ∀ op l m op' l' m', S op l m (.fail op' l' m') → ∀ e x, Q.sem op l ⟨m, e, x⟩ none
  failB : ∀ op l s, Q.sem op l s none → ∃ op' l' m', S op l s.mem (.fail op' l' m')
  callOk : ∀ op g, C.callee op = some g → ∀ l m v m', S op l m (.ok v m') → ∀ e x, ∃ x', Q.sem op l ⟨m, e, x⟩ (some (v, ⟨m', false, x'⟩))
  callThrow : ∀ op g, C.callee op = some g → ∀ l m y m', S op l m (.thrown y m') → ∀ e x, Q.sem op l ⟨m, e, x⟩ (some (u, ⟨m', true, y⟩))
  callB : ∀ op g, C.callee op = some g → ∀ l s v s', Q.sem op l s (some (v, s')) →
    (s'.exn = false ∧ S op l s.mem (.ok v s'.mem)) ∨ (s'.exn = true ∧ v = u ∧ S op l s.mem (.thrown s'.val s'.mem))
  calm : ∀ op g, C.callee op = some g → calm g → ∀ l m x m', ¬ S op l m (.thrown x m')

variable {S : Nat → List V → M → URes V M → Prop} {Q : Params V (Flags V M)}

/-- The instructions that remain to be executed in a block that ends in an invoke (`inv`) or not. -/
structure Rest (C : Calls V) (pad : Pads) (calm : Nat → Prop) (inv : Prop) (is : List (Instr V)) : Prop where
  pads : ∀ j ∈ is, pad j.op = none
  last : inv → ∃ pre i g, is = pre ++ [i] ∧ C.callee i.op = some g
  call : ∀ pre i post g, is = pre ++ i :: post → C.callee i.op = some g → calm g ∨ (post = [] ∧ inv)

theorem Rest.tail {inv : Prop} {i : Instr V} {is : List (Instr V)} (h : Rest C pad calm inv (i :: is)) (hne : is ≠ [] ∨ ¬ inv) :
    Rest C pad calm inv is where
  pads := fun j hj => h.pads j (List.mem_cons_of_mem _ hj)
  last := by
    intro hi
    obtain ⟨pre, j, g, he, hc⟩ := h.last hi
    cases pre with
    | nil => simp only [List.nil_append, List.cons.injEq] at he; rcases hne with h | h; exact absurd he.2 h; exact absurd hi h
    | cons p pre => simp only [List.cons_append, List.cons.injEq] at he; exact ⟨pre, j, g, he.2, hc⟩
  call := fun pre j post g he hc => h.call (i :: pre) j post g (by rw [he]; rfl) hc

/-- Instructions without exception. -/
theorem exec_fwd (H : StepOk C pad u calm S Q) {inv : Prop} {is : List (Instr V)} {ρ : Env V} {m : M} {r : BRes V M} (h : UBlock S u is ρ m r)
    (hr : Rest C pad calm inv is) (e : Bool) (x : V) :
    (∀ ρ₁ m₁, r = .done ρ₁ m₁ → ∃ e' x', Exec Q is ρ ⟨m, e, x⟩ ρ₁ ⟨m₁, e', x'⟩ ∧ (inv → e' = false)) ∧
    (∀ last ρ₁ y m₁, r = .thrown last ρ₁ y m₁ → inv ∧ last = true ∧ Exec Q is ρ ⟨m, e, x⟩ ρ₁ ⟨m₁, true, y⟩) ∧
    ∀ op l m', r = .fail op l m' → ∃ op₁ l₁ m₁ e₁ x₁, ExecFail Q is ρ ⟨m, e, x⟩ (.fail op₁ l₁ ⟨m₁, e₁, x₁⟩) ∧ S op₁ l₁ m₁ (.fail op l m') := by
  induction h generalizing e x with
  | nil ρ m =>
    refine ⟨?_, (by intro _ _ _ _ h; cases h), by intro _ _ _ h; cases h⟩
    intro ρ₁ m₁ h; cases h
    refine ⟨e, x, .nil _ _, ?_⟩
    intro hi
    obtain ⟨pre, i, g, he, _⟩ := hr.last hi
    simp at he
  | step i is ρ m v m' r hs hb ih =>
    have hgo : ∃ e' x', Q.sem i.op (i.args.map (eval ρ)) ⟨m, e, x⟩ (some (v, ⟨m', e', x'⟩)) ∧ (∀ g, C.callee i.op = some g → e' = false) := by
      cases hc : C.callee i.op with
      | none =>
        exact ⟨e, x, (H.leafOk _ hc (hr.pads i List.mem_cons_self) _ _ _ _ _ _).2 ⟨m', rfl, hs⟩, fun g hg => by cases hg⟩
      | some g =>
        obtain ⟨x', h'⟩ := H.callOk _ g hc _ _ _ _ hs e x
        exact ⟨false, x', h', fun _ _ => rfl⟩
    obtain ⟨e', x', hq, hf⟩ := hgo
    by_cases hlast : is ≠ [] ∨ ¬ inv
    · obtain ⟨i1, i2, i3⟩ := ih (hr.tail hlast) e' x'
      refine ⟨?_, ?_, ?_⟩
      · intro ρ₁ m₁ h
        obtain ⟨e₁, x₁, h1, h2⟩ := i1 ρ₁ m₁ h
        exact ⟨e₁, x₁, .cons _ _ _ _ _ _ _ _ hq h1, h2⟩
      · intro last ρ₁ y m₁ h
        obtain ⟨h1, h2, h3⟩ := i2 last ρ₁ y m₁ h
        exact ⟨h1, h2, .cons _ _ _ _ _ _ _ _ hq h3⟩
      · intro op l m₂ h
        obtain ⟨op₁, l₁, m₁, e₁, x₁, h1, h2⟩ := i3 op l m₂ h
        exact ⟨op₁, l₁, m₁, e₁, x₁, .there _ _ _ _ _ _ _ hq h1, h2⟩
    · have hnil : is = [] := Classical.not_not.1 fun h => hlast (.inl h)
      have hinv : inv := Classical.not_not.1 fun h => hlast (.inr h)
      subst hnil
      obtain ⟨pre, j, g, he, hc⟩ := hr.last hinv
      have hj : j = i := by
        cases pre with
        | nil => simp at he; exact he.symm
        | cons p pre => simp at he
      subst hj
      cases hb
      refine ⟨?_, (by intro _ _ _ _ h; cases h), by intro _ _ _ h; cases h⟩
      intro ρ₁ m₁ h; cases h
      exact ⟨e', x', .cons _ _ _ _ _ _ _ _ hq (.nil _ _), fun _ => hf g hc⟩
  | throw i is ρ m y m' hs =>
    refine ⟨(by intro _ _ h; cases h), ?_, by intro _ _ _ h; cases h⟩
    intro last ρ₁ y' m₁ h; cases h
    cases hc : C.callee i.op with
    | none => exact absurd hs (H.leafThrow _ hc _ _ _ _)
    | some g =>
      rcases hr.call [] i is g rfl hc with hn | ⟨hp, hi⟩
      · exact absurd hs (H.calm _ g hc hn _ _ _ _)
      · subst hp
        exact ⟨hi, rfl, .cons _ _ _ _ _ _ _ _ (H.callThrow _ g hc _ _ _ _ hs e x) (.nil _ _)⟩
  | fail i is ρ m op l m' hs =>
    refine ⟨(by intro _ _ h; cases h), (by intro _ _ _ _ h; cases h), ?_⟩
    intro op' l' m₁ h; cases h
    exact ⟨_, _, _, _, _, .here _ _ _ _ (H.failF _ _ _ _ _ _ hs e x), hs⟩

theorem exec_bwd (H : StepOk C pad u calm S Q) {inv : Prop} {is : List (Instr V)} {ρ ρ₁ : Env V} {s s₁ : Flags V M} (h : Exec Q is ρ s ρ₁ s₁)
    (hr : Rest C pad calm inv is) : (UBlock S u is ρ s.mem (.done ρ₁ s₁.mem) ∧ (inv → s₁.exn = false)) ∨
      (inv ∧ s₁.exn = true ∧ UBlock S u is ρ s.mem (.thrown true ρ₁ s₁.val s₁.mem)) := by
  induction h with
  | nil ρ s =>
    refine .inl ⟨.nil _ _, ?_⟩
    intro hi
    obtain ⟨pre, i, g, he, _⟩ := hr.last hi
    simp at he
  | cons i is ρ s v s' ρ₂ s₂ hq hb ih =>
    have hgo : (S i.op (i.args.map (eval ρ)) s.mem (.ok v s'.mem) ∧ (∀ g, C.callee i.op = some g → s'.exn = false)) ∨
        (is = [] ∧ inv ∧ v = u ∧ s'.exn = true ∧ S i.op (i.args.map (eval ρ)) s.mem (.thrown s'.val s'.mem)) := by
      cases hc : C.callee i.op with
      | none =>
        obtain ⟨m', rfl, h'⟩ := (H.leafOk _ hc (hr.pads i List.mem_cons_self) _ s.mem s.exn s.val _ _).1 hq
        exact .inl ⟨h', fun g hg => by cases hg⟩
      | some g =>
        rcases H.callB _ g hc _ _ _ _ hq with ⟨h1, h2⟩ | ⟨h1, h2, h3⟩
        · exact .inl ⟨h2, fun _ _ => h1⟩
        · rcases hr.call [] i is g rfl hc with hn | ⟨hp, hi⟩
          · exact absurd h3 (H.calm _ g hc hn _ _ _ _)
          · exact .inr ⟨hp, hi, h2, h1, h3⟩
    rcases hgo with ⟨h1, h2⟩ | ⟨rfl, hi, rfl, h3, h4⟩
    · by_cases hlast : is ≠ [] ∨ ¬ inv
      · rcases ih (hr.tail hlast) with ⟨i1, i2⟩ | ⟨i1, i2, i3⟩
        · exact .inl ⟨.step _ _ _ _ _ _ _ h1 i1, i2⟩
        · exact .inr ⟨i1, i2, .step _ _ _ _ _ _ _ h1 i3⟩
      · have hnil : is = [] := Classical.not_not.1 fun h => hlast (.inl h)
        have hinv : inv := Classical.not_not.1 fun h => hlast (.inr h)
        subst hnil
        obtain ⟨pre, j, g, he, hc⟩ := hr.last hinv
        have hj : j = i := by
          cases pre with
          | nil => simp at he; exact he.symm
          | cons p pre => simp at he
        subst hj
        cases hb
        exact .inl ⟨.step _ _ _ _ _ _ _ h1 (.nil _ _), fun _ => h2 g hc⟩
    · cases hb
      exact .inr ⟨hi, h3, .throw i [] ρ s.mem _ _ h4⟩

theorem fail_bwd (H : StepOk C pad u calm S Q) {inv : Prop} {is : List (Instr V)} {ρ : Env V} {s : Flags V M} {o : Outcome V (Flags V M)}
    (h : ExecFail Q is ρ s o) (hr : Rest C pad calm inv is) : ∃ op l s', o = .fail op l s' ∧
      ∀ op' l' m', S op l s'.mem (.fail op' l' m') → UBlock S u is ρ s.mem (.fail op' l' m') := by
  induction h with
  | here i is ρ s hq => exact ⟨_, _, _, rfl, fun op' l' m' h => .fail _ _ _ _ _ _ _ h⟩
  | there i is ρ s v s' o hq hb ih =>
    have hne : is ≠ [] := by rintro rfl; cases hb
    obtain ⟨op, l, s₁, rfl, h1⟩ := ih (hr.tail (.inl hne))
    refine ⟨op, l, s₁, rfl, fun op' l' m' h => .step i is ρ s.mem v s'.mem _ ?_ (h1 _ _ _ h)⟩
    cases hc : C.callee i.op with
    | none =>
      obtain ⟨m', rfl, h'⟩ := (H.leafOk _ hc (hr.pads i List.mem_cons_self) _ s.mem s.exn s.val _ _).1 hq
      exact h'
    | some g =>
      rcases H.callB _ g hc _ _ _ _ hq with ⟨_, h2⟩ | ⟨h1, h2, h3⟩
      · exact h2
      · rcases hr.call [] i is g rfl hc with hn | ⟨hp, hi⟩
        · exact absurd h3 (H.calm _ g hc hn _ _ _ _)
        · exact absurd hp hne

/-! ### Functions -/

variable {d : FnDef V}

theorem rest_other (hd : DefOk C pad calm d) {b : Nat} {blk : Block V} (hb : d.body[b]? = some blk) (hn : ¬ Dest d.body b) :
    Rest C pad calm (∃ n w, blk.term = .invoke n w) blk.body where
  pads := hd.other b blk hb hn
  last := fun ⟨n, w, h⟩ => hd.invoke b blk n w hb h
  call := fun pre i post g he hc => hd.call b blk pre i post g hb he hc

theorem rest_landing (hP : ProgOk C pad calm) (hd : DefOk C pad calm d) {b : Nat} {blk : Block V} (hb : d.body[b]? = some blk) (hn : Dest d.body b) :
    ∃ i is, blk.body = i :: is ∧ (pad i.op).isSome ∧ Rest C pad calm (∃ n w, blk.term = .invoke n w) is := by
  obtain ⟨i, is, he, hp, hr⟩ := hd.landing b blk hb hn
  refine ⟨i, is, he, hp, hr, ?_, ?_⟩
  · rintro ⟨n, w, h⟩
    obtain ⟨pre, j, g, he', hc⟩ := hd.invoke b blk n w hb h
    rw [he] at he'
    cases pre with
    | nil =>
      simp only [List.nil_append, List.cons.injEq] at he'
      rw [← he'.1] at hc
      rw [hP.pads _ _ hc] at hp; cases hp
    | cons p pre => simp only [List.cons_append, List.cons.injEq] at he'; exact ⟨pre, j, g, he'.2, hc⟩
  · exact fun pre j post g he' hc => hd.call b blk (i :: pre) j post g hb (by rw [he, he']; rfl) hc

/-- How a block is entered. -/
def Entered (fn : Fn V) (b : Nat) (x : Option V) (v : V) : Prop :=
  match x with
  | none => ¬ Dest fn b
  | some y => Dest fn b ∧ v = y

theorem target_succ {ρ : Env V} {t : Term V} {w : Nat} (h : target one ρ t = some w) : w ∈ t.succs := by
  cases t <;> simp [target, Term.succs] at h ⊢
  · exact h.symm
  · split at h <;> simp [← h]
  · exact .inl h.symm

theorem not_dest (hd : DefOk C pad calm d) {b : Nat} {blk : Block V} (hb : d.body[b]? = some blk) {ρ : Env V} {w : Nat}
    (h : target one ρ blk.term = some w) : ¬ Dest d.body w := by
  intro hw
  obtain ⟨n, ht⟩ := hd.reached b blk w hb (target_succ h) hw
  rw [ht] at h
  simp only [target, Option.some.injEq] at h
  have := hd.plain.distinct b blk hb
  rw [ht, h] at this
  simp [Term.succs] at this

/-- Related outcomes of a function body. -/
def BodyRel (S : Nat → List V → M → URes V M → Prop) (o : UOut V M) (o' : Outcome V (Flags V M)) : Prop :=
  match o with
  | .ret v m => ∃ x, o' = .ret v ⟨m, false, x⟩
  | .unwound y m => o' = .ret none ⟨m, true, y⟩
  | .fail op l m => ∃ op₁ l₁ s₁, o' = .fail op₁ l₁ s₁ ∧ S op₁ l₁ s₁.mem (.fail op l m)

/-- The fields of the parameters used by control flow. -/
structure Ctl (one : V) (Q : Params V (Flags V M)) : Prop where
  one : Q.one = one
  exn : Q.exn = fun s => s.exn
  setExn : Q.setExn = fun b s => { s with exn := b }
  setExnVal : Q.setExnVal = fun v s => { s with val := v }

theorem next_of_target (hQ : Ctl one Q) (hd : DefOk C pad calm d) {b : Nat} {blk : Block V} (hb : d.body[b]? = some blk) {ρ : Env V} {s : Flags V M}
    (he : (∃ n w, blk.term = .invoke n w) → s.exn = false) : next Q ρ s blk.term = target one ρ blk.term := by
  have hsw := hd.plain.noSwitch b blk
  generalize blk.term = t at *
  cases t with
  | invoke n w => simp [next, target, hQ.exn, he ⟨n, w, rfl⟩]
  | switch c cs dd => exact absurd rfl (hsw c cs dd hb)
  | cbr c t f => simp [next, target, hQ.one]
  | _ => rfl

theorem start_landing {b : Nat} {blk : Block V} {x : Option V} {v : V} (hP : ProgOk C pad calm) (hd : DefOk C pad calm d) (hb : d.body[b]? = some blk)
    (hx : Entered d.body b x v) : ∃ pre is, blk.body = pre ++ is ∧ Rest C pad calm (∃ n w, blk.term = .invoke n w) is ∧
      ((x = none ∧ pre = []) ∨ (x = some v ∧ ∃ i, pre = [i] ∧ (pad i.op).isSome ∧ C.callee i.op = none)) := by
  cases x with
  | none => exact ⟨[], blk.body, rfl, rest_other hd hb hx, .inl ⟨rfl, rfl⟩⟩
  | some y =>
    obtain ⟨hD, rfl⟩ := hx
    obtain ⟨i, is, he, hp, hr⟩ := rest_landing hP hd hb hD
    refine ⟨[i], is, he, hr, .inr ⟨rfl, i, rfl, hp, ?_⟩⟩
    cases hc : C.callee i.op with
    | none => rfl
    | some g => rw [hP.pads _ _ hc] at hp; cases hp

/-- After the landing pad, the two semantics are at the same instructions. -/
theorem start_fwd (H : StepOk C pad u calm S Q) (hP : ProgOk C pad calm) (hd : DefOk C pad calm d) {b : Nat} {blk : Block V} {x : Option V} {v : V}
    (hb : d.body[b]? = some blk) (hx : Entered d.body b x v) {ρ ρ₀ : Env V} {is : List (Instr V)}
    (hs : start pad x blk.body ρ = some (is, ρ₀)) (m : M) (e : Bool) :
    Rest C pad calm (∃ n w, blk.term = .invoke n w) is ∧ ∃ e', (∀ ρ₁ s₁, Exec Q is ρ₀ ⟨m, e', v⟩ ρ₁ s₁ → Exec Q blk.body ρ ⟨m, e, v⟩ ρ₁ s₁) ∧
      ∀ o, ExecFail Q is ρ₀ ⟨m, e', v⟩ o → ExecFail Q blk.body ρ ⟨m, e, v⟩ o := by
  obtain ⟨pre, is', he, hr, ⟨rfl, rfl⟩ | ⟨rfl, i, rfl, hp, hc⟩⟩ := start_landing hP hd hb hx
  · rw [he] at hs ⊢
    simp only [start, Option.some.injEq, Prod.mk.injEq, List.nil_append] at hs
    obtain ⟨rfl, rfl⟩ := hs
    exact ⟨hr, e, fun _ _ h => h, fun _ h => h⟩
  · rw [he] at hs ⊢
    simp only [start, List.cons_append, List.nil_append, hp, if_true, Option.some.injEq, Prod.mk.injEq] at hs
    obtain ⟨rfl, rfl⟩ := hs
    obtain ⟨c, hc'⟩ := Option.isSome_iff_exists.1 hp
    have hq := (H.padQ _ c hc hc' (i.args.map (eval ρ)) ⟨m, e, v⟩ _).2 rfl
    exact ⟨hr, _, fun _ _ h => .cons _ _ _ _ _ _ _ _ hq h, fun _ h => .there _ _ _ _ _ _ _ hq h⟩

theorem start_bwd (H : StepOk C pad u calm S Q) (hP : ProgOk C pad calm) (hd : DefOk C pad calm d) {b : Nat} {blk : Block V} {x : Option V} {s : Flags V M}
    (hb : d.body[b]? = some blk) (hx : Entered d.body b x s.val) (ρ : Env V) : ∃ is ρ₀ s₀, start pad x blk.body ρ = some (is, ρ₀) ∧
      Rest C pad calm (∃ n w, blk.term = .invoke n w) is ∧ s₀.mem = s.mem ∧ (∀ ρ₁ s₁, Exec Q blk.body ρ s ρ₁ s₁ → Exec Q is ρ₀ s₀ ρ₁ s₁) ∧
      ∀ o, ExecFail Q blk.body ρ s o → ExecFail Q is ρ₀ s₀ o := by
  obtain ⟨pre, is, he, hr, ⟨rfl, rfl⟩ | ⟨hx', i, rfl, hp, hc⟩⟩ := start_landing hP hd hb hx
  · rw [he]
    exact ⟨is, ρ, s, rfl, hr, rfl, fun _ _ h => h, fun _ h => h⟩
  · rw [he, hx']
    obtain ⟨c, hc'⟩ := Option.isSome_iff_exists.1 hp
    refine ⟨is, setOpt ρ i.dst s.val, { s with exn := if c then false else s.exn }, by simp [start, hp], hr, rfl, ?_, ?_⟩
    · intro ρ₁ s₁ h
      cases h with
      | cons _ _ _ _ v s' _ _ hq h =>
        have := (H.padQ _ c hc hc' _ _ _).1 hq
        simp only [Option.some.injEq, Prod.mk.injEq] at this
        obtain ⟨rfl, rfl⟩ := this
        exact h
    · intro o h
      cases h with
      | here _ _ _ _ hq => have := (H.padQ _ c hc hc' _ _ _).1 hq; cases this
      | there _ _ _ _ v s' _ hq h =>
        have := (H.padQ _ c hc hc' _ _ _).1 hq
        simp only [Option.some.injEq, Prod.mk.injEq] at this
        obtain ⟨rfl, rfl⟩ := this
        exact h

theorem run_fwd (H : StepOk C pad u calm S Q) (hQ : Ctl one Q) (hP : ProgOk C pad calm) (hd : DefOk C pad calm d) {b : Nat} {ρ : Env V} {m : M}
    {x : Option V} {o : UOut V M} (h : URun S one u pad d.body b ρ m x o) :
    ∀ e v, Entered d.body b x v → ∃ o', Run Q d.body b ρ ⟨m, e, v⟩ o' ∧ BodyRel S o o' := by
  induction h with
  | fail b blk ρ m x is ρ₀ op l m' hb hs hu =>
    intro e v hx
    obtain ⟨hr, e', _, hf⟩ := start_fwd H hP hd hb hx hs m e
    obtain ⟨op₁, l₁, m₁, e₁, x₁, h1, h2⟩ := (exec_fwd H hu hr e' v).2.2 _ _ _ rfl
    exact ⟨_, .fail _ _ _ _ _ hb (hf _ h1), _, _, _, rfl, h2⟩
  | ret b blk ρ m x is ρ₀ ρ₁ m₁ w hb hs hu ht =>
    intro e v hx
    obtain ⟨hr, e', hc, _⟩ := start_fwd H hP hd hb hx hs m e
    obtain ⟨e₁, x₁, h1, _⟩ := (exec_fwd H hu hr e' v).1 _ _ rfl
    refine ⟨_, .leave _ _ _ _ _ _ _ hb (hc _ _ h1) (by rw [ht]; rfl), x₁, ?_⟩
    rw [hQ.setExn]
  | resume b blk ρ m x is ρ₀ ρ₁ m₁ w hb hs hu ht =>
    intro e v hx
    obtain ⟨hr, e', hc, _⟩ := start_fwd H hP hd hb hx hs m e
    obtain ⟨e₁, x₁, h1, _⟩ := (exec_fwd H hu hr e' v).1 _ _ rfl
    refine ⟨_, .leave _ _ _ _ _ _ _ hb (hc _ _ h1) (by rw [ht]; rfl), ?_⟩
    show _ = _
    rw [hQ.setExn, hQ.setExnVal]
  | out b blk ρ m x is ρ₀ last ρ₁ y m₁ hb hs hu hn =>
    intro e v hx
    obtain ⟨hr, e', hc, _⟩ := start_fwd H hP hd hb hx hs m e
    obtain ⟨h1, h2, _⟩ := (exec_fwd H hu hr e' v).2.1 _ _ _ _ rfl
    exact absurd ⟨h2, h1⟩ hn
  | goto b blk ρ m x is ρ₀ ρ₁ m₁ t blk' o hb hs hu ht hb' _ ih =>
    intro e v hx
    obtain ⟨hr, e', hc, _⟩ := start_fwd H hP hd hb hx hs m e
    obtain ⟨e₁, x₁, h1, h2⟩ := (exec_fwd H hu hr e' v).1 _ _ rfl
    obtain ⟨o', h3, h4⟩ := ih e₁ x₁ (not_dest hd hb ht)
    exact ⟨o', .step _ _ _ _ _ _ _ _ _ hb (hc _ _ h1) (by rw [next_of_target hQ hd hb h2]; exact ht) hb' h3, h4⟩
  | land b blk ρ m x is ρ₀ ρ₁ y m₁ n w blk' o hb hs hu ht hb' _ ih =>
    intro e v hx
    obtain ⟨hr, e', hc, _⟩ := start_fwd H hP hd hb hx hs m e
    obtain ⟨_, _, h1⟩ := (exec_fwd H hu hr e' v).2.1 _ _ _ _ rfl
    obtain ⟨o', h3, h4⟩ := ih true y ⟨⟨b, blk, n, hb, ht⟩, rfl⟩
    exact ⟨o', .step _ _ _ _ _ _ _ _ _ hb (hc _ _ h1) (by rw [ht]; simp [next, hQ.exn]) hb' h3, h4⟩

/-- The converse. For a failure, any cause of the failing operation is a cause of the failure. -/
def BodyRelB (S : Nat → List V → M → URes V M → Prop) (R : UOut V M → Prop) : Outcome V (Flags V M) → Prop
  | .ret v s => (s.exn = false ∧ R (.ret v s.mem)) ∨ (s.exn = true ∧ v = none ∧ R (.unwound s.val s.mem))
  | .fail op l s => ∀ op' l' m', S op l s.mem (.fail op' l' m') → R (.fail op' l' m')

theorem BodyRelB.mono {R R' : UOut V M → Prop} (h : ∀ o, R o → R' o) {o : Outcome V (Flags V M)} (ho : BodyRelB S R o) : BodyRelB S R' o := by
  cases o with
  | ret v s =>
    rcases ho with ⟨h1, h2⟩ | ⟨h1, h2, h3⟩
    · exact .inl ⟨h1, h _ h2⟩
    · exact .inr ⟨h1, h2, h _ h3⟩
  | fail => exact fun op' l' m' q => h _ (ho op' l' m' q)

theorem run_bwd (H : StepOk C pad u calm S Q) (hQ : Ctl one Q) (hP : ProgOk C pad calm) (hd : DefOk C pad calm d) {b : Nat} {ρ : Env V}
    {s : Flags V M} {o : Outcome V (Flags V M)} (h : Run Q d.body b ρ s o) :
    ∀ x, Entered d.body b x s.val → BodyRelB S (URun S one u pad d.body b ρ s.mem x) o := by
  induction h with
  | fail b blk ρ s o hb hf =>
    intro x hx
    obtain ⟨is, ρ₀, s₀, hs, hr, hm, _, h2⟩ := start_bwd H hP hd hb hx ρ
    obtain ⟨op, l, s', rfl, h3⟩ := fail_bwd H (h2 _ hf) hr
    intro op' l' m' hS
    have := h3 _ _ _ hS
    rw [hm] at this
    exact .fail _ _ _ _ _ _ _ _ _ _ hb hs this
  | leave b blk ρ s ρ₁ s₁ o hb he hl =>
    intro x hx
    obtain ⟨is, ρ₀, s₀, hs, hr, hm, h1, _⟩ := start_bwd H hP hd hb hx ρ
    have hninv : ¬ ∃ n w, blk.term = .invoke n w := by
      rintro ⟨n, w, ht⟩
      rw [ht] at hl; cases hl
    rcases exec_bwd H (h1 _ _ he) hr with ⟨h3, _⟩ | ⟨h3, _⟩
    · rw [hm] at h3
      cases ht : blk.term with
      | ret v =>
        rw [ht] at hl
        simp only [leave, Option.some.injEq] at hl
        subst hl
        rw [hQ.setExn]
        exact .inl ⟨rfl, .ret _ _ _ _ _ _ _ _ _ _ hb hs h3 ht⟩
      | resume v =>
        rw [ht] at hl
        simp only [leave, Option.some.injEq] at hl
        subst hl
        rw [hQ.setExn, hQ.setExnVal]
        exact .inr ⟨rfl, rfl, .resume _ _ _ _ _ _ _ _ _ _ hb hs h3 ht⟩
      | br => rw [ht] at hl; cases hl
      | cbr => rw [ht] at hl; cases hl
      | switch => rw [ht] at hl; cases hl
      | invoke => rw [ht] at hl; cases hl
      | «unreachable» => rw [ht] at hl; cases hl
    · exact absurd h3 hninv
  | step b blk ρ s ρ₁ s₁ t blk' o hb he hn hb' _ ih =>
    intro x hx
    obtain ⟨is, ρ₀, s₀, hs, hr, hm, h1, _⟩ := start_bwd H hP hd hb hx ρ
    rcases exec_bwd H (h1 _ _ he) hr with ⟨h3, h4⟩ | ⟨⟨n, w, ht⟩, h4, h3⟩
    · rw [hm] at h3
      rw [next_of_target hQ hd hb h4] at hn
      exact (ih none (not_dest hd hb hn)).mono fun o ho => .goto _ _ _ _ _ _ _ _ _ _ _ _ hb hs h3 hn hb' ho
    · rw [hm] at h3
      rw [ht] at hn
      simp only [next, hQ.exn, h4, if_true, Option.some.injEq] at hn
      subst hn
      exact (ih (some s₁.val) ⟨⟨b, blk, n, hb, ht⟩, rfl⟩).mono fun o ho => .land _ _ _ _ _ _ _ _ _ _ _ _ _ _ hb hs h3 ht hb' ho

/-- The entry block is no unwind destination. -/
theorem entry_other (hd : DefOk C pad calm d) : ¬ Dest d.body 0 := fun ⟨b, blk, n, hb, ht⟩ =>
  hd.ssa.entry b ⟨blk, hb, by rw [ht]; simp [Term.succs]⟩

/-- A function without `resume` does not throw. -/
theorem run_calm (H : ∀ op, C.callee op = none → ∀ l m x m', ¬ S op l m (.thrown x m')) (hc : ∀ op g, C.callee op = some g → calm g → ∀ l m x m',
    ¬ S op l m (.thrown x m')) (hP : ProgOk C pad calm) (hd : DefOk C pad calm d)
    (hr : ∀ (b : Nat) blk v, d.body[b]? = some blk → blk.term ≠ .resume v) {b : Nat} {ρ : Env V} {m : M} {x : Option V} {o : UOut V M}
    (h : URun S one u pad d.body b ρ m x o) : ∀ v, Entered d.body b x v → ∀ y m', o ≠ .unwound y m' := by
  have key : ∀ {is : List (Instr V)} {ρ : Env V} {m : M} {inv : Prop} {r : BRes V M}, UBlock S u is ρ m r → Rest C pad calm inv is →
      ∀ last ρ₁ y m₁, r = .thrown last ρ₁ y m₁ → last = true ∧ inv := by
    intro is ρ m inv r h
    induction h with
    | nil => intro _ _ _ _ _ h; cases h
    | step i is ρ m v m' r hs hb ih =>
      intro hr last ρ₁ y m₁ he
      by_cases hl : is ≠ [] ∨ ¬ inv
      · exact ih (hr.tail hl) last ρ₁ y m₁ he
      · have hnil : is = [] := Classical.not_not.1 fun h => hl (.inl h)
        subst hnil; subst he; cases hb
    | throw i is ρ m x m' hs =>
      intro hr last ρ₁ y m₁ he
      cases he
      cases hcal : C.callee i.op with
      | none => exact absurd hs (H _ hcal _ _ _ _)
      | some g =>
        rcases hr.call [] i is g rfl hcal with h | ⟨rfl, h⟩
        · exact absurd hs (hc _ g hcal h _ _ _ _)
        · exact ⟨rfl, h⟩
    | fail => intro _ _ _ _ _ h; cases h
  induction h with
  | fail => intro _ _ _ _ h; cases h
  | ret => intro _ _ _ _ h; cases h
  | resume b blk ρ m x is ρ₀ ρ₁ m₁ v hb hs hu ht => exact absurd ht (hr b blk v hb)
  | out b blk ρ m x is ρ₀ last ρ₁ y m₁ hb hs hu hn =>
    intro v hx y' m' he
    have hrest : Rest C pad calm (∃ n w, blk.term = .invoke n w) is := by
      obtain ⟨pre, is', he', hr', ⟨rfl, rfl⟩ | ⟨rfl, i, rfl, hp, hcal⟩⟩ := start_landing hP hd hb hx
      · rw [he'] at hs
        simp only [start, Option.some.injEq, Prod.mk.injEq, List.nil_append] at hs
        obtain ⟨rfl, rfl⟩ := hs
        exact hr'
      · rw [he'] at hs
        simp only [start, List.cons_append, List.nil_append, hp, if_true, Option.some.injEq, Prod.mk.injEq] at hs
        obtain ⟨rfl, rfl⟩ := hs
        exact hr'
    exact hn (key hu hrest _ _ _ _ rfl)
  | goto b blk ρ m x is ρ₀ ρ₁ m₁ t blk' o hb hs hu ht hb' _ ih => intro v hx; exact ih one (not_dest hd hb ht)
  | land b blk ρ m x is ρ₀ ρ₁ y m₁ n w blk' o hb hs hu ht hb' _ ih => intro v hx; exact ih y ⟨⟨b, blk, n, hb, ht⟩, rfl⟩

/-! ### Programs -/

theorem ctl_calls (n : Nat) : Ctl one (calls C ok u (flags one pad leaf) n) :=
  ⟨calls_one n, calls_exn n, calls_setExn n, calls_setExnVal n⟩

theorem ucalls_leaf {throws : Nat → List V → M → V → M → Prop} {n op : Nat} (h : C.callee op = none) {l : List V} {m : M} {r : URes V M} :
    ucalls C ok one u pad leaf throws n op l m r ↔ pad op = none ∧ leafRes leaf throws op l m r := by
  cases n with
  | zero => simp [ucalls, h]
  | succ n => simp [ucalls, h]

theorem ucalls_call {throws : Nat → List V → M → V → M → Prop} {n op g : Nat} (h : C.callee op = some g) {l : List V} {m : M} {r : URes V M} :
    ucalls C ok one u pad leaf throws (n + 1) op l m r ↔ ∃ ρ d o, Enter C ok g ρ l ∧ C.funcs[g]? = some d ∧
        URun (ucalls C ok one u pad leaf throws n) one u pad d.body 0 ρ m none o ∧ r = callRes u o := by
  simp [ucalls, h]

theorem ucalls_call0 {throws : Nat → List V → M → V → M → Prop} {op g : Nat} (h : C.callee op = some g) {l : List V} {m : M} {r : URes V M} :
    ¬ ucalls C ok one u pad leaf throws 0 op l m r := by
  simp [ucalls, h]

/-- Facts about operations that are not calls, at every depth. -/
theorem stepOk (hP : ProgOk C pad calm) (n : Nat) :
    StepOk C pad u calm (ucalls C ok one u pad leaf quiet n) (calls C ok u (flags one pad leaf) n) := by
  have padQ : ∀ n op c, C.callee op = none → pad op = some c → ∀ l s r, (calls C ok u (flags one pad leaf) n).sem op l s r ↔
      r = some (s.val, { s with exn := if c then false else s.exn }) := by
    intro n op c hc hp l s r
    rw [calls_leaf hc]
    simp [flags, hp]
  have leafOk : ∀ n op, C.callee op = none → pad op = none → ∀ l m e x v s',
      (calls C ok u (flags one pad leaf) n).sem op l ⟨m, e, x⟩ (some (v, s')) ↔
        ∃ m', s' = ⟨m', e, x⟩ ∧ ucalls C ok one u pad leaf quiet n op l m (.ok v m') := by
    intro n op hc hp l m e x v s'
    rw [calls_leaf hc]
    simp only [ucalls_leaf hc, flags, hp, leafRes, true_and]
    constructor
    · rintro ⟨h1, h2, h3⟩
      refine ⟨s'.mem, ?_, h1⟩
      cases s'; simp_all
    · rintro ⟨m', rfl, h⟩; exact ⟨h, rfl, rfl⟩
  have leafThrow : ∀ n op, C.callee op = none → ∀ l m x m', ¬ ucalls C ok one u pad leaf quiet n op l m (.thrown x m') := by
    intro n op hc l m x m' h
    exact ((ucalls_leaf hc).1 h).2
  have leafFailF : ∀ n op, C.callee op = none → ∀ l m op' l' m', ucalls C ok one u pad leaf quiet n op l m (.fail op' l' m') →
      ∀ e x, (calls C ok u (flags one pad leaf) n).sem op l ⟨m, e, x⟩ none := by
    intro n op hc l m op' l' m' h e x
    obtain ⟨hp, _, _, _, h⟩ := (ucalls_leaf hc).1 h
    rw [calls_leaf hc]
    simpa [flags, hp] using h
  have leafFailB : ∀ n op, C.callee op = none → ∀ l s, (calls C ok u (flags one pad leaf) n).sem op l s none →
      ∃ op' l' m', ucalls C ok one u pad leaf quiet n op l s.mem (.fail op' l' m') := by
    intro n op hc l s h
    rw [calls_leaf hc] at h
    refine ⟨op, l, s.mem, (ucalls_leaf hc).2 ?_⟩
    cases hp : pad op with
    | none => simp only [flags, hp] at h; exact ⟨rfl, rfl, rfl, rfl, h⟩
    | some c => simp only [flags, hp] at h; cases h
  induction n with
  | zero =>
    refine ⟨padQ 0, leafOk 0, leafThrow 0, ?_, ?_, ?_, ?_, ?_, ?_⟩
    · intro op l m op' l' m' h
      cases hc : C.callee op with
      | none => exact leafFailF 0 op hc l m op' l' m' h
      | some g => exact absurd h (ucalls_call0 hc)
    · intro op l s h
      cases hc : C.callee op with
      | none => exact leafFailB 0 op hc l s h
      | some g => exact absurd h (calls_call0 hc)
    · intro op g hc l m v m' h; exact absurd h (ucalls_call0 hc)
    · intro op g hc l m v m' h; exact absurd h (ucalls_call0 hc)
    · intro op g hc l s v s' h; exact absurd h (calls_call0 hc)
    · intro op g hc _ l m v m' h; exact absurd h (ucalls_call0 hc)
  | succ n ih =>
    have fwd : ∀ op g, C.callee op = some g → ∀ l m r, ucalls C ok one u pad leaf quiet (n + 1) op l m r → ∀ e x, ∃ ρ d o o',
        Enter C ok g ρ l ∧ C.funcs[g]? = some d ∧ r = callRes u o ∧ Run (calls C ok u (flags one pad leaf) n) d.body 0 ρ ⟨m, e, x⟩ o' ∧
        BodyRel (ucalls C ok one u pad leaf quiet n) o o' := by
      intro op g hc l m r h e x
      obtain ⟨ρ, d, o, he, hd, hr, hv⟩ := (ucalls_call hc).1 h
      have hdo := hP.defs g d hd
      obtain ⟨o', h1, h2⟩ := run_fwd ih (ctl_calls n) hP hdo hr e x (entry_other hdo)
      exact ⟨ρ, d, o, o', he, hd, hv, h1, h2⟩
    have bwd : ∀ op g, C.callee op = some g → ∀ l s r, (calls C ok u (flags one pad leaf) (n + 1)).sem op l s r → ∃ ρ d o',
        Enter C ok g ρ l ∧ C.funcs[g]? = some d ∧ Run (calls C ok u (flags one pad leaf) n) d.body 0 ρ s o' ∧ r = result u o' ∧
        BodyRelB (ucalls C ok one u pad leaf quiet n) (URun (ucalls C ok one u pad leaf quiet n) one u pad d.body 0 ρ s.mem none) o' := by
      intro op g hc l s r h
      obtain ⟨ρ, o', he, ⟨d, hd, hr⟩, hv⟩ := (calls_call hc).1 h
      have hdo := hP.defs g d hd
      exact ⟨ρ, d, o', he, hd, hr, hv, run_bwd ih (ctl_calls n) hP hdo hr none (entry_other hdo)⟩
    refine ⟨padQ (n + 1), leafOk (n + 1), leafThrow (n + 1), ?_, ?_, ?_, ?_, ?_, ?_⟩
    · intro op l m op' l' m' h e x
      cases hc : C.callee op with
      | none => exact leafFailF (n + 1) op hc l m op' l' m' h e x
      | some g =>
        obtain ⟨ρ, d, o, o', he, hd, hv, hr, hb⟩ := fwd op g hc l m _ h e x
        cases o with
        | ret => cases hv
        | unwound => cases hv
        | fail op₂ l₂ m₂ =>
          obtain ⟨op₁, l₁, s₁, rfl, _⟩ := hb
          exact (calls_call hc).2 ⟨ρ, _, he, ⟨d, hd, hr⟩, rfl⟩
    · intro op l s h
      cases hc : C.callee op with
      | none => exact leafFailB (n + 1) op hc l s h
      | some g =>
        obtain ⟨ρ, d, o', he, hd, hr, hv, hb⟩ := bwd op g hc l s _ h
        obtain ⟨op₁, l₁, s₁, rfl⟩ := result_none.1 hv
        obtain ⟨op', l', m', hS⟩ := ih.failB op₁ l₁ s₁ (run_sem hr)
        exact ⟨op', l', m', (ucalls_call hc).2 ⟨ρ, d, _, he, hd, hb op' l' m' hS, rfl⟩⟩
    · intro op g hc l m v m' h e x
      obtain ⟨ρ, d, o, o', he, hd, hv, hr, hb⟩ := fwd op g hc l m _ h e x
      cases o with
      | ret w m₂ =>
        obtain ⟨x', rfl⟩ := hb
        cases hv
        exact ⟨x', (calls_call hc).2 ⟨ρ, _, he, ⟨d, hd, hr⟩, rfl⟩⟩
      | unwound => cases hv
      | fail => cases hv
    · intro op g hc l m y m' h e x
      obtain ⟨ρ, d, o, o', he, hd, hv, hr, hb⟩ := fwd op g hc l m _ h e x
      cases o with
      | ret => cases hv
      | unwound x' m₂ =>
        cases hv
        have hb' : o' = .ret none ⟨m', true, y⟩ := hb
        subst hb'
        exact (calls_call hc).2 ⟨ρ, _, he, ⟨d, hd, hr⟩, rfl⟩
      | fail => cases hv
    · intro op g hc l s v s' h
      obtain ⟨ρ, d, o', he, hd, hr, hv, hb⟩ := bwd op g hc l s _ h
      obtain ⟨w, rfl, h2⟩ := result_some hv
      replace h2 : v = w.getD u := h2
      rcases hb with ⟨h3, h4⟩ | ⟨h3, h4, h5⟩
      · exact .inl ⟨h3, (ucalls_call hc).2 ⟨ρ, d, _, he, hd, h4, by rw [h2]; rfl⟩⟩
      · subst h4
        exact .inr ⟨h3, h2, (ucalls_call hc).2 ⟨ρ, d, _, he, hd, h5, rfl⟩⟩
    · intro op g hc hg l m x m' h
      obtain ⟨ρ, d, o, he, hd, hr, hv⟩ := (ucalls_call hc).1 h
      have hdo := hP.defs g d hd
      cases o with
      | ret => cases hv
      | unwound y m₂ =>
        exact run_calm ih.leafThrow ih.calm hP hdo (hP.calm g d hd hg) hr one (entry_other hdo) _ _ rfl
      | fail => cases hv

theorem code_ok (hP : ProgOk C pad calm) : CodeOk C procCode := by
  intro M P g d hd σ m o
  have hok := hP.defs g d hd
  exact c26_normalised_executions P d.body hok.ssa hok.plain d.loops hok.loops σ m o

end

end Smack.Exn
