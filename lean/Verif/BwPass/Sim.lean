/-
Helper lemmas: whole executions.
-/
import Verif.BwPass.Lemmas

namespace Smack.BwPass

open Smack.Cfg Smack.Cfg.Spec Smack.Bitwise Smack.BwPass.Spec

variable {M : Type} {P : Params Val M} {tab : Table} {present : Lib → Bool} {fn : Fn Val}

def Seen (P : Params Val M) (tab : Table) (is : List (Instr Val)) (ρ : Env Val) (m : M) : Prop :=
  ∃ k args m₁, Differs tab k args ∧ ExecFail (watched P tab) is ρ m (.fail k args m₁)

theorem seen_here {i : Instr Val} {is : List (Instr Val)} {ρ : Env Val} {m : M} (h : Differs tab i.op (i.args.map (eval ρ))) :
    Seen P tab (i :: is) ρ m :=
  ⟨_, _, m, h, .here i is ρ m (.inl ⟨h, rfl⟩)⟩

theorem seen_there {i : Instr Val} {is : List (Instr Val)} {ρ : Env Val} {m m' : M} {v : Val}
    (hs : (watched P tab).sem i.op (i.args.map (eval ρ)) m (some (v, m'))) (h : Seen P tab is (setOpt ρ i.dst v) m') :
    Seen P tab (i :: is) ρ m := by
  obtain ⟨k, args, m₁, hd, hf⟩ := h
  exact ⟨k, args, m₁, hd, .there i is ρ m v m' _ hs hf⟩

theorem watched_of {k : Nat} {args : List Val} {m : M} {r : Option (Val × M)} (hd : ¬ Differs tab k args)
    (h : (llvm P tab).sem k args m r) : (watched P tab).sem k args m r := .inr ⟨hd, h⟩

theorem rewrite_dst {i i' : Instr Val} (h : rewrite tab present i = some i') : i'.dst = i.dst := by
  unfold rewrite at h
  have hlib : ∀ {f : Lib} {r : Option Nat} {as : List (Opd Val)}, libCall present f r i as = some i' → i'.dst = i.dst := by
    intro f r as h
    unfold libCall at h
    repeat' split at h
    all_goals first | (injection h with h; subst h; rfl) | cases h
  have hc : ∀ {w : Nat} (r : Rewritten w) (l : Opd Val), (constInstr i.op i.dst l r).dst = i.dst := by
    intro w r l; cases r <;> rfl
  repeat' split at h
  all_goals first | (exact hlib h) | (injection h with h; subst h; first | rfl | exact hc _ _) | cases h

theorem mapM_cons_some {α β : Type} {f : α → Option β} {a : α} {as : List α} {bs : List β} :
    (a :: as).mapM f = some bs ↔ ∃ b bs', f a = some b ∧ as.mapM f = some bs' ∧ bs = b :: bs' := by
  rw [List.mapM_cons]
  constructor
  · intro h
    simp only [Option.bind_eq_bind, Option.bind_eq_some_iff, Option.pure_def, Option.some.injEq] at h
    obtain ⟨b, h1, bs', h2, h3⟩ := h
    exact ⟨b, bs', h1, h2, h3.symm⟩
  · rintro ⟨b, bs', h1, h2, rfl⟩
    simp [h1, h2]

theorem mapM_nil_some {α β : Type} {f : α → Option β} {bs : List β} (h : ([] : List α).mapM f = some bs) : bs = [] := by
  simpa using h.symm

section

variable (hsh : Shape tab fn) {b : Nat} {blk : Block Val} (hb : fn[b]? = some blk)

include hsh hb

theorem exec_fwd {is is' : List (Instr Val)} (hm : ∀ i ∈ is, i ∈ blk.body) (h : is.mapM (rewrite tab present) = some is')
    {ρ ρ₁ : Env Val} {m m₁ : M} (he : Exec (llvm P tab) is ρ m ρ₁ m₁) :
    Seen P tab is ρ m ∨ (Exec (after P tab) is' ρ m ρ₁ m₁ ∧ Exec (watched P tab) is ρ m ρ₁ m₁) := by
  induction he generalizing is' with
  | nil ρ m => rw [mapM_nil_some h]; exact .inr ⟨.nil _ _, .nil _ _⟩
  | cons i is ρ m v m' ρ₂ m₂ hs _ ih =>
    obtain ⟨i', is'', h1, h2, rfl⟩ := mapM_cons_some.1 h
    by_cases hd : Differs tab i.op (i.args.map (eval ρ))
    · exact .inl (seen_here hd)
    · rcases ih (fun j hj => hm j (List.mem_cons_of_mem _ hj)) h2 with h3 | ⟨h3, h4⟩
      · exact .inl (seen_there (watched_of hd hs) h3)
      · refine .inr ⟨.cons i' _ ρ m v m' _ _ ((rewrite_same hsh hb (hm i List.mem_cons_self) h1 ρ hd m _).1 hs) ?_,
          .cons i _ ρ m v m' _ _ (watched_of hd hs) h4⟩
        rw [rewrite_dst h1]; exact h3

theorem exec_bwd {is is' : List (Instr Val)} (hm : ∀ i ∈ is, i ∈ blk.body) (h : is.mapM (rewrite tab present) = some is')
    {ρ ρ₁ : Env Val} {m m₁ : M} (he : Exec (after P tab) is' ρ m ρ₁ m₁) :
    Seen P tab is ρ m ∨ (Exec (llvm P tab) is ρ m ρ₁ m₁ ∧ Exec (watched P tab) is ρ m ρ₁ m₁) := by
  induction is generalizing is' ρ m with
  | nil => rw [mapM_nil_some h] at he; cases he; exact .inr ⟨.nil _ _, .nil _ _⟩
  | cons i is ih =>
    obtain ⟨i', is'', h1, h2, rfl⟩ := mapM_cons_some.1 h
    cases he with
    | cons _ _ _ _ v m' _ _ hs he =>
      by_cases hd : Differs tab i.op (i.args.map (eval ρ))
      · exact .inl (seen_here hd)
      · have hl := (rewrite_same hsh hb (hm i List.mem_cons_self) h1 ρ hd m _).2 hs
        rw [rewrite_dst h1] at he
        rcases ih (fun j hj => hm j (List.mem_cons_of_mem _ hj)) h2 he with h3 | ⟨h3, h4⟩
        · exact .inl (seen_there (watched_of hd hl) h3)
        · exact .inr ⟨.cons i _ ρ m v m' _ _ hl h3, .cons i _ ρ m v m' _ _ (watched_of hd hl) h4⟩

/-- An instruction that can fail is not replaced. -/
theorem fail_keep {i i' : Instr Val} (hi : i ∈ blk.body) (h : rewrite tab present i = some i') {ρ : Env Val} {m : M}
    (hs : (llvm P tab).sem i.op (i.args.map (eval ρ)) m none) : i' = keep i := by
  rcases rewrite_cases hsh hb hi h with ⟨h, _⟩ | ⟨s, w, a, lhs, ht, hw, ha, rfl⟩ | ⟨w, c, r, rhs, ht, hw, ha, hm, rfl⟩ |
    ⟨w, c, x, y, j, ht, hw, hr, hc, rfl, ho⟩ | ⟨w, x, y, j, ht, hr, ha, rfl⟩
  · exact h
  all_goals
    unfold llvm at hs
    simp only [ht] at hs
    exfalso
  · obtain ⟨_, _, _, _, _, h⟩ := hs; cases h
  · obtain ⟨_, _, _, h⟩ := hs; cases h
  · obtain ⟨_, _, _, h⟩ := hs; cases h
  · obtain ⟨_, _, _, h⟩ := hs; cases h

theorem fail_fwd {is is' : List (Instr Val)} (hm : ∀ i ∈ is, i ∈ blk.body) (h : is.mapM (rewrite tab present) = some is')
    {ρ : Env Val} {m : M} {out : Outcome Val M} (he : ExecFail (llvm P tab) is ρ m out) :
    Seen P tab is ρ m ∨ ExecFail (after P tab) is' ρ m (renamed out) := by
  induction he generalizing is' with
  | here i is ρ m hs =>
    obtain ⟨i', is'', h1, h2, rfl⟩ := mapM_cons_some.1 h
    by_cases hd : Differs tab i.op (i.args.map (eval ρ))
    · exact .inl (seen_here hd)
    · have hk := fail_keep hsh hb (hm i List.mem_cons_self) h1 hs
      subst hk
      exact .inr (.here (keep i) is'' ρ m ((after_keep i.op _ m _).2 hs))
  | there i is ρ m v m' o hs _ ih =>
    obtain ⟨i', is'', h1, h2, rfl⟩ := mapM_cons_some.1 h
    by_cases hd : Differs tab i.op (i.args.map (eval ρ))
    · exact .inl (seen_here hd)
    · rcases ih (fun j hj => hm j (List.mem_cons_of_mem _ hj)) h2 with h3 | h3
      · exact .inl (seen_there (watched_of hd hs) h3)
      · refine .inr (.there i' _ ρ m v m' _ ((rewrite_same hsh hb (hm i List.mem_cons_self) h1 ρ hd m _).1 hs) ?_)
        rw [rewrite_dst h1]; exact h3

theorem fail_bwd {is is' : List (Instr Val)} (hm : ∀ i ∈ is, i ∈ blk.body) (h : is.mapM (rewrite tab present) = some is')
    {ρ : Env Val} {m : M} {out' : Outcome Val M} (he : ExecFail (after P tab) is' ρ m out') :
    Seen P tab is ρ m ∨ ∃ out, out' = renamed out ∧ ExecFail (llvm P tab) is ρ m out := by
  induction is generalizing is' ρ m with
  | nil => rw [mapM_nil_some h] at he; cases he
  | cons i is ih =>
    obtain ⟨i', is'', h1, h2, rfl⟩ := mapM_cons_some.1 h
    by_cases hd : Differs tab i.op (i.args.map (eval ρ))
    · exact .inl (seen_here hd)
    · cases he with
      | here _ _ _ _ hs =>
        have hl := (rewrite_same hsh hb (hm i List.mem_cons_self) h1 ρ hd m _).2 hs
        have hk := fail_keep hsh hb (hm i List.mem_cons_self) h1 hl
        subst hk
        exact .inr ⟨.fail i.op (i.args.map (eval ρ)) m, rfl, .here i is ρ m hl⟩
      | there _ _ _ _ v m' _ hs he =>
        have hl := (rewrite_same hsh hb (hm i List.mem_cons_self) h1 ρ hd m _).2 hs
        rw [rewrite_dst h1] at he
        rcases ih (fun j hj => hm j (List.mem_cons_of_mem _ hj)) h2 he with h3 | ⟨out, h3, h4⟩
        · exact .inl (seen_there (watched_of hd hl) h3)
        · exact .inr ⟨out, h3, .there i is ρ m v m' _ hl h4⟩

end

theorem leave_llvm (ρ : Env Val) (m : M) (t : Term Val) : leave (llvm P tab) ρ m t = leave P ρ m t := by cases t <;> rfl
theorem leave_after (ρ : Env Val) (m : M) (t : Term Val) : leave (after P tab) ρ m t = leave P ρ m t := by cases t <;> rfl
theorem next_llvm (ρ : Env Val) (m : M) (t : Term Val) : next (llvm P tab) ρ m t = next P ρ m t := by cases t <;> rfl
theorem next_after (ρ : Env Val) (m : M) (t : Term Val) : next (after P tab) ρ m t = next P ρ m t := by cases t <;> rfl
theorem next_watched (ρ : Env Val) (m : M) (t : Term Val) : next (watched P tab) ρ m t = next P ρ m t := by cases t <;> rfl

theorem passBlock_some {b b' : Block Val} (h : passBlock tab present b = some b') :
    b'.phis = b.phis ∧ b'.term = b.term ∧ b.body.mapM (rewrite tab present) = some b'.body := by
  unfold passBlock at h
  simp only [Option.bind_eq_bind, Option.bind_eq_some_iff, Option.pure_def, Option.some.injEq] at h
  obtain ⟨is, h1, rfl⟩ := h
  exact ⟨rfl, rfl, h1⟩

theorem mapM_get {α β : Type} {f : α → Option β} {as : List α} {bs : List β} (h : as.mapM f = some bs) (n : Nat) :
    (∀ a, as[n]? = some a → ∃ b, bs[n]? = some b ∧ f a = some b) ∧ (∀ b, bs[n]? = some b → ∃ a, as[n]? = some a ∧ f a = some b) := by
  induction as generalizing bs n with
  | nil => rw [mapM_nil_some h]; simp
  | cons a as ih =>
    obtain ⟨b, bs', h1, h2, rfl⟩ := mapM_cons_some.1 h
    cases n with
    | zero => simp [h1]
    | succ n => simpa using ih h2 n

theorem mapM_isSome {α β : Type} {f : α → Option β} {as : List α} : (as.mapM f).isSome = true ↔ ∀ a ∈ as, (f a).isSome = true := by
  induction as with
  | nil => simp
  | cons a as ih =>
    rw [List.mapM_cons]
    cases h1 : f a with
    | none => simp [h1]
    | some b =>
      cases h2 : as.mapM f with
      | none =>
        rw [h2] at ih
        have : ¬ ∀ a ∈ as, (f a).isSome = true := fun h => by cases ih.2 h
        simp only [Option.bind_eq_bind, Option.bind_some, Option.bind_none, Option.isSome_none, Bool.false_eq_true, false_iff]
        exact fun h => this fun x hx => h x (List.mem_cons_of_mem _ hx)
      | some bs =>
        rw [h2] at ih
        simp only [Option.bind_eq_bind, Option.bind_some, Option.pure_def, Option.isSome_some, true_iff]
        intro x hx
        rcases List.mem_cons.1 hx with rfl | hx
        · rw [h1]; rfl
        · exact ih.1 rfl x hx

/-- `Reaches` from any block. -/
def ReachesFrom (P : Params Val M) (tab : Table) (fn : Fn Val) (b : Nat) (ρ : Env Val) (m : M) : Prop :=
  ∃ k args m₁, Differs tab k args ∧ Run (watched P tab) fn b ρ m (.fail k args m₁)

theorem run_fwd (hsh : Shape tab fn) {fn' : Fn Val} (hp : fn.mapM (passBlock tab present) = some fn') {b : Nat} {ρ : Env Val} {m : M}
    {out : Outcome Val M} (h : Run (llvm P tab) fn b ρ m out) :
    ReachesFrom P tab fn b ρ m ∨ Run (after P tab) fn' b ρ m (renamed out) := by
  induction h with
  | fail b blk ρ m out hb hf =>
    obtain ⟨blk', hb', hpb⟩ := (mapM_get hp b).1 blk hb
    obtain ⟨_, _, hbody⟩ := passBlock_some hpb
    rcases fail_fwd hsh hb (fun i h => h) hbody hf with ⟨k, args, m₁, hd, hf⟩ | hf
    · exact .inl ⟨k, args, m₁, hd, .fail b blk ρ m _ hb hf⟩
    · exact .inr (.fail b blk' ρ m _ hb' hf)
  | leave b blk ρ m ρ₁ m₁ out hb he hl =>
    obtain ⟨blk', hb', hpb⟩ := (mapM_get hp b).1 blk hb
    obtain ⟨_, hterm, hbody⟩ := passBlock_some hpb
    rcases exec_fwd hsh hb (fun i h => h) hbody he with ⟨k, args, m₁, hd, hf⟩ | ⟨he, _⟩
    · exact .inl ⟨k, args, m₁, hd, .fail b blk ρ m _ hb hf⟩
    · refine .inr (.leave b blk' ρ m ρ₁ m₁ _ hb' he ?_)
      rw [hterm, leave_after]
      rw [leave_llvm] at hl
      cases ht : blk.term <;> rw [ht] at hl <;> simp only [leave, Option.some.injEq, reduceCtorEq] at hl ⊢ <;> subst hl <;> rfl
  | step b blk ρ m ρ₁ m₁ t blk₂ out hb he hn ht _ ih =>
    obtain ⟨blk', hb', hpb⟩ := (mapM_get hp b).1 blk hb
    obtain ⟨_, hterm, hbody⟩ := passBlock_some hpb
    obtain ⟨blk₂', hb₂', hpb₂⟩ := (mapM_get hp t).1 blk₂ ht
    rcases exec_fwd hsh hb (fun i h => h) hbody he with ⟨k, args, m₁, hd, hf⟩ | ⟨he, hw⟩
    · exact .inl ⟨k, args, m₁, hd, .fail b blk ρ m _ hb hf⟩
    · rw [next_llvm] at hn
      rcases ih with ⟨k, args, m₂, hd, hr⟩ | hr
      · exact .inl ⟨k, args, m₂, hd, .step b blk ρ m ρ₁ m₁ t blk₂ _ hb hw (by rw [next_watched]; exact hn) ht hr⟩
      · refine .inr (.step b blk' ρ m ρ₁ m₁ t blk₂' _ hb' he (by rw [hterm, next_after]; exact hn) hb₂' ?_)
        rw [(passBlock_some hpb₂).1]; exact hr

theorem run_bwd (hsh : Shape tab fn) {fn' : Fn Val} (hp : fn.mapM (passBlock tab present) = some fn') {b : Nat} {ρ : Env Val} {m : M}
    {out' : Outcome Val M} (h : Run (after P tab) fn' b ρ m out') :
    ReachesFrom P tab fn b ρ m ∨ ∃ out, out' = renamed out ∧ Run (llvm P tab) fn b ρ m out := by
  induction h with
  | fail b blk' ρ m out hb' hf =>
    obtain ⟨blk, hb, hpb⟩ := (mapM_get hp b).2 blk' hb'
    obtain ⟨_, _, hbody⟩ := passBlock_some hpb
    rcases fail_bwd hsh hb (fun i h => h) hbody hf with ⟨k, args, m₁, hd, hf⟩ | ⟨out, ho, hf⟩
    · exact .inl ⟨k, args, m₁, hd, .fail b blk ρ m _ hb hf⟩
    · exact .inr ⟨out, ho, .fail b blk ρ m _ hb hf⟩
  | leave b blk' ρ m ρ₁ m₁ out hb' he hl =>
    obtain ⟨blk, hb, hpb⟩ := (mapM_get hp b).2 blk' hb'
    obtain ⟨_, hterm, hbody⟩ := passBlock_some hpb
    rcases exec_bwd hsh hb (fun i h => h) hbody he with ⟨k, args, m₁, hd, hf⟩ | ⟨he, _⟩
    · exact .inl ⟨k, args, m₁, hd, .fail b blk ρ m _ hb hf⟩
    · refine .inr ⟨out, ?_, .leave b blk ρ m ρ₁ m₁ _ hb he (by rw [leave_llvm, ← hterm, ← leave_after (P := P) (tab := tab)]; exact hl)⟩
      rw [leave_after] at hl
      cases ht : blk'.term <;> rw [ht] at hl <;> simp only [leave, Option.some.injEq, reduceCtorEq] at hl <;> subst hl <;> rfl
  | step b blk' ρ m ρ₁ m₁ t blk₂' out hb' he hn ht' _ ih =>
    obtain ⟨blk, hb, hpb⟩ := (mapM_get hp b).2 blk' hb'
    obtain ⟨_, hterm, hbody⟩ := passBlock_some hpb
    obtain ⟨blk₂, ht, hpb₂⟩ := (mapM_get hp t).2 blk₂' ht'
    rw [(passBlock_some hpb₂).1] at ih
    rcases exec_bwd hsh hb (fun i h => h) hbody he with ⟨k, args, m₁, hd, hf⟩ | ⟨he, hw⟩
    · exact .inl ⟨k, args, m₁, hd, .fail b blk ρ m _ hb hf⟩
    · rw [next_after, hterm] at hn
      rcases ih with ⟨k, args, m₂, hd, hr⟩ | ⟨out, ho, hr⟩
      · exact .inl ⟨k, args, m₂, hd, .step b blk ρ m ρ₁ m₁ t blk₂ _ hb hw (by rw [next_watched]; exact hn) ht hr⟩
      · exact .inr ⟨out, ho, .step b blk ρ m ρ₁ m₁ t blk₂ _ hb he (by rw [next_llvm]; exact hn) ht hr⟩

end Smack.BwPass
