/-
Lemmas about executions of instrumented blocks.
-/
import Verif.MemSafe.Spec

namespace Smack.MemSafe

open Smack.Cfg Smack.Cfg.Spec Smack.MemSafe.Spec

variable {M : Type} {O : Ops} {S : Safety M}

def Fails (P : Params Int M) (is : List (Instr Int)) (ρ : Env Int) (m : M) : Prop := ∃ o, ExecFail P is ρ m o

theorem exec_nil {P : Params Int M} {ρ ρ₂ : Env Int} {m m₂ : M} : Exec P [] ρ m ρ₂ m₂ ↔ ρ₂ = ρ ∧ m₂ = m := by
  constructor
  · intro h; cases h; exact ⟨rfl, rfl⟩
  · rintro ⟨rfl, rfl⟩; exact .nil _ _

theorem exec_cons {P : Params Int M} {i : Instr Int} {is : List (Instr Int)} {ρ ρ₂ : Env Int} {m m₂ : M} :
    Exec P (i :: is) ρ m ρ₂ m₂ ↔
      ∃ v m', P.sem i.op (i.args.map (eval ρ)) m (some (v, m')) ∧ Exec P is (setOpt ρ i.dst v) m' ρ₂ m₂ := by
  constructor
  · intro h; cases h with | cons _ _ _ _ v m' _ _ h1 h2 => exact ⟨v, m', h1, h2⟩
  · rintro ⟨v, m', h1, h2⟩; exact .cons _ _ _ _ v m' _ _ h1 h2

theorem fails_nil {P : Params Int M} {ρ : Env Int} {m : M} : ¬ Fails P [] ρ m := by
  rintro ⟨o, h⟩; cases h

theorem fails_cons {P : Params Int M} {i : Instr Int} {is : List (Instr Int)} {ρ : Env Int} {m : M} :
    Fails P (i :: is) ρ m ↔ P.sem i.op (i.args.map (eval ρ)) m none ∨
      ∃ v m', P.sem i.op (i.args.map (eval ρ)) m (some (v, m')) ∧ Fails P is (setOpt ρ i.dst v) m' := by
  constructor
  · rintro ⟨o, h⟩
    cases h with
    | here _ _ _ _ h1 => exact .inl h1
    | there _ _ _ _ v m' _ h1 h2 => exact .inr ⟨v, m', h1, o, h2⟩
  · rintro (h | ⟨v, m', h1, o, h2⟩)
    · exact ⟨_, .here _ _ _ _ h⟩
    · exact ⟨o, .there _ _ _ _ v m' _ h1 h2⟩

/-- Executions depend only on the meaning of the operations that occur. -/
theorem exec_congr {P Q : Params Int M} (is : List (Instr Int)) (h : ∀ i ∈ is, P.sem i.op = Q.sem i.op) :
    ∀ ρ m ρ₂ m₂, Exec P is ρ m ρ₂ m₂ ↔ Exec Q is ρ m ρ₂ m₂ := by
  induction is with
  | nil => intro ρ m ρ₂ m₂; rw [exec_nil, exec_nil]
  | cons i is ih =>
    intro ρ m ρ₂ m₂
    rw [exec_cons, exec_cons, h i (List.mem_cons_self ..)]
    have ih := ih fun j hj => h j (List.mem_cons_of_mem _ hj)
    constructor
    · rintro ⟨v, m', h1, h2⟩; exact ⟨v, m', h1, (ih ..).1 h2⟩
    · rintro ⟨v, m', h1, h2⟩; exact ⟨v, m', h1, (ih ..).2 h2⟩

theorem fails_congr {P Q : Params Int M} (is : List (Instr Int)) (h : ∀ i ∈ is, P.sem i.op = Q.sem i.op) :
    ∀ ρ m, Fails P is ρ m ↔ Fails Q is ρ m := by
  induction is with
  | nil => intro ρ m; exact iff_of_false fails_nil fails_nil
  | cons i is ih =>
    intro ρ m
    rw [fails_cons, fails_cons, h i (List.mem_cons_self ..)]
    have ih := ih fun j hj => h j (List.mem_cons_of_mem _ hj)
    constructor
    · rintro (h1 | ⟨v, m', h1, h2⟩)
      · exact .inl h1
      · exact .inr ⟨v, m', h1, (ih ..).1 h2⟩
    · rintro (h1 | ⟨v, m', h1, h2⟩)
      · exact .inl h1
      · exact .inr ⟨v, m', h1, (ih ..).2 h2⟩

theorem exec_append {P : Params Int M} (is js : List (Instr Int)) : ∀ ρ m ρ₂ m₂,
    Exec P (is ++ js) ρ m ρ₂ m₂ ↔ ∃ ρ₁ m₁, Exec P is ρ m ρ₁ m₁ ∧ Exec P js ρ₁ m₁ ρ₂ m₂ := by
  induction is with
  | nil =>
    intro ρ m ρ₂ m₂
    constructor
    · intro h; exact ⟨ρ, m, .nil _ _, h⟩
    · rintro ⟨ρ₁, m₁, h1, h2⟩
      obtain ⟨rfl, rfl⟩ := exec_nil.1 h1
      exact h2
  | cons i is ih =>
    intro ρ m ρ₂ m₂
    rw [List.cons_append, exec_cons]
    constructor
    · rintro ⟨v, m', h1, h2⟩
      obtain ⟨ρ₁, m₁, h3, h4⟩ := (ih ..).1 h2
      exact ⟨ρ₁, m₁, exec_cons.2 ⟨v, m', h1, h3⟩, h4⟩
    · rintro ⟨ρ₁, m₁, h1, h2⟩
      obtain ⟨v, m', h3, h4⟩ := exec_cons.1 h1
      exact ⟨v, m', h3, (ih ..).2 ⟨ρ₁, m₁, h4, h2⟩⟩

theorem fails_append {P : Params Int M} (is js : List (Instr Int)) : ∀ ρ m,
    Fails P (is ++ js) ρ m ↔ Fails P is ρ m ∨ ∃ ρ₁ m₁, Exec P is ρ m ρ₁ m₁ ∧ Fails P js ρ₁ m₁ := by
  induction is with
  | nil =>
    intro ρ m
    constructor
    · intro h; exact .inr ⟨ρ, m, .nil _ _, h⟩
    · rintro (h | ⟨ρ₁, m₁, h1, h2⟩)
      · exact absurd h fails_nil
      · obtain ⟨rfl, rfl⟩ := exec_nil.1 h1
        exact h2
  | cons i is ih =>
    intro ρ m
    rw [List.cons_append, fails_cons, fails_cons]
    constructor
    · rintro (h | ⟨v, m', h1, h2⟩)
      · exact .inl (.inl h)
      · rcases (ih ..).1 h2 with h3 | ⟨ρ₁, m₁, h3, h4⟩
        · exact .inl (.inr ⟨v, m', h1, h3⟩)
        · exact .inr ⟨ρ₁, m₁, exec_cons.2 ⟨v, m', h1, h3⟩, h4⟩
    · rintro ((h | ⟨v, m', h1, h2⟩) | ⟨ρ₁, m₁, h1, h2⟩)
      · exact .inl h
      · exact .inr ⟨v, m', h1, (ih ..).2 (.inl h2)⟩
      · obtain ⟨v, m', h3, h4⟩ := exec_cons.1 h1
        exact .inr ⟨v, m', h3, (ih ..).2 (.inr ⟨ρ₁, m₁, h4, h2⟩)⟩

/-! ### The inserted calls -/

theorem sem_check (sem : Sem M) (p n : Int) (m : M) (r : Option (Int × M)) :
    withChecks O S sem O.check [p, n] m r ↔ (S.ok m p n ∧ r = some (0, m)) ∨ (¬ S.ok m p n ∧ r = none) := by
  unfold withChecks
  rw [if_pos rfl]
  constructor
  · rintro ⟨p', n', h, h2⟩
    simp only [List.cons.injEq, and_true] at h
    obtain ⟨rfl, rfl⟩ := h
    exact h2
  · intro h; exact ⟨p, n, rfl, h⟩

theorem sem_leak (hO : O.leak ≠ O.check) (sem : Sem M) (args : List Int) (m : M) (r : Option (Int × M)) :
    withChecks O S sem O.leak args m r ↔ (S.noLeak m ∧ r = some (0, m)) ∨ (¬ S.noLeak m ∧ r = none) := by
  unfold withChecks
  rw [if_neg hO, if_pos rfl]

theorem sem_other (sem : Sem M) {op : Nat} (h1 : op ≠ O.check) (h2 : op ≠ O.leak) : withChecks O S sem op = sem op := by
  funext args m r
  unfold withChecks
  rw [if_neg h1, if_neg h2]

theorem exec_checks {P : Params Int M} {sem : Sem M} (rest : List (Instr Int)) (ρ : Env Int) (m : M) (ρ₂ : Env Int) (m₂ : M)
    (cs : List (Opd Int × Opd Int)) :
    Exec { P with sem := withChecks O S sem } (cs.map (checkInstr O) ++ rest) ρ m ρ₂ m₂ ↔
      (∀ a ∈ cs, S.ok m (eval ρ a.1) (eval ρ a.2)) ∧ Exec { P with sem := withChecks O S sem } rest ρ m ρ₂ m₂ := by
  induction cs with
  | nil => simp
  | cons a cs ih =>
    rw [List.map_cons, List.cons_append, exec_cons]
    constructor
    · rintro ⟨v, m', h1, h2⟩
      rcases (sem_check sem _ _ m _).1 h1 with ⟨h3, h4⟩ | ⟨_, h4⟩
      · cases h4
        obtain ⟨h5, h6⟩ := ih.1 h2
        refine ⟨?_, h6⟩
        intro b hb
        rcases List.mem_cons.1 hb with rfl | hb
        · exact h3
        · exact h5 b hb
      · cases h4
    · rintro ⟨h1, h2⟩
      exact ⟨0, m, (sem_check sem _ _ m _).2 (.inl ⟨h1 a (List.mem_cons_self ..), rfl⟩),
        ih.2 ⟨fun b hb => h1 b (List.mem_cons_of_mem _ hb), h2⟩⟩

theorem fails_checks {P : Params Int M} {sem : Sem M} (rest : List (Instr Int)) (ρ : Env Int) (m : M)
    (cs : List (Opd Int × Opd Int)) :
    Fails { P with sem := withChecks O S sem } (cs.map (checkInstr O) ++ rest) ρ m ↔
      (∃ a ∈ cs, ¬ S.ok m (eval ρ a.1) (eval ρ a.2)) ∨
      ((∀ a ∈ cs, S.ok m (eval ρ a.1) (eval ρ a.2)) ∧ Fails { P with sem := withChecks O S sem } rest ρ m) := by
  induction cs with
  | nil => simp
  | cons a cs ih =>
    rw [List.map_cons, List.cons_append, fails_cons]
    constructor
    · rintro (h1 | ⟨v, m', h1, h2⟩)
      · rcases (sem_check sem _ _ m _).1 h1 with ⟨_, h4⟩ | ⟨h3, _⟩
        · cases h4
        · exact .inl ⟨a, List.mem_cons_self .., h3⟩
      · rcases (sem_check sem _ _ m _).1 h1 with ⟨h3, h4⟩ | ⟨_, h4⟩
        · cases h4
          rcases ih.1 h2 with ⟨b, hb, h5⟩ | ⟨h5, h6⟩
          · exact .inl ⟨b, List.mem_cons_of_mem _ hb, h5⟩
          · refine .inr ⟨?_, h6⟩
            intro b hb
            rcases List.mem_cons.1 hb with rfl | hb
            · exact h3
            · exact h5 b hb
        · cases h4
    · intro h
      by_cases ha : S.ok m (eval ρ a.1) (eval ρ a.2)
      · refine .inr ⟨0, m, (sem_check sem _ _ m _).2 (.inl ⟨ha, rfl⟩), ih.2 ?_⟩
        rcases h with ⟨b, hb, h5⟩ | ⟨h5, h6⟩
        · rcases List.mem_cons.1 hb with rfl | hb
          · exact absurd ha h5
          · exact .inl ⟨b, hb, h5⟩
        · exact .inr ⟨fun b hb => h5 b (List.mem_cons_of_mem _ hb), h6⟩
      · exact .inl ((sem_check sem _ _ m _).2 (.inr ⟨ha, rfl⟩))

/-! ### Instructions -/

/-- The checks test exactly the ranges the instruction accesses. -/
theorem footprint_checks {i : Instr Int} (hw : WellFormed O i) (ha : ∀ n, O.kind i.op ≠ .atomic n) (ρ : Env Int) :
    footprint (O.kind i.op) (i.args.map (eval ρ)) = (checksOf (O.kind i.op) i.args).map fun a => (eval ρ a.1, eval ρ a.2) := by
  obtain ⟨_, _, h⟩ := hw
  revert h ha
  generalize O.kind i.op = k
  generalize i.args = args
  intro ha h
  cases k with
  | load n =>
    match args, h with
    | [p], _ => rfl
  | store n =>
    match args, h with
    | [v, p], _ => rfl
  | memset =>
    match args, h with
    | [d, v, l, x], _ => rfl
  | memTransfer =>
    match args, h with
    | [d, s, l, x], _ => rfl
  | atomic n => exact absurd rfl (ha n)
  | other => simp [footprint, checksOf]

theorem bad_iff {i : Instr Int} (hw : WellFormed O i) (ha : ∀ n, O.kind i.op ≠ .atomic n) (ρ : Env Int) (m : M) :
    Bad O S i.op (i.args.map (eval ρ)) m ↔ ∃ a ∈ checksOf (O.kind i.op) i.args, ¬ S.ok m (eval ρ a.1) (eval ρ a.2) := by
  unfold Bad
  rw [footprint_checks hw ha]
  constructor
  · rintro ⟨a, h1, h2⟩
    obtain ⟨b, h3, rfl⟩ := List.mem_map.1 h1
    exact ⟨b, h3, h2⟩
  · rintro ⟨b, h3, h2⟩
    exact ⟨_, List.mem_map.2 ⟨b, h3, rfl⟩, h2⟩

theorem exec_visit {P : Params Int M} {sem : Sem M} (is : List (Instr Int)) (hw : ∀ i ∈ is, WellFormed O i)
    (ha : ∀ i ∈ is, ∀ n, O.kind i.op ≠ .atomic n) : ∀ ρ m ρ₂ m₂,
    Exec { P with sem := withChecks O S sem } (is.flatMap (visitInstr O)) ρ m ρ₂ m₂ ↔
      Exec { P with sem := guarded O S sem } is ρ m ρ₂ m₂ := by
  induction is with
  | nil => intro ρ m ρ₂ m₂; rw [List.flatMap_nil, exec_nil, exec_nil]
  | cons i is ih =>
    intro ρ m ρ₂ m₂
    have hwi := hw i (List.mem_cons_self ..)
    have hai := ha i (List.mem_cons_self ..)
    have ih := ih (fun j hj => hw j (List.mem_cons_of_mem _ hj)) (fun j hj => ha j (List.mem_cons_of_mem _ hj))
    rw [List.flatMap_cons, visitInstr, List.append_assoc, exec_checks, List.singleton_append, exec_cons, exec_cons]
    have hb := bad_iff (S := S) hwi hai ρ m
    show _ ∧ (∃ v m', withChecks O S sem i.op _ m _ ∧ _) ↔ ∃ v m', guarded O S sem i.op _ m _ ∧ _
    rw [sem_other sem hwi.1 hwi.2.1]
    constructor
    · rintro ⟨h1, v, m', h2, h3⟩
      refine ⟨v, m', .inr ⟨?_, h2⟩, (ih ..).1 h3⟩
      rw [hb]
      rintro ⟨a, h4, h5⟩
      exact h5 (h1 a h4)
    · rintro ⟨v, m', h1 | ⟨h1, h2⟩, h3⟩
      · cases h1.2
      · refine ⟨?_, v, m', h2, (ih ..).2 h3⟩
        intro a h4
        exact Classical.byContradiction fun h5 => h1 (hb.2 ⟨a, h4, h5⟩)

theorem fails_visit {P : Params Int M} {sem : Sem M} (is : List (Instr Int)) (hw : ∀ i ∈ is, WellFormed O i)
    (ha : ∀ i ∈ is, ∀ n, O.kind i.op ≠ .atomic n) : ∀ ρ m,
    Fails { P with sem := withChecks O S sem } (is.flatMap (visitInstr O)) ρ m ↔
      Fails { P with sem := guarded O S sem } is ρ m := by
  induction is with
  | nil => intro ρ m; exact iff_of_false fails_nil fails_nil
  | cons i is ih =>
    intro ρ m
    have hwi := hw i (List.mem_cons_self ..)
    have hai := ha i (List.mem_cons_self ..)
    have ih := ih (fun j hj => hw j (List.mem_cons_of_mem _ hj)) (fun j hj => ha j (List.mem_cons_of_mem _ hj))
    rw [List.flatMap_cons, visitInstr, List.append_assoc, fails_checks, List.singleton_append, fails_cons, fails_cons]
    have hb := bad_iff (S := S) hwi hai ρ m
    show _ ∨ (_ ∧ (withChecks O S sem i.op _ m none ∨ ∃ v m', withChecks O S sem i.op _ m _ ∧ _)) ↔
      guarded O S sem i.op _ m none ∨ ∃ v m', guarded O S sem i.op _ m _ ∧ _
    rw [sem_other sem hwi.1 hwi.2.1, ← hb]
    have hall : (∀ a ∈ checksOf (O.kind i.op) i.args, S.ok m (eval ρ a.1) (eval ρ a.2)) ↔
        ¬ Bad O S i.op (i.args.map (eval ρ)) m := by
      rw [hb]
      constructor
      · rintro h1 ⟨a, h4, h5⟩; exact h5 (h1 a h4)
      · intro h1 a h4; exact Classical.byContradiction fun h5 => h1 ⟨a, h4, h5⟩
    rw [hall]
    constructor
    · rintro (h1 | ⟨h1, h2 | ⟨v, m', h2, h3⟩⟩)
      · exact .inl (.inl ⟨h1, rfl⟩)
      · exact .inl (.inr ⟨h1, h2⟩)
      · exact .inr ⟨v, m', .inr ⟨h1, h2⟩, (ih ..).1 h3⟩
    · rintro ((h1 | ⟨h1, h2⟩) | ⟨v, m', h1 | ⟨h1, h2⟩, h3⟩)
      · exact .inl h1.1
      · exact .inr ⟨h1, .inl h2⟩
      · cases h1.2
      · exact .inr ⟨h1, .inr ⟨v, m', h2, (ih ..).2 h3⟩⟩

theorem exec_leak {P : Params Int M} {sem : Sem M} (hO : O.leak ≠ O.check) (ρ : Env Int) (m : M) (ρ₂ : Env Int) (m₂ : M) :
    Exec { P with sem := withChecks O S sem } [leakInstr O] ρ m ρ₂ m₂ ↔ S.noLeak m ∧ ρ₂ = ρ ∧ m₂ = m := by
  rw [exec_cons]
  constructor
  · rintro ⟨v, m', h1, h2⟩
    obtain ⟨rfl, rfl⟩ := exec_nil.1 h2
    rcases (sem_leak hO sem _ m _).1 h1 with ⟨h3, h4⟩ | ⟨_, h4⟩
    · cases h4; exact ⟨h3, rfl, rfl⟩
    · cases h4
  · rintro ⟨h1, rfl, rfl⟩
    exact ⟨0, m₂, (sem_leak hO sem _ _ _).2 (.inl ⟨h1, rfl⟩), .nil _ _⟩

theorem fails_leak {P : Params Int M} {sem : Sem M} (hO : O.leak ≠ O.check) (ρ : Env Int) (m : M) :
    Fails { P with sem := withChecks O S sem } [leakInstr O] ρ m ↔ ¬ S.noLeak m := by
  rw [fails_cons]
  constructor
  · rintro (h1 | ⟨v, m', _, h2⟩)
    · rcases (sem_leak hO sem _ m _).1 h1 with ⟨_, h4⟩ | ⟨h3, _⟩
      · cases h4
      · exact h3
    · exact absurd h2 fails_nil
  · intro h
    exact .inl ((sem_leak hO sem _ m _).2 (.inr ⟨h, rfl⟩))

/-! ### Functions -/

theorem get_visit {entry : Bool} {fn : Fn Int} {b : Nat} {blk' : Block Int} :
    (fn.map (visitBlock O entry))[b]? = some blk' ↔ ∃ blk, fn[b]? = some blk ∧ blk' = visitBlock O entry blk := by
  rw [List.getElem?_map]
  cases fn[b]? with
  | none => simp
  | some blk => simp [eq_comm]

variable {P : Params Int M} {sem : Sem M}

theorem exec_block (hO : O.leak ≠ O.check) {entry : Bool} {blk : Block Int} (hw : ∀ i ∈ blk.body, WellFormed O i)
    (ha : ∀ i ∈ blk.body, ∀ n, O.kind i.op ≠ .atomic n) (ρ : Env Int) (m : M) (ρ₁ : Env Int) (m₁ : M) :
    Exec { P with sem := withChecks O S sem } (visitBlock O entry blk).body ρ m ρ₁ m₁ ↔
      Exec { P with sem := guarded O S sem } blk.body ρ m ρ₁ m₁ ∧ (entry = true → isRet blk.term = true → S.noLeak m₁) := by
  unfold visitBlock
  rw [exec_append]
  by_cases hc : (entry && isRet blk.term) = true
  · simp only [hc, if_true]
    have hc' : entry = true ∧ isRet blk.term = true := by simpa using hc
    constructor
    · rintro ⟨ρ', m', h1, h2⟩
      obtain ⟨h3, rfl, rfl⟩ := (exec_leak hO ..).1 h2
      exact ⟨(exec_visit _ hw ha ..).1 h1, fun _ _ => h3⟩
    · rintro ⟨h1, h2⟩
      exact ⟨ρ₁, m₁, (exec_visit _ hw ha ..).2 h1, (exec_leak hO ..).2 ⟨h2 hc'.1 hc'.2, rfl, rfl⟩⟩
  · have hc0 : (entry && isRet blk.term) = false := by simpa using hc
    simp only [hc0, Bool.false_eq_true, if_false]
    constructor
    · rintro ⟨ρ', m', h1, h2⟩
      obtain ⟨rfl, rfl⟩ := exec_nil.1 h2
      exact ⟨(exec_visit _ hw ha ..).1 h1, fun h3 h4 => absurd (by simp [h3, h4]) hc⟩
    · rintro ⟨h1, _⟩
      exact ⟨ρ₁, m₁, (exec_visit _ hw ha ..).2 h1, .nil _ _⟩

theorem fails_block (hO : O.leak ≠ O.check) {entry : Bool} {blk : Block Int} (hw : ∀ i ∈ blk.body, WellFormed O i)
    (ha : ∀ i ∈ blk.body, ∀ n, O.kind i.op ≠ .atomic n) (ρ : Env Int) (m : M) :
    Fails { P with sem := withChecks O S sem } (visitBlock O entry blk).body ρ m ↔
      Fails { P with sem := guarded O S sem } blk.body ρ m ∨
      (entry = true ∧ isRet blk.term = true ∧ ∃ ρ₁ m₁, Exec { P with sem := guarded O S sem } blk.body ρ m ρ₁ m₁ ∧ ¬ S.noLeak m₁) := by
  unfold visitBlock
  rw [fails_append, fails_visit _ hw ha]
  by_cases hc : (entry && isRet blk.term) = true
  · simp only [hc, if_true]
    have hc' : entry = true ∧ isRet blk.term = true := by simpa using hc
    constructor
    · rintro (h | ⟨ρ', m', h1, h2⟩)
      · exact .inl h
      · exact .inr ⟨hc'.1, hc'.2, ρ', m', (exec_visit _ hw ha ..).1 h1, (fails_leak hO ..).1 h2⟩
    · rintro (h | ⟨_, _, ρ', m', h1, h2⟩)
      · exact .inl h
      · exact .inr ⟨ρ', m', (exec_visit _ hw ha ..).2 h1, (fails_leak hO ..).2 h2⟩
  · have hc0 : (entry && isRet blk.term) = false := by simpa using hc
    simp only [hc0, Bool.false_eq_true, if_false]
    constructor
    · rintro (h | ⟨_, _, _, h2⟩)
      · exact .inl h
      · exact absurd h2 fails_nil
    · rintro (h | ⟨h3, h4, _⟩)
      · exact .inl h
      · exact absurd (by simp [h3, h4]) hc

theorem run_visit (hO : O.leak ≠ O.check) {entry : Bool} {fn : Fn Int} (hw : WfFn O fn) (ha : NoAtomics O fn) {b : Nat}
    {ρ : Env Int} {m : M} {o : Outcome Int M}
    (h : Run { P with sem := withChecks O S sem } (fn.map (visitBlock O entry)) b ρ m o) :
    GRun { P with sem := guarded O S sem } S entry fn b ρ m (Res.of o) := by
  induction h with
  | fail b blk' ρ m o hb hf =>
    obtain ⟨blk, hb', rfl⟩ := get_visit.1 hb
    clear hb
    have hb := hb'
    have hm := List.mem_of_getElem? hb
    have ho : Res.of o = .fail := by
      have : ∀ is ρ m (o : Outcome Int M), ExecFail { P with sem := withChecks O S sem } is ρ m o → Res.of o = .fail := by
        intro is ρ m o h
        induction h with
        | here => rfl
        | there => assumption
      exact this _ _ _ _ hf
    rw [ho]
    rcases (fails_block hO (hw blk hm) (ha blk hm) ρ m).1 ⟨o, hf⟩ with ⟨o', h⟩ | ⟨h1, h2, ρ₁, m₁, h3, h4⟩
    · exact .fail b blk ρ m o' hb h
    · exact .leak b blk ρ m ρ₁ m₁ hb h3 h2 h1 h4
  | leave b blk' ρ m ρ₁ m₁ o hb he hl =>
    obtain ⟨blk, hb', rfl⟩ := get_visit.1 hb
    clear hb
    have hb := hb'
    have hm := List.mem_of_getElem? hb
    obtain ⟨h1, h2⟩ := (exec_block hO (hw blk hm) (ha blk hm) ..).1 he
    exact .leave b blk ρ m ρ₁ m₁ o hb h1 hl h2
  | step b blk' ρ m ρ₁ m₁ t blk2 o hb he hn ht _ ih =>
    obtain ⟨blk, hb', rfl⟩ := get_visit.1 hb
    clear hb
    have hb := hb'
    obtain ⟨blk2, ht', rfl⟩ := get_visit.1 ht
    clear ht
    have ht := ht'
    have hm := List.mem_of_getElem? hb
    obtain ⟨h1, h2⟩ := (exec_block hO (hw blk hm) (ha blk hm) ..).1 he
    exact .step b blk ρ m ρ₁ m₁ t blk2 _ hb h1 hn ht ih

theorem visit_run (hO : O.leak ≠ O.check) {entry : Bool} {fn : Fn Int} (hw : WfFn O fn) (ha : NoAtomics O fn) {b : Nat}
    {ρ : Env Int} {m : M} {r : Res M} (h : GRun { P with sem := guarded O S sem } S entry fn b ρ m r) :
    ∃ o, Run { P with sem := withChecks O S sem } (fn.map (visitBlock O entry)) b ρ m o ∧ Res.of o = r := by
  have ff : ∀ is ρ m (o : Outcome Int M), ExecFail { P with sem := withChecks O S sem } is ρ m o → Res.of o = .fail := by
    intro is ρ m o h
    induction h with
    | here => rfl
    | there => assumption
  induction h with
  | fail b blk ρ m o hb hf =>
    have hm := List.mem_of_getElem? hb
    obtain ⟨o', h⟩ := (fails_block (entry := entry) hO (hw blk hm) (ha blk hm) ρ m).2 (.inl ⟨o, hf⟩)
    exact ⟨o', .fail b _ ρ m o' (get_visit.2 ⟨blk, hb, rfl⟩) h, ff _ _ _ _ h⟩
  | leak b blk ρ m ρ₁ m₁ hb he h1 h2 h3 =>
    have hm := List.mem_of_getElem? hb
    obtain ⟨o', h⟩ := (fails_block (entry := entry) hO (hw blk hm) (ha blk hm) ρ m).2 (.inr ⟨h2, h1, ρ₁, m₁, he, h3⟩)
    exact ⟨o', .fail b _ ρ m o' (get_visit.2 ⟨blk, hb, rfl⟩) h, ff _ _ _ _ h⟩
  | leave b blk ρ m ρ₁ m₁ o hb he hl h1 =>
    have hm := List.mem_of_getElem? hb
    exact ⟨o, .leave b _ ρ m ρ₁ m₁ o (get_visit.2 ⟨blk, hb, rfl⟩) ((exec_block hO (hw blk hm) (ha blk hm) ..).2 ⟨he, h1⟩) hl, rfl⟩
  | step b blk ρ m ρ₁ m₁ t blk2 r hb he hn ht _ ih =>
    have hm := List.mem_of_getElem? hb
    obtain ⟨o, h1, h2⟩ := ih
    refine ⟨o, .step b _ ρ m ρ₁ m₁ t _ o (get_visit.2 ⟨blk, hb, rfl⟩) ((exec_block hO (hw blk hm) (ha blk hm) ..).2 ⟨he, ?_⟩) hn
      (get_visit.2 ⟨blk2, ht, rfl⟩) h1, h2⟩
    intro _ h3
    exfalso
    revert hn h3
    cases blk.term <;> simp [isRet, next]

/-- Without instrumentation the runs are the same. -/
theorem run_plain {fn : Fn Int} (hw : WfFn O fn) {b : Nat} {ρ : Env Int} {m : M} {r : Res M} :
    GRun { P with sem := sem } S false fn b ρ m r ↔ ∃ o, Run { P with sem := withChecks O S sem } fn b ρ m o ∧ Res.of o = r := by
  have hs : ∀ blk ∈ fn, ∀ i ∈ blk.body, sem i.op = withChecks O S sem i.op := fun blk hb i hi =>
    (sem_other sem (hw blk hb i hi).1 (hw blk hb i hi).2.1).symm
  have ff : ∀ (Q : Params Int M) is ρ m (o : Outcome Int M), ExecFail Q is ρ m o → Res.of o = .fail := by
    intro Q is ρ m o h
    induction h with
    | here => rfl
    | there => assumption
  constructor
  · intro h
    induction h with
    | fail b blk ρ m o hb hf =>
      have hm := List.mem_of_getElem? hb
      obtain ⟨o', h⟩ := (fails_congr (P := { P with sem := sem }) (Q := { P with sem := withChecks O S sem }) _ (hs blk hm) ρ m).1 ⟨o, hf⟩
      exact ⟨o', .fail b _ ρ m o' hb h, ff _ _ _ _ _ h⟩
    | leak b blk ρ m ρ₁ m₁ hb he h1 h2 h3 => cases h2
    | leave b blk ρ m ρ₁ m₁ o hb he hl h1 =>
      have hm := List.mem_of_getElem? hb
      exact ⟨o, .leave b _ ρ m ρ₁ m₁ o hb
        ((exec_congr (P := { P with sem := sem }) (Q := { P with sem := withChecks O S sem }) _ (hs blk hm) ..).1 he) hl, rfl⟩
    | step b blk ρ m ρ₁ m₁ t blk2 r hb he hn ht _ ih =>
      have hm := List.mem_of_getElem? hb
      obtain ⟨o, h1, h2⟩ := ih
      exact ⟨o, .step b _ ρ m ρ₁ m₁ t _ o hb
        ((exec_congr (P := { P with sem := sem }) (Q := { P with sem := withChecks O S sem }) _ (hs blk hm) ..).1 he) hn ht h1, h2⟩
  · rintro ⟨o, h, rfl⟩
    induction h with
    | fail b blk ρ m o hb hf =>
      have hm := List.mem_of_getElem? hb
      obtain ⟨o', h⟩ := (fails_congr (P := { P with sem := sem }) (Q := { P with sem := withChecks O S sem }) _ (hs blk hm) ρ m).2 ⟨o, hf⟩
      rw [ff _ _ _ _ _ hf]
      exact .fail b blk ρ m o' hb h
    | leave b blk ρ m ρ₁ m₁ o hb he hl =>
      have hm := List.mem_of_getElem? hb
      exact .leave b blk ρ m ρ₁ m₁ o hb
        ((exec_congr (P := { P with sem := sem }) (Q := { P with sem := withChecks O S sem }) _ (hs blk hm) ..).2 he) hl
        (fun h => nomatch h)
    | step b blk ρ m ρ₁ m₁ t blk2 o hb he hn ht _ ih =>
      have hm := List.mem_of_getElem? hb
      exact .step b blk ρ m ρ₁ m₁ t blk2 _ hb
        ((exec_congr (P := { P with sem := sem }) (Q := { P with sem := withChecks O S sem }) _ (hs blk hm) ..).2 he) hn ht ih

end Smack.MemSafe
