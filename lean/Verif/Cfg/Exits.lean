/-
Lemmas: branches with equal targets, switches, loop exits.
-/
import Verif.Cfg.Normalize

namespace Smack.Cfg

set_option linter.unusedSectionVars false

open Spec

variable {V M : Type} [DecidableEq V] {P : Params V M} {fn : Fn V}

/-! ## Conditional branches with equal targets -/

/-- The only edges to `t` come from `b`, which is the block itself. -/
theorem uniquePred_of {b t : Nat} (he : Edge fn b t) (hu : ∀ p, Edge fn p t → p = b) : uniquePred fn t = some b := by
  have hm := mem_preds.mpr he
  unfold uniquePred
  cases hp : preds fn t with
  | nil => rw [hp] at hm; cases hm
  | cons q qs =>
    have hq : q = b := hu q (mem_preds.mp (by rw [hp]; simp))
    have hall : qs.all (· = q) = true := by
      rw [List.all_eq_true]
      intro x hx
      rw [hq]
      simpa using hu x (mem_preds.mp (by rw [hp]; simp [hx]))
    rw [hq] at hall ⊢
    simp only [hall, if_true]

theorem same_target_front {b t : Nat} {blk : Block V} {c : Opd V} (hb : fn[b]? = some blk) (hterm : blk.term = .cbr c t t)
    (ht : t < fn.length) (hu : ∀ p, Edge fn p t → p = b) :
    translate fn (.real t) = .assume (.notOne c) :: .assume (.isOne c) :: own fn t := by
  have hup := uniquePred_of (fn := fn) ⟨blk, hb, by rw [hterm]; simp [Term.succs]⟩ hu
  rw [translate_real fn t ht, hup]
  simp only [if_pos (List.getElem?_eq_some_iff.mp hb).1]
  unfold ins
  rw [hb]
  simp only [hterm, targets]
  rw [if_pos (by simp)]
  unfold insOf
  rw [if_pos hup]
  simp

/-! ## Loop exits -/

theorem insOf_assumes (b : Nat) (ts : List (Cond V × Nat)) (t : Nat) : ∀ s ∈ insOf fn b ts t, ∃ c, s = .assume c := by
  intro s hs
  unfold insOf at hs
  split at hs
  · rw [List.mem_reverse, List.mem_map] at hs
    obtain ⟨p, _, rfl⟩ := hs
    exact ⟨p.1, rfl⟩
  · cases hs

theorem real_assumes {t : Nat} (ht : t < fn.length) : ∃ as, (∀ s ∈ as, ∃ c, s = .assume c) ∧ translate fn (.real t) = as ++ own fn t := by
  rw [translate_real fn t ht]
  refine ⟨_, ?_, rfl⟩
  intro s hs
  split at hs
  · split at hs
    · unfold ins at hs
      split at hs
      · split at hs
        · exact insOf_assumes _ _ _ s hs
        · cases hs
      · cases hs
    · cases hs
  · cases hs

theorem run_assumes {code : Label → List (Stmt V)} {rest : List (Stmt V)} {st : St V M} {o : Outcome V M} :
    ∀ (as : List (Stmt V)) (n : Nat), (∀ s ∈ as, ∃ c, s = .assume c) → BRun P code n (as ++ rest) st o → ∃ n', BRun P code n' rest st o
  | [], n, _, h => ⟨n, h⟩
  | s :: as, n, ha, h => by
    obtain ⟨c, rfl⟩ := ha s (by simp)
    rw [List.cons_append] at h
    cases h with
    | assume n _ _ _ _ _ h => exact run_assumes as n (fun s hs => ha s (by simp [hs])) h

/-- The first instruction of the block is a call of the exit operation. -/
def Exits (op : Nat) (fn : Fn V) (t : Nat) : Prop := ∃ blk is, fn[t]? = some blk ∧ blk.body = ⟨none, op, []⟩ :: is

theorem processExitBlock_self {op : Nat} {t : Nat} (ht : t < fn.length) : Exits op (processExitBlock op fn t) t := by
  unfold processExitBlock
  rw [List.getElem?_eq_getElem ht]
  refine ⟨_, _, List.getElem?_set_self ht, rfl⟩

theorem processExitBlock_keeps {op : Nat} {t x : Nat} (h : Exits op fn x) : Exits op (processExitBlock op fn t) x := by
  obtain ⟨blk, is, hb, hi⟩ := h
  unfold processExitBlock
  cases ht : fn[t]? with
  | none => exact ⟨blk, is, hb, hi⟩
  | some blk' =>
    by_cases htx : t = x
    · subst htx
      exact ⟨_, _, List.getElem?_set_self (List.getElem?_eq_some_iff.mp hb).1, rfl⟩
    · exact ⟨blk, is, by simp only; rw [List.getElem?_set_ne htx]; exact hb, hi⟩

theorem processExitBlock_term {op : Nat} (t x : Nat) :
    (processExitBlock op fn t)[x]?.map (·.term) = fn[x]?.map (·.term) := by
  unfold processExitBlock
  cases ht : fn[t]? with
  | none => rfl
  | some blk' =>
    by_cases htx : t = x
    · subst htx
      simp only
      rw [List.getElem?_set_self (List.getElem?_eq_some_iff.mp ht).1, ht]
      rfl
    · simp only
      rw [List.getElem?_set_ne htx]

theorem exits_fold {op : Nat} : ∀ (ts : List Nat) (fn : Fn V),
    (∀ x : Nat, (ts.foldl (processExitBlock op) fn)[x]?.map (·.term) = fn[x]?.map (·.term)) ∧
    (∀ x, (Exits op fn x ∨ (x ∈ ts ∧ x < fn.length)) → Exits op (ts.foldl (processExitBlock op) fn) x)
  | [], fn => ⟨fun _ => rfl, fun x h => by
      rcases h with h | ⟨h, _⟩
      · exact h
      · cases h⟩
  | t :: ts, fn => by
    obtain ⟨h1, h2⟩ := exits_fold (op := op) ts (processExitBlock op fn t)
    rw [List.foldl_cons]
    refine ⟨fun x => (h1 x).trans (processExitBlock_term t x), fun x h => h2 x ?_⟩
    rcases h with h | ⟨h, hl⟩
    · exact .inl (processExitBlock_keeps h)
    · rcases List.mem_cons.mp h with rfl | h
      · exact .inl (processExitBlock_self hl)
      · refine .inr ⟨h, ?_⟩
        have := processExitBlock_term (op := op) (fn := fn) t x
        rw [List.getElem?_eq_getElem hl] at this
        cases hx : (processExitBlock op fn t)[x]? with
        | none => rw [hx] at this; cases this
        | some b => exact (List.getElem?_eq_some_iff.mp hx).1

theorem mem_exitBlocks {l : Loop} {t : Nat} : t ∈ exitBlocks fn l ↔ ∃ b ∈ l.blocks, Edge fn b t ∧ t ∉ l.blocks := by
  unfold exitBlocks Edge
  rw [List.mem_flatMap]
  constructor
  · rintro ⟨b, hb, h⟩
    cases hf : fn[b]? with
    | none => rw [hf] at h; cases h
    | some blk =>
      rw [hf] at h
      rw [List.mem_filter] at h
      exact ⟨b, hb, ⟨blk, hf, h.1⟩, by simpa using h.2⟩
  · rintro ⟨b, hb, ⟨blk, hf, ht⟩, hn⟩
    refine ⟨b, hb, ?_⟩
    rw [hf]
    exact List.mem_filter.mpr ⟨ht, by simpa using hn⟩

theorem edge_of_terms {fn fn' : Fn V} (h : ∀ x : Nat, fn'[x]?.map (·.term) = fn[x]?.map (·.term)) {b t : Nat} : Edge fn' b t ↔ Edge fn b t := by
  have key : ∀ {f g : Fn V}, (∀ x : Nat, f[x]?.map (·.term) = g[x]?.map (·.term)) → Edge f b t → Edge g b t := by
    rintro f g h ⟨blk, hb, ht⟩
    have := h b
    rw [hb] at this
    cases hg : g[b]? with
    | none => rw [hg] at this; cases this
    | some blk' =>
      rw [hg] at this
      have e : blk.term = blk'.term := Option.some.inj this
      exact ⟨blk', hg, e ▸ ht⟩
  exact ⟨key h, key (fun x => (h x).symm)⟩

theorem annotate_exits {op : Nat} : ∀ (tops : List Loop) (fn : Fn V),
    (∀ x, Exits op fn x → Exits op (annotateLoopExits op tops fn) x) ∧
    (∀ l ∈ tops, ∀ b ∈ l.blocks, ∀ t, Edge fn b t → t ∉ l.blocks → t < fn.length → Exits op (annotateLoopExits op tops fn) t)
  | [], fn => ⟨fun _ h => h, by intro l hl; cases hl⟩
  | l :: tops, fn => by
    obtain ⟨t1, e1⟩ := exits_fold (op := op) (exitBlocks fn l) fn
    have ht1 : ∀ x : Nat, (annotateLoopExit op fn l)[x]?.map (·.term) = fn[x]?.map (·.term) := t1
    obtain ⟨i1, i2⟩ := annotate_exits (op := op) tops (annotateLoopExit op fn l)
    refine ⟨fun x h => i1 x (e1 x (.inl h)), ?_⟩
    intro l' hl' b hb t he hn ht
    rcases List.mem_cons.mp hl' with rfl | hl'
    · exact i1 t (e1 t (.inr ⟨mem_exitBlocks.mpr ⟨b, hb, he, hn⟩, ht⟩))
    · refine i2 l' hl' b hb t ((edge_of_terms ht1).mpr he) hn ?_
      have := ht1 t
      rw [List.getElem?_eq_getElem ht] at this
      cases hx : (annotateLoopExit op fn l)[t]? with
      | none => rw [hx] at this; cases this
      | some b => exact (List.getElem?_eq_some_iff.mp hx).1

end Smack.Cfg
