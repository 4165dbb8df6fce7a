/-
SSA form of functions in which only the entry block defines variables for other blocks, by evaluation (used in examples).
-/
import Verif.Cfg.Spec
import Verif.Cfg.Sim

set_option linter.unusedSectionVars false

namespace Smack.E2EMod

open Smack.Cfg Smack.Cfg.Spec

section
variable {V : Type} [DecidableEq V]

/-- The variable has no definition, or one in the entry block, or an earlier one in this block. -/
def useOk (fn : Fn V) (b i : Nat) (x : Var) : Bool :=
  (List.range fn.length).all fun d => match fn[d]? with
    | none => true
    | some blk => !(dsts blk.body).contains x || (d == 0 && b != 0) || (d == b && (dsts (blk.body.take i)).contains x)

def opdOk (fn : Fn V) (b i : Nat) : Opd V → Bool
  | .var x => useOk fn b i x
  | .const _ => true

/-- No phi nodes, all uses are as above, and each variable has one definition. -/
def starOk (fn : Fn V) : Bool :=
  decide (0 < fn.length) && decide ((fn.flatMap fun blk => dsts blk.body).Nodup) &&
  (List.range fn.length).all fun b => match fn[b]? with
    | none => true
    | some blk => decide (blk.phis.length = 0) && blk.term.succs.all (fun t => decide (t < fn.length) && t != 0) &&
      ((List.range blk.body.length).all fun i => match blk.body[i]? with
        | none => true
        | some ins => ins.args.all (opdOk fn b i)) &&
      (Term.uses blk.term).all (opdOk fn b blk.body.length)

theorem star_block {fn : Fn V} (h : starOk fn = true) {b : Nat} {blk : Block V} (hb : fn[b]? = some blk) : blk.phis = [] ∧
    (∀ t ∈ blk.term.succs, t < fn.length ∧ t ≠ 0) ∧
    (∀ (i : Nat) ins, blk.body[i]? = some ins → ∀ o ∈ ins.args, opdOk fn b i o = true) ∧
    ∀ o ∈ Term.uses blk.term, opdOk fn b blk.body.length o = true := by
  simp only [starOk, Bool.and_eq_true, List.all_eq_true, List.mem_range] at h
  obtain ⟨_, h⟩ := h
  have hlt := (List.getElem?_eq_some_iff.1 hb).1
  have := h b hlt
  rw [hb] at this
  simp only [Bool.and_eq_true, List.all_eq_true, decide_eq_true_eq, bne_iff_ne] at this
  obtain ⟨⟨⟨h1, h2⟩, h3⟩, h4⟩ := this
  refine ⟨List.length_eq_zero_iff.1 h1, h2, ?_, h4⟩
  intro i ins hi o ho
  have := h3 i (List.mem_range.2 (List.getElem?_eq_some_iff.1 hi).1)
  rw [hi] at this
  simp only [List.all_eq_true] at this
  exact this o ho

theorem no_avoid0 {fn : Fn V} {b : Nat} (h : Avoid fn 0 b) : False := by
  induction h with
  | entry h => exact h rfl
  | step b t _ he hne ih => exact ih

theorem useOk_avail {fn : Fn V} (h : starOk fn = true) {b i : Nat} {x : Var} (hx : useOk fn b i x = true) : Avail fn b i x := by
  intro d ⟨blk, hb, hd⟩
  rw [(star_block h hb).1] at hd
  simp only [List.map_nil, List.not_mem_nil, false_or] at hd
  simp only [useOk, List.all_eq_true, List.mem_range] at hx
  have := hx d (List.getElem?_eq_some_iff.1 hb).1
  rw [hb] at this
  simp only [Bool.or_eq_true, Bool.and_eq_true, Bool.not_eq_true', beq_iff_eq, bne_iff_ne, List.contains_iff_mem] at this
  rcases this with (h1 | ⟨rfl, h1⟩) | ⟨rfl, h1⟩
  · exact absurd (List.contains_iff_mem.2 hd) (by rw [h1]; decide)
  · exact .inl ⟨Ne.symm h1, fun ha => no_avoid0 ha⟩
  · exact .inr ⟨rfl, blk, hb, .inr h1⟩

theorem opdOk_avail {fn : Fn V} (h : starOk fn = true) {b i : Nat} {o : Opd V} (hx : opdOk fn b i o = true) : OpdIs (Avail fn b i) o := by
  cases o with
  | var x => exact useOk_avail h hx
  | const => trivial

theorem nodup_flat {fn : Fn V} {f : Block V → List Nat} (h : (fn.flatMap f).Nodup) : (∀ blk ∈ fn, (f blk).Nodup) ∧
    ∀ (d d' : Nat) blk blk', fn[d]? = some blk → fn[d']? = some blk' → ∀ x, x ∈ f blk → x ∈ f blk' → d = d' := by
  induction fn with
  | nil => exact ⟨by simp, by simp⟩
  | cons b fn ih =>
    rw [List.flatMap_cons, List.nodup_append] at h
    obtain ⟨h1, h2, h3⟩ := h
    obtain ⟨i1, i2⟩ := ih h2
    refine ⟨?_, ?_⟩
    · intro blk hb
      rcases List.mem_cons.1 hb with rfl | hb
      · exact h1
      · exact i1 _ hb
    · intro d d' blk blk' hd hd' x hx hx'
      rcases d with _ | d <;> rcases d' with _ | d'
      · rfl
      · simp at hd; subst hd
        exact absurd rfl (h3 x hx x (List.mem_flatMap.2 ⟨blk', List.mem_of_getElem? (by simpa using hd'), hx'⟩))
      · simp at hd'; subst hd'
        exact absurd rfl (h3 x hx' x (List.mem_flatMap.2 ⟨blk, List.mem_of_getElem? (by simpa using hd), hx⟩))
      · rw [i2 d d' blk blk' (by simpa using hd) (by simpa using hd') x hx hx']

theorem ssa_star {fn : Fn V} (h : starOk fn = true) : Ssa fn where
  nonempty := by simp only [starOk, Bool.and_eq_true, decide_eq_true_eq] at h; exact h.1.1
  unique := by
    intro x d d' ⟨blk, hb, hx⟩ ⟨blk', hb', hx'⟩
    have hn : (fn.flatMap fun blk => dsts blk.body).Nodup := by simp only [starOk, Bool.and_eq_true, decide_eq_true_eq] at h; exact h.1.2
    rw [(star_block h hb).1] at hx
    rw [(star_block h hb').1] at hx'
    simp only [List.map_nil, List.not_mem_nil, false_or] at hx hx'
    exact (nodup_flat hn).2 d d' blk blk' hb hb' x hx hx'
  nodup := by
    intro b blk hb
    have hn : (fn.flatMap fun blk => dsts blk.body).Nodup := by simp only [starOk, Bool.and_eq_true, decide_eq_true_eq] at h; exact h.1.2
    rw [(star_block h hb).1]
    exact (nodup_flat hn).1 blk (List.mem_of_getElem? hb)
  body := fun b blk i ins hb hi o ho => opdOk_avail h ((star_block h hb).2.2.1 i ins hi o ho)
  term := by
    intro b blk hb o ho
    have := opdOk_avail h ((star_block h hb).2.2.2 o ho)
    cases o with
    | var x => exact availEnd_of this
    | const => trivial
  phi := by
    intro b t blk _ hb p hp
    rw [(star_block h hb).1] at hp; cases hp
  phiPreds := by
    intro t blk hb p hp
    rw [(star_block h hb).1] at hp; cases hp
  succs := fun b t ⟨blk, hb, ht⟩ => ((star_block h hb).2.1 t ht).1
  entry := fun b ⟨blk, hb, ht⟩ => ((star_block h hb).2.1 0 ht).2 rfl

/-- No loops: the edges go to later blocks. -/
theorem complete_star {fn : Fn V} (h : ∀ (b : Nat) blk, fn[b]? = some blk → ∀ t ∈ blk.term.succs, b < t) : LoopsComplete fn [] := by
  intro b t hr he hd
  exfalso
  have later : ∀ a b, Edge fn a b → a < b := fun a b ⟨blk, hb, ht⟩ => h a blk hb b ht
  have low : ∀ b, Reach fn b → ∀ t, b < t → Avoid fn t b := by
    intro b hr
    induction hr with
    | entry => exact fun t ht => .entry (by omega)
    | step a b _ he ih =>
      intro t ht
      have := later a b he
      exact .step a b (ih t (by omega)) he (by omega)
  exact hd (low b hr t (later b t he))

def isSwitch : Term V → Bool
  | .switch _ _ _ => true
  | _ => false

theorem plain_star {fn : Fn V} (h : starOk fn = true) (h' : fn.all (fun blk => !isSwitch blk.term && decide blk.term.succs.Nodup) = true) : Plain fn := by
  simp only [List.all_eq_true, Bool.and_eq_true, Bool.not_eq_true', decide_eq_true_eq] at h'
  refine ⟨?_, ?_, ?_⟩
  · intro b blk c cs d hb ht
    have := (h' blk (List.mem_of_getElem? hb)).1
    rw [ht] at this; cases this
  · exact fun b blk hb => (h' blk (List.mem_of_getElem? hb)).2
  · exact fun b blk n u _ _ t _ blk' hb' => (star_block h hb').1

theorem complete_star' {fn : Fn V} (h : (List.range fn.length).all (fun b => match fn[b]? with
    | none => true
    | some blk => blk.term.succs.all fun t => decide (b < t)) = true) : LoopsComplete fn [] := by
  apply complete_star
  intro b blk hb t ht
  simp only [List.all_eq_true, List.mem_range] at h
  have := h b (List.getElem?_eq_some_iff.1 hb).1
  rw [hb] at this
  simp only [List.all_eq_true, decide_eq_true_eq] at this
  exact this t ht

end

end Smack.E2EMod
