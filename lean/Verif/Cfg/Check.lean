/-
A decision procedure that establishes SSA form of concrete functions; used for the examples beside theorems only.
-/
import Verif.Cfg.Spec

namespace Smack.Cfg.Spec

open Smack.Cfg

variable {V : Type}

def succsOf (fn : Fn V) (b : Nat) : List Nat := match fn[b]? with
  | some blk => blk.term.succs
  | none => []

/-- Blocks that can be reached without `d` (any list; its closure is checked). -/
def avoidSet (fn : Fn V) (d : Nat) : List Nat :=
  (List.range fn.length).foldl (fun s _ => s ++ ((s.flatMap (succsOf fn)).filter fun t => t != d && !s.contains t).eraseDups)
    (if d = 0 then [] else [0])

def domB (fn : Fn V) (d b : Nat) : Bool :=
  let s := avoidSet fn d
  (d == 0 || s.contains 0) && s.all (fun c => (succsOf fn c).all fun t => t == d || s.contains t) && !s.contains b

def defs (blk : Block V) : List Var := blk.phis.map (·.var) ++ dsts blk.body

def availB (fn : Fn V) (b i : Nat) (x : Var) : Bool :=
  (List.range fn.length).all fun d => match fn[d]? with
    | some blk => !(defs blk).contains x || (d != b && domB fn d b) ||
        (d == b && ((blk.phis.map (·.var)).contains x || (dsts (blk.body.take i)).contains x))
    | none => true

def availEndB (fn : Fn V) (b : Nat) (x : Var) : Bool :=
  (List.range fn.length).all fun d => match fn[d]? with
    | some blk => !(defs blk).contains x || domB fn d b
    | none => true

def opdB (p : Var → Bool) : Opd V → Bool
  | .var x => p x
  | .const _ => true

def nodupB : List Nat → Bool
  | [] => true
  | a :: l => !l.contains a && nodupB l

def ssaB (fn : Fn V) : Bool :=
  decide (0 < fn.length) && nodupB (fn.flatMap defs) &&
  (List.range fn.length).all fun b => match fn[b]? with
    | none => true
    | some blk =>
      ((List.range blk.body.length).all fun i => match blk.body[i]? with
        | some ins => ins.args.all (opdB (availB fn b i))
        | none => true) &&
      (Term.uses blk.term).all (opdB (availEndB fn b)) &&
      (blk.term.succs.all fun t => decide (t < fn.length) && t != 0 && match fn[t]? with
        | some blk' => blk'.phis.all fun p => match p.inc.lookup b with
          | some u => opdB (availEndB fn b) u
          | none => false
        | none => true) &&
      blk.phis.all fun p => p.inc.all fun q => (succsOf fn q.1).contains b

theorem succsOf_edge {fn : Fn V} {b t : Nat} : Edge fn b t ↔ t ∈ succsOf fn b := by
  unfold Edge succsOf
  cases h : fn[b]? with
  | none => simp
  | some blk => simp

theorem domB_dom {fn : Fn V} {d b : Nat} (h : domB fn d b = true) : Dom fn d b := by
  unfold domB at h
  simp only [Bool.and_eq_true, Bool.or_eq_true, beq_iff_eq, List.contains_iff_mem, List.all_eq_true, Bool.not_eq_true'] at h
  obtain ⟨⟨h0, hc⟩, hb⟩ := h
  intro ha
  have key : ∀ t, Avoid fn d t → t ∈ avoidSet fn d := by
    intro t ht
    induction ht with
    | entry hne =>
      rcases h0 with h0 | h0
      · exact absurd h0.symm hne
      · exact h0
    | step c t _ he hne ih =>
      rcases hc c ih t (succsOf_edge.1 he) with h | h
      · exact absurd h hne
      · exact h
  have := key b ha
  rw [← List.contains_iff_mem] at this
  rw [hb] at this
  exact Bool.noConfusion this

theorem defIn_iff {fn : Fn V} {x d : Nat} : DefIn fn x d ↔ ∃ blk, fn[d]? = some blk ∧ x ∈ defs blk := by
  unfold DefIn defs
  simp only [List.mem_append]

theorem availB_avail {fn : Fn V} {b i x : Nat} (h : availB fn b i x = true) : Avail fn b i x := by
  intro d hd
  obtain ⟨blk, hb, hx⟩ := defIn_iff.1 hd
  unfold availB at h
  rw [List.all_eq_true] at h
  have hlt : d < fn.length := by
    rcases Nat.lt_or_ge d fn.length with h | h
    · exact h
    · rw [List.getElem?_eq_none h] at hb; simp at hb
  have := h d (List.mem_range.2 hlt)
  rw [hb] at this
  simp only [Bool.or_eq_true, Bool.not_eq_true', Bool.and_eq_true, bne_iff_ne, beq_iff_eq, List.contains_iff_mem] at this
  rcases this with (h1 | ⟨h1, h2⟩) | ⟨rfl, h2⟩
  · rw [← List.contains_iff_mem, h1] at hx
    exact Bool.noConfusion hx
  · exact .inl ⟨h1, domB_dom h2⟩
  · exact .inr ⟨rfl, blk, hb, h2⟩

theorem availEndB_avail {fn : Fn V} {b x : Nat} (h : availEndB fn b x = true) : AvailEnd fn b x := by
  intro d hd
  obtain ⟨blk, hb, hx⟩ := defIn_iff.1 hd
  unfold availEndB at h
  rw [List.all_eq_true] at h
  have hlt : d < fn.length := by
    rcases Nat.lt_or_ge d fn.length with h | h
    · exact h
    · rw [List.getElem?_eq_none h] at hb; simp at hb
  have := h d (List.mem_range.2 hlt)
  rw [hb] at this
  simp only [Bool.or_eq_true, Bool.not_eq_true'] at this
  rcases this with h1 | h1
  · rw [← List.contains_iff_mem, h1] at hx
    exact Bool.noConfusion hx
  · exact domB_dom h1

theorem nodupB_nodup : ∀ {l : List Nat}, nodupB l = true → l.Nodup
  | [], _ => List.nodup_nil
  | a :: l, h => by
    simp only [nodupB, Bool.and_eq_true, Bool.not_eq_true'] at h
    refine List.nodup_cons.2 ⟨?_, nodupB_nodup h.2⟩
    intro hm
    rw [← List.contains_iff_mem, h.1] at hm
    exact Bool.noConfusion hm

theorem opdB_is {p : Var → Bool} {q : Var → Prop} (h : ∀ x, p x = true → q x) {u : Opd V} (hu : opdB p u = true) : OpdIs q u := by
  cases u with
  | var x => exact h x hu
  | const v => trivial

theorem unique_of_nodup : ∀ {fn : Fn V}, (fn.flatMap defs).Nodup → ∀ (x : Var) (d d' : Nat) (blk blk' : Block V), fn[d]? = some blk →
    fn[d']? = some blk' → x ∈ defs blk → x ∈ defs blk' → d = d'
  | [], _, _, _, _, _, _, h, _, _, _ => by simp at h
  | b :: fn, hn, x, d, d', blk, blk', h, h', hx, hx' => by
    rw [List.flatMap_cons, List.nodup_append] at hn
    cases d with
    | zero =>
      cases d' with
      | zero => rfl
      | succ d' =>
        simp only [List.getElem?_cons_zero, Option.some.injEq] at h
        simp only [List.getElem?_cons_succ] at h'
        subst h
        exact absurd rfl (hn.2.2 x hx x (List.mem_flatMap.2 ⟨blk', List.mem_of_getElem? h', hx'⟩))
    | succ d =>
      cases d' with
      | zero =>
        simp only [List.getElem?_cons_zero, Option.some.injEq] at h'
        simp only [List.getElem?_cons_succ] at h
        subst h'
        exact absurd rfl (hn.2.2 x hx' x (List.mem_flatMap.2 ⟨blk, List.mem_of_getElem? h, hx⟩))
      | succ d' =>
        simp only [List.getElem?_cons_succ] at h h'
        exact congrArg (· + 1) (unique_of_nodup hn.2.1 x d d' blk blk' h h' hx hx')

theorem block_nodup : ∀ {fn : Fn V}, (fn.flatMap defs).Nodup → ∀ (b : Nat) (blk : Block V), fn[b]? = some blk → (defs blk).Nodup
  | [], _, _, _, h => by simp at h
  | c :: fn, hn, b, blk, h => by
    rw [List.flatMap_cons, List.nodup_append] at hn
    cases b with
    | zero => simp only [List.getElem?_cons_zero, Option.some.injEq] at h; subst h; exact hn.1
    | succ b => exact block_nodup hn.2.1 b blk (by simpa using h)

/-- The procedure is sound. -/
theorem ssaB_ssa {fn : Fn V} (h : ssaB fn = true) : Ssa fn := by
  unfold ssaB at h
  rw [Bool.and_eq_true, Bool.and_eq_true, decide_eq_true_eq, List.all_eq_true] at h
  obtain ⟨⟨h0, hn⟩, hall⟩ := h
  have hn := nodupB_nodup hn
  have hlt : ∀ {b : Nat} {blk : Block V}, fn[b]? = some blk → b < fn.length := by
    intro b blk hb
    rcases Nat.lt_or_ge b fn.length with h | h
    · exact h
    · rw [List.getElem?_eq_none h] at hb; simp at hb
  have get : ∀ {b : Nat} {blk : Block V}, fn[b]? = some blk → _ := fun {b blk} hb => by
    have := hall b (List.mem_range.2 (hlt hb))
    rw [hb] at this
    simp only [Bool.and_eq_true, List.all_eq_true] at this
    exact this
  refine ⟨h0, ?_, ?_, ?_, ?_, ?_, ?_, ?_, ?_⟩
  · intro x d d' hd hd'
    obtain ⟨blk, hb, hx⟩ := defIn_iff.1 hd
    obtain ⟨blk', hb', hx'⟩ := defIn_iff.1 hd'
    exact unique_of_nodup hn x d d' blk blk' hb hb' hx hx'
  · intro b blk hb
    exact block_nodup hn b blk hb
  · intro b blk i ins hb hi u hu
    have hi' : i < blk.body.length := by
      rcases Nat.lt_or_ge i blk.body.length with h | h
      · exact h
      · rw [List.getElem?_eq_none h] at hi; simp at hi
    have := (get hb).1.1.1 i (List.mem_range.2 hi')
    rw [hi] at this
    exact opdB_is (fun x => availB_avail) (List.all_eq_true.1 this u hu)
  · intro b blk hb u hu
    exact opdB_is (fun x => availEndB_avail) ((get hb).1.1.2 u hu)
  · intro b t blk he hb p hp
    obtain ⟨blk₀, hb₀, ht⟩ := he
    have := ((get hb₀).1.2 t ht).2
    rw [hb] at this
    have := List.all_eq_true.1 this p hp
    split at this
    · rename_i u hu
      exact ⟨u, hu, opdB_is (fun x => availEndB_avail) this⟩
    · simp at this
  · intro t blk hb p hp q hq
    have := (get hb).2 p hp q hq
    rw [succsOf_edge]
    exact List.contains_iff_mem.1 this
  · intro b t he
    obtain ⟨blk₀, hb₀, ht⟩ := he
    exact of_decide_eq_true ((get hb₀).1.2 t ht).1.1
  · intro b he
    obtain ⟨blk₀, hb₀, ht⟩ := he
    have := ((get hb₀).1.2 0 ht).1.2
    simp at this

end Smack.Cfg.Spec
