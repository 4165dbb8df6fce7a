import Verif.Aggr.Tree
import Mathlib.Logic.Equiv.List
import Mathlib.Data.Fintype.Card
import Mathlib.Data.Fintype.Prod

namespace Smack.Aggr

variable {D : Type}

/-- What the equations of `genInsert` say about values. -/
def Holds (ext : String → D → Nat → D) : Ty → Path → D → D → D → Prop
  | _, [], r, _, ins => r = ins
  | t, i :: p, r, o, ins =>
    (∀ j, j < t.num → j ≠ i → ext (elemName t j) r j = ext (elemName t j) o j) ∧
      Holds ext (elemTy t i) p (ext (elemName t i) r i) (ext (elemName t i) o i) ins

theorem genInsert_holds (ext : String → D → Nat → D) (res old ins : D) (p : Path) :
    ∀ (t : Ty) (R O : Tm),
      (∀ e ∈ genInsert t p R O, e.1.eval ext res old ins = e.2.eval ext res old ins) ↔
        Holds ext t p (R.eval ext res old ins) (O.eval ext res old ins) ins := by
  induction p with
  | nil =>
    intro t R O
    simp [genInsert, Holds, Tm.eval]
  | cons i p ih =>
    intro t R O
    simp only [genInsert, Holds, List.forall_mem_append, ih]
    have : (∀ e ∈ genOthers t i R O, e.1.eval ext res old ins = e.2.eval ext res old ins) ↔
        ∀ j, j < t.num → j ≠ i → ext (elemName t j) (R.eval ext res old ins) j =
          ext (elemName t j) (O.eval ext res old ins) j := by
      simp only [genOthers, List.forall_mem_map, List.mem_filter, List.mem_range, bne_iff_ne, ne_eq,
        and_imp, Tm.eval]
    rw [this]
    simp only [Tm.eval]

theorem Rep.node_of_agg {ext : String → D → Nat → D} {t : Ty} {d : D} {v : V D} (h : Rep ext t d v)
    (ha : t.isAgg = true) : ∃ vs, v = .node vs ∧ vs.length = t.num ∧
      ∀ i o t' x, t.elem? i = some (o, t') → vs[i]? = some x → Rep ext t' (ext t'.boogie d i) x := by
  cases h with
  | scalar n k d => cases ha
  | agg _ _ vs _ hl he => exact ⟨vs, rfl, hl, he⟩

theorem insert_rep {ext : String → D → Nat → D} {ins : D} {w : V D} (p : Path) :
    ∀ {t : Ty} {r o : D} {v : V D} {off : Nat} {t' : Ty}, t.at? p = some (off, t') → Rep ext t o v →
      Rep ext t' ins w → Holds ext t p r o ins → ∃ v', v.set p w = some v' ∧ Rep ext t r v' := by
  induction p with
  | nil =>
    intro t r o v off t' hp _ hw hh
    simp only [Ty.at?, Option.some.injEq, Prod.mk.injEq] at hp
    obtain ⟨_, rfl⟩ := hp
    simp only [Holds] at hh
    subst hh
    exact ⟨w, rfl, hw⟩
  | cons i p ih =>
    intro t r o v off t' hp hv hw hh
    obtain ⟨o1, t1, o2, h1, h2, rfl⟩ := Ty.at?_cons.1 hp
    obtain ⟨vs, rfl, hl, he⟩ := hv.node_of_agg (Ty.isAgg_of_elem? h1)
    obtain ⟨hoth, hin⟩ := hh
    rw [elemTy_eq h1, elemName_eq h1] at hin
    have hlt : i < vs.length := by rw [hl]; exact Ty.lt_of_elem? h1
    have hx : vs[i]? = some vs[i] := List.getElem?_eq_getElem hlt
    obtain ⟨x', hx', hr⟩ := ih h2 (he i o1 t1 _ h1 hx) hw hin
    refine ⟨_, V.set_cons.2 ⟨vs, _, x', rfl, hx, hx', rfl⟩, .agg _ _ _ (Ty.isAgg_of_elem? h1) (by simp [hl]) ?_⟩
    intro j oj tj y hj hy
    by_cases hij : i = j
    · subst hij
      rw [getElem?_set_eq hx] at hy
      cases hy
      rw [h1] at hj
      cases hj
      exact hr
    · rw [getElem?_set_other hij] at hy
      have := hoth j (Ty.lt_of_elem? hj) (fun e => hij e.symm)
      rw [elemName_eq hj] at this
      rw [this]
      exact he j oj tj y hj hy

theorem exists_holds {ext : String → D → Nat → D} (hrich : Rich ext) (ins : D) (p : Path) :
    ∀ {t : Ty} {off : Nat} {t' : Ty} (o : D), t.at? p = some (off, t') → ∃ r, Holds ext t p r o ins := by
  induction p with
  | nil => intro t off t' o _; exact ⟨ins, rfl⟩
  | cons i p ih =>
    intro t off t' o hp
    obtain ⟨o1, t1, o2, h1, h2, rfl⟩ := Ty.at?_cons.1 hp
    obtain ⟨r', hr'⟩ := ih (ext (elemName t i) o i) h2
    obtain ⟨r, hr⟩ := hrich (elemName t)
      ((List.range t.num).map fun j => if j = i then r' else ext (elemName t j) o j)
    have hget : ∀ j, j < t.num → ext (elemName t j) r j = if j = i then r' else ext (elemName t j) o j := by
      intro j hj
      apply hr
      rw [List.getElem?_map, List.getElem?_range hj]
      rfl
    refine ⟨r, ?_, ?_⟩
    · intro j hj hne
      rw [hget j hj, if_neg hne]
    · rw [hget i (Ty.lt_of_elem? h1), if_pos rfl, elemTy_eq h1]
      exact hr'

theorem extract_rep {ext : String → D → Nat → D} {res old ins : D} (p : Path) :
    ∀ {t : Ty} {v : V D} {off : Nat} {t' : Ty} (e : Tm), t.at? p = some (off, t') →
      Rep ext t (e.eval ext res old ins) v →
      ∃ w, v.get p = some w ∧ Rep ext t' ((genExtract t p e).eval ext res old ins) w := by
  induction p with
  | nil =>
    intro t v off t' e hp hv
    simp only [Ty.at?, Option.some.injEq, Prod.mk.injEq] at hp
    obtain ⟨_, rfl⟩ := hp
    exact ⟨v, rfl, hv⟩
  | cons i p ih =>
    intro t v off t' e hp hv
    obtain ⟨o1, t1, o2, h1, h2, rfl⟩ := Ty.at?_cons.1 hp
    obtain ⟨vs, rfl, hl, he⟩ := hv.node_of_agg (Ty.isAgg_of_elem? h1)
    have hlt : i < vs.length := by rw [hl]; exact Ty.lt_of_elem? h1
    have hx : vs[i]? = some vs[i] := List.getElem?_eq_getElem hlt
    obtain ⟨w, hw, hr⟩ := ih (.ext (elemName t i) e i) h2 (v := vs[i])
      (by simp only [Tm.eval, elemName_eq h1]; exact he i o1 t1 _ h1 hx)
    refine ⟨w, V.get_cons.2 ⟨vs, _, rfl, hx, hw⟩, ?_⟩
    simp only [genExtract, elemTy_eq h1]
    exact hr

theorem Rep.unique {ext : String → D → Nat → D} {t : Ty} {d : D} {v v' : V D} (h : Rep ext t d v)
    (h' : Rep ext t d v') : v = v' := by
  induction h generalizing v' with
  | scalar n k d =>
    cases h' with
    | scalar => rfl
    | agg _ _ _ ha _ _ => cases ha
  | agg t d vs ha hl he ih =>
    obtain ⟨vs', rfl, hl', he'⟩ := h'.node_of_agg ha
    congr 1
    apply List.ext_getElem?
    intro i
    by_cases hi : i < t.num
    · obtain ⟨o, t', hel⟩ := Ty.elem?_of_lt hi
      have hx : vs[i]? = some (vs[i]'(by omega)) := List.getElem?_eq_getElem _
      have hx' : vs'[i]? = some (vs'[i]'(by omega)) := List.getElem?_eq_getElem _
      rw [hx, hx']
      congr 1
      exact ih i o t' _ hel hx (he' i o t' _ hel hx')
    · rw [List.getElem?_eq_none (by omega), List.getElem?_eq_none (by omega)]

/-- An interpretation over the integers: an integer codes a list of integers. -/
def intExt (_ : String) (d : Int) (i : Nat) : Int :=
  (((Encodable.decode (α := List Int) d.toNat).getD [])[i]?).getD 0

theorem intExt_rich : Rich intExt := by
  intro names ds
  refine ⟨(Encodable.encode ds : Nat), ?_⟩
  intro i d h
  simp [intExt, h]

/-- Over a finite sort there are not enough aggregate values. -/
theorem no_surjection (w : Nat) (hw : 1 ≤ w) (f : BitVec w → BitVec w × BitVec w) :
    ∃ y, ∀ x, f x ≠ y := by
  apply Classical.byContradiction
  intro hcon
  have hsurj : Function.Surjective f := by
    intro y
    apply Classical.byContradiction
    intro hy
    exact hcon ⟨y, fun x hx => hy ⟨x, hx⟩⟩
  let g : Fin (2 ^ w) → Fin (2 ^ w) × Fin (2 ^ w) := fun x =>
    ((f (BitVec.ofFin x)).1.toFin, (f (BitVec.ofFin x)).2.toFin)
  have hg : Function.Surjective g := by
    rintro ⟨a, b⟩
    obtain ⟨x, hx⟩ := hsurj (BitVec.ofFin a, BitVec.ofFin b)
    refine ⟨x.toFin, ?_⟩
    have : BitVec.ofFin x.toFin = x := rfl
    simp only [g, this, hx]
  have hc := Fintype.card_le_of_surjective g hg
  simp only [Fintype.card_prod, Fintype.card_fin] at hc
  have h2 : 2 ≤ 2 ^ w := by
    calc 2 = 2 ^ 1 := rfl
      _ ≤ 2 ^ w := Nat.pow_le_pow_right (by decide) hw
  have : 2 * 2 ^ w ≤ 2 ^ w * 2 ^ w := Nat.mul_le_mul_right _ h2
  omega

end Smack.Aggr
