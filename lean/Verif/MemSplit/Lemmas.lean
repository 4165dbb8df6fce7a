import Verif.MemSplit.Spec
import Verif.Regions.Props
import Verif.TypeSafe.Props
import Verif.Bytes.Props

namespace Smack.MemSplit

open Smack.Regions
open Smack.Bytes (PtrRep Spread addr)

/-! ### Region tables -/

/-- A property of regions that holds for the regions of the accesses and is preserved by merging overlapping regions. -/
structure Closed (inf : Nat → NodeInfo) (bp : Bool) (Q : Region → Prop) : Prop where
  merge : ∀ x R, Inv inf x → Inv inf R → x.overlaps R = true → Q x → Q R → Q (x.merge bp R)

theorem absorb_all {inf : Nat → NodeInfo} {bp : Bool} {Q : Region → Prop} (hQ : Closed inf bp Q) (rest : List Region) :
    ∀ acc, Inv inf acc → (∀ r ∈ rest, Inv inf r) → Q acc → (∀ r ∈ rest, Q r) →
    Q (absorb bp acc rest).1 ∧ ∀ r ∈ (absorb bp acc rest).2, Q r := by
  induction rest with
  | nil => intro acc _ _ h _; exact ⟨h, by simp [absorb]⟩
  | cons q rest ih =>
    intro acc ha hi h hr
    have hq := hi q (by simp)
    unfold absorb
    by_cases ho : acc.overlaps q = true
    · rw [if_pos ho]
      exact ih _ (merge_inv ha hq ho) (fun r hm => hi r (by simp [hm])) (hQ.merge _ _ ha hq ho h (hr q (by simp)))
        (fun r hm => hr r (by simp [hm]))
    · rw [if_neg ho]
      obtain ⟨h1, h2⟩ := ih acc ha (fun r hm => hi r (by simp [hm])) h (fun r hm => hr r (by simp [hm]))
      refine ⟨h1, ?_⟩
      intro r hm
      rcases List.mem_cons.1 hm with rfl | hm
      · exact hr _ (by simp)
      · exact h2 r hm

theorem idx_all {inf : Nat → NodeInfo} {bp : Bool} {Q : Region → Prop} (hQ : Closed inf bp Q) (R : Region) (hR : Inv inf R)
    (hq : Q R) (regs : List Region) : (∀ r ∈ regs, Inv inf r) → (∀ r ∈ regs, Q r) → ∀ r ∈ (idx bp regs R).1, Q r := by
  induction regs with
  | nil => intro _ _ r hr; simp [idx] at hr; subst hr; exact hq
  | cons x xs ih =>
    intro hi hr
    have hx := hi x (by simp)
    unfold idx
    by_cases ho : x.overlaps R = true
    · rw [if_pos ho]
      obtain ⟨h1, h2⟩ := absorb_all hQ xs (x.merge bp R) (merge_inv hx hR ho) (fun r hm => hi r (by simp [hm]))
        (hQ.merge _ _ hx hR ho (hr x (by simp)) hq) (fun r hm => hr r (by simp [hm]))
      intro r hm
      rcases List.mem_cons.1 hm with rfl | hm
      · exact h1
      · exact h2 r hm
    · rw [if_neg ho]
      intro r hm
      rcases List.mem_cons.1 hm with rfl | hm
      · exact hr _ (by simp)
      · exact ih (fun r hm => hi r (by simp [hm])) (fun r hm => hr r (by simp [hm])) r hm

theorem collect_all {inf : Nat → NodeInfo} {bp : Bool} {Q : Region → Prop} (hQ : Closed inf bp Q) (h : List Access)
    (hf : ∀ A ∈ h, A.Fits) (hq : ∀ A ∈ h, Q (A.region inf bp)) : ∀ r ∈ collect inf bp h, Q r := by
  suffices H : ∀ (h : List Access), (∀ A ∈ h, A.Fits) → (∀ A ∈ h, Q (A.region inf bp)) → ∀ regs, Wf inf regs →
      (∀ r ∈ regs, Q r) → ∀ r ∈ Regions.run bp regs (h.map (Access.region inf bp)), Q r from
    H h hf hq [] (wf_nil inf) (by simp)
  intro h
  induction h with
  | nil => intro _ _ regs _ hr; exact hr
  | cons A h ih =>
    intro hf hq regs hw hr
    have hA := region_inv inf bp A (hf A (by simp))
    exact ih (fun B hB => hf B (by simp [hB])) (fun B hB => hq B (by simp [hB])) _ (idx_spec (bp := bp) regs _ hA hw).1
      (idx_all hQ _ hA (hq A (by simp)) regs hw.inv hr)

/-- Looking up a known access merges it into its region. -/
theorem idx_known {inf : Nat → NodeInfo} {bp : Bool} (regs : List Region) (A : Region) (hA : Inv inf A)
    (hlen : 0 < A.length) :
    Wf inf regs → ∀ (i : Nat) (r : Region), regs[i]? = some r → Contains inf bp r A →
    idx bp regs A = (regs.set i (r.merge bp A), i) := by
  induction regs with
  | nil => intro _ i r h; simp at h
  | cons x xs ih =>
    intro hw i r hi hc
    have hwx : Wf inf xs := ⟨fun r hr => hw.inv r (by simp [hr]), (List.pairwise_cons.mp hw.apart).2⟩
    have hx := hw.inv x (by simp)
    have hap := (List.pairwise_cons.mp hw.apart).1
    cases i with
    | zero =>
      simp at hi; subst hi
      have ho := contains_overlaps hx hA hc hlen
      have hs := merge_same (bp := bp) hx hA hc
      have hab := absorb_none (bp := bp) (acc := x.merge bp A) xs (fun q hq => by
        rw [same_overlaps hs]; exact hap q hq)
      unfold idx
      rw [if_pos ho, hab]
      rfl
    | succ i =>
      simp at hi
      have hr := hwx.inv r (List.mem_of_getElem? hi)
      have ho : ¬ x.overlaps A = true := by
        intro ho
        have := overlaps_contains hx hr hA hc ho
        rw [hap r (List.mem_of_getElem? hi)] at this
        simp at this
      unfold idx
      rw [if_neg ho, ih hwx i r hi hc]
      rfl

/-- Accesses in different regions do not alias. -/
theorem same_index {inf : Nat → NodeInfo} {bp : Bool} {regs : List Region} (hw : Wf inf regs) {A B : Access} (hA : A.Fits)
    (hB : B.Fits) {i j : Nat} {a b : Region} (ha : regs[i]? = some a) (hb : regs[j]? = some b)
    (hca : Contains inf bp a (A.region inf bp)) (hcb : Contains inf bp b (B.region inf bp)) (hal : MayAlias inf A B) : i = j := by
  have hia := hw.inv a (List.mem_of_getElem? ha)
  have hib := hw.inv b (List.mem_of_getElem? hb)
  apply Decidable.byContradiction
  intro hij
  have hn : a.overlaps b = false := by
    obtain ⟨hi, rfl⟩ := List.getElem?_eq_some_iff.mp ha
    obtain ⟨hj, rfl⟩ := List.getElem?_eq_some_iff.mp hb
    have hp := List.pairwise_iff_getElem.mp hw.apart
    rcases Nat.lt_or_gt_of_ne hij with hlt | hlt
    · exact hp i j hi hj hlt
    · exact not_overlaps_symm hib hia (hp j i hj hi hlt)
  rw [Bool.eq_false_iff, Ne, overlaps_iff hia hib] at hn
  have iA := region_inv inf bp A hA
  have iB := region_inv inf bp B hB
  have rA := region_range inf bp A hA
  have rB := region_range inf bp B hB
  rcases hal with ⟨x, y⟩ | ⟨x, y⟩ | ⟨he, x⟩
  · exact hn (Or.inl ⟨hca.inc (iA.inc x), hcb.inc (iB.inc y)⟩)
  · exact hn (Or.inr (Or.inl ⟨hca.comp (iA.comp x), hcb.comp (iB.comp y)⟩))
  · rcases node_cases inf A.node with hi | hcm | ⟨hi, hcm⟩
    · exact hn (Or.inl ⟨hca.inc (iA.inc hi), hcb.inc (iB.inc (show nodeIncomplete inf B.node = true from he ▸ hi))⟩)
    · exact hn (Or.inr (Or.inl ⟨hca.comp (iA.comp hcm),
        hcb.comp (iB.comp (show nodeComplicated inf B.node = true from he ▸ hcm))⟩))
    · have ea : a.representative = A.node := hca.rep hi hcm
      have eb : b.representative = B.node := hcb.rep (show nodeIncomplete inf B.node = false from he ▸ hi)
        (show nodeComplicated inf B.node = false from he ▸ hcm)
      refine hn (Or.inr (Or.inr ⟨by rw [ea, eb, he], ?_⟩))
      rcases x with x | ⟨k, k1, k2, k3, k4⟩
      · exact Or.inl (hca.coll (iA.coll x))
      · right
        have := hca.lo; have := hca.hi; have := hcb.lo; have := hcb.hi
        omega

/-- Bytewise regions have no element type. -/
def Plain (r : Region) : Prop := r.bytewise = true → r.type = none

theorem plain_merge (bp : Bool) (x R : Region) : Plain (x.merge bp R) := by
  intro h
  simp only [Region.merge] at h ⊢
  simp [h]

theorem form_untyped {a b : Region} (h : a.untyped = b.untyped) : form a = form b := by
  cases a; cases b
  simp only [Region.untyped, Region.mk.injEq] at h
  simp [form, h]

/-- The table knows the accesses. -/
def Known (inf : Nat → NodeInfo) (bp : Bool) (regs : List Region) (s : List Access) : Prop :=
  ∀ A ∈ s, A.Fits ∧ 0 < A.length ∧ ∃ r ∈ regs, Contains inf bp r (A.region inf bp)

theorem translate_spec (m : Mode) (D : Nat → Node) (s : List Static) : ∀ regs : List Region, Wf (info D) regs →
    Known (info D) m.bitPrecise regs (s.map (describe m D)) →
    (translate m D regs s).2 = Regions.run m.bitPrecise regs ((s.map (describe m D)).map (Access.region (info D) m.bitPrecise)) ∧
    (translate m D regs s).2.map Region.untyped = regs.map Region.untyped ∧
    (∀ (i : Nat) (ρ : Region), regs[i]? = some ρ → Plain ρ → ∀ ρ', (translate m D regs s).2[i]? = some ρ' → Plain ρ') ∧
    (∀ (i : Nat) (ρ X : Region), Inv (info D) X → regs[i]? = some ρ → Contains (info D) m.bitPrecise ρ X → ∀ ρ', (translate m D regs s).2[i]? = some ρ' →
      Contains (info D) m.bitPrecise ρ' X) ∧
    (∀ (k : Nat) (A : Static), s[k]? = some A → ∃ (i : Nat) (ρ : Region), (translate m D regs s).2[i]? = some ρ ∧
      Contains (info D) m.bitPrecise ρ ((describe m D A).region (info D) m.bitPrecise) ∧ Plain ρ ∧
      (translate m D regs s).1[k]? = some ⟨i, form ρ, A.ty⟩) := by
  induction s with
  | nil =>
    intro regs _ _
    refine ⟨rfl, rfl, ?_, ?_, by simp⟩
    · intro i ρ h hp ρ' h'
      have h2 : regs[i]? = some ρ' := h'
      rw [h] at h2; cases h2; exact hp
    · intro i ρ X _ h hp ρ' h'
      have h2 : regs[i]? = some ρ' := h'
      rw [h] at h2; cases h2; exact hp
  | cons A s ih =>
    intro regs hw hk
    obtain ⟨hf, hl, r, hr, hc⟩ := hk _ (List.mem_cons_self (a := describe m D A) (l := s.map (describe m D)))
    obtain ⟨i, hi⟩ := List.getElem?_of_mem hr
    have hA := region_inv (info D) m.bitPrecise _ hf
    have hl' : 0 < ((describe m D A).region (info D) m.bitPrecise).length := by
      rw [(region_range (info D) m.bitPrecise _ hf).2]; exact hl
    have hidx := idx_known (bp := m.bitPrecise) regs _ hA hl' hw i r hi hc
    have hil : i < regs.length := (List.getElem?_eq_some_iff.1 hi).1
    have hw' := (idx_spec (bp := m.bitPrecise) regs _ hA hw).1
    have hcon := (idx_contains (bp := m.bitPrecise) regs _ hA (region_byte (info D) m.bitPrecise _) hw).2
    have hri := hw.inv r hr
    have hsame := untyped_same (merge_same (bp := m.bitPrecise) hri hA hc)
    rw [hidx] at hw' hcon
    have hcm := contains_merge_right (bp := m.bitPrecise) hri hA (contains_overlaps hri hA hc hl')
      (contains_self _ (region_byte (info D) m.bitPrecise _))
    obtain ⟨h1, h2, h3, h4, h5⟩ := ih _ hw' (by
      intro B hB
      obtain ⟨b1, b2, b3⟩ := hk B (List.mem_cons_of_mem _ hB)
      exact ⟨b1, b2, hcon _ (region_inv _ _ _ b1) b3⟩)
    have hget : (regs.set i (r.merge m.bitPrecise ((describe m D A).region (info D) m.bitPrecise)))[i]? =
        some (r.merge m.bitPrecise ((describe m D A).region (info D) m.bitPrecise)) := by
      rw [List.getElem?_set_self hil]
    have htr : translate m D regs (A :: s) =
        (⟨i, form (r.merge m.bitPrecise ((describe m D A).region (info D) m.bitPrecise)), A.ty⟩ ::
          (translate m D (regs.set i (r.merge m.bitPrecise ((describe m D A).region (info D) m.bitPrecise))) s).1,
         (translate m D (regs.set i (r.merge m.bitPrecise ((describe m D A).region (info D) m.bitPrecise))) s).2) := by
      rw [translate, hidx]
      simp only [hget]
    rw [htr]
    have hut : (regs.set i (r.merge m.bitPrecise ((describe m D A).region (info D) m.bitPrecise))).map Region.untyped =
        regs.map Region.untyped := by
      rw [List.map_set, hsame]
      apply List.ext_getElem?
      intro j
      by_cases hj : j = i
      · subst hj
        rw [List.getElem?_set_self (by simpa using hil)]
        simp [hi]
      · rw [List.getElem?_set_ne (Ne.symm hj)]
    refine ⟨?_, ?_, ?_, ?_, ?_⟩
    · show (translate m D _ s).2 = _
      rw [h1]
      simp only [List.map_cons, Regions.run, List.foldl_cons]
      rw [hidx]
    · show (translate m D _ s).2.map _ = _
      rw [h2, hut]
    · intro j ρ hj hp ρ' hρ'
      by_cases hji : j = i
      · subst hji
        exact h3 j _ hget (plain_merge _ _ _) ρ' hρ'
      · exact h3 j ρ (by rw [List.getElem?_set_ne (Ne.symm hji)]; exact hj) hp ρ' hρ'
    · intro j ρ X hX hj hp ρ' hρ'
      by_cases hji : j = i
      · subst hji
        rw [hi] at hj; cases hj
        exact h4 j _ X hX hget (contains_merge_left hri hA hp) ρ' hρ'
      · exact h4 j ρ X hX (by rw [List.getElem?_set_ne (Ne.symm hji)]; exact hj) hp ρ' hρ'
    · intro k B hB
      cases k with
      | zero =>
        simp at hB; subst hB
        have hlen2 : i < (translate m D (regs.set i (r.merge m.bitPrecise ((describe m D A).region (info D) m.bitPrecise))) s).2.length := by
          have := congrArg List.length h2
          simp at this
          omega
        refine ⟨i, _, List.getElem?_eq_getElem hlen2, ?_, ?_, ?_⟩
        · exact h4 i _ _ hA hget hcm _ (List.getElem?_eq_getElem hlen2)
        · exact h3 i _ hget (plain_merge _ _ _) _ (List.getElem?_eq_getElem hlen2)
        · have hu : Region.untyped (translate m D (regs.set i (r.merge m.bitPrecise ((describe m D A).region (info D) m.bitPrecise))) s).2[i] =
              Region.untyped (r.merge m.bitPrecise ((describe m D A).region (info D) m.bitPrecise)) := by
            have := congrArg (fun l => l[i]?) h2
            simp only [List.getElem?_map, List.getElem?_eq_getElem hlen2, hget, Option.map_some] at this
            exact Option.some.inj this
          simp [form_untyped hu]
      | succ k =>
        simp at hB
        obtain ⟨j, ρ, e1, e2, e3, e4⟩ := h5 k B hB
        exact ⟨j, ρ, e1, e2, e3, by simpa using e4⟩

end Smack.MemSplit
