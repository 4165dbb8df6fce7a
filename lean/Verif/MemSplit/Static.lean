import Verif.MemSplit.Lemmas
import Verif.MemSplit.Sim

/-
The statements of a translated module satisfy the conditions of the simulation.
-/

namespace Smack.MemSplit

open Smack.Regions
open Smack.Bytes (PtrRep Spread addr)

theorem ofId_id (t : Ty) : Ty.ofId t.id = t := by
  cases t with
  | int w =>
    have h : Ty.ofId (2 * w) = .int w := by
      unfold Ty.ofId
      rw [if_pos (by omega), show 2 * w / 2 = w from by omega]
    exact h
  | ptr n =>
    have h : Ty.ofId (2 * n + 1) = .ptr n := by
      unfold Ty.ofId
      rw [if_neg (by omega), show (2 * n + 1) / 2 = n from by omega]
    exact h

/-- An access of a type-safe field. -/
def TSafe (D : Nat → Node) (A : Static) : Prop := ∃ n, A.node = some n ∧ TypeSafe.isTypeSafe (D n).toNode A.offset = true

theorem may_incomplete (D : Nat → Node) (n : Option Nat) : mayIncomplete D n = nodeIncomplete (info D) n := by cases n <;> rfl
theorem may_complicated (D : Nat → Node) (n : Option Nat) : mayComplicated D n = nodeComplicated (info D) n := by cases n <;> rfl
theorem may_collapsed (D : Nat → Node) (n : Option Nat) : mayCollapsed D n = nodeCollapsed (info D) n := by cases n <;> rfl

theorem tsafe_node {D : Nat → Node} {h prog : List Static} (hV : Valid D h prog) {A : Static} (hA : TSafe D A) :
    nodeIncomplete (info D) A.node = false ∧ nodeComplicated (info D) A.node = false ∧ nodeCollapsed (info D) A.node = false := by
  obtain ⟨n, hn, ht⟩ := hA
  obtain ⟨p1, p2, p3, p4, p5, p6, _⟩ := (TypeSafe.c44_sound_partial (D n).toNode (hV.fields n) A.offset ht).1
  rw [hn]
  simp only [nodeIncomplete, nodeComplicated, nodeCollapsed, info]
  simp only [p1, p2, p3, p4, p5, p6, Bool.or_false, and_self]

/-- Two accesses of type-safe fields of a node with a common byte are accesses of the same field with the same type. -/
theorem tsafe_same {D : Nat → Node} {h prog : List Static} (hV : Valid D h prog) {A B : Static} (hA : A ∈ h) (hB : B ∈ h)
    (tA : TSafe D A) (tB : TSafe D B) (hn : A.node = B.node) {x : Nat} (h1 : A.offset ≤ x) (h2 : x < A.offset + A.len)
    (h3 : B.offset ≤ x) (h4 : x < B.offset + B.len) : A.offset = B.offset ∧ A.ty = B.ty ∧ A.len = B.len := by
  obtain ⟨n, hn', ht⟩ := tA
  obtain ⟨n2, hn2, ht2⟩ := tB
  have : n2 = n := by rw [hn', hn2] at hn; exact (Option.some.inj hn).symm
  subst this
  obtain ⟨f, hf, hfo, ⟨t, hft⟩, hdis⟩ := (TypeSafe.c44_sound_partial _ (hV.fields n2) A.offset ht).2
  obtain ⟨la, fa, hfa, hfao, hta⟩ := hV.recorded A hA n2 hn' ht
  obtain ⟨lb, fb, hfb, hfbo, htb⟩ := hV.recorded B hB n2 hn2 ht2
  -- the field of an offset is unique
  have uniq : ∀ g ∈ (D n2).fields, ∀ g' ∈ (D n2).fields, g.off = g'.off → g = g' := by
    intro g hg g' hg' he
    apply Decidable.byContradiction
    intro hne
    obtain ⟨i, hi, rfl⟩ := List.getElem_of_mem hg
    obtain ⟨j, hj, rfl⟩ := List.getElem_of_mem hg'
    have hs := List.pairwise_iff_getElem.1 (hV.fields n2).sorted
    rcases Nat.lt_trichotomy i j with hij | hij | hij
    · have := hs i j hi hj hij; omega
    · subst hij; exact hne rfl
    · have := hs j i hj hi hij; omega
  have e1 := uniq f hf fa hfa (by omega)
  subst e1
  by_cases ho : A.offset = B.offset
  · have e2 := uniq f hf fb hfb (by omega)
    subst e2
    rw [hft] at hta htb
    simp at hta htb
    have : A.ty.id = B.ty.id := by
      have := hta.trans htb.symm
      exact congrArg TypeSafe.Ty.id this
    have hty : A.ty = B.ty := by rw [← ofId_id A.ty, ← ofId_id B.ty, this]
    exact ⟨ho, hty, by rw [la, lb, hty]⟩
  · exfalso
    refine hdis fb hfb (by omega) x ⟨⟨_, hta, by omega, ?_⟩, ⟨_, htb, by omega, ?_⟩⟩
    · show x < f.off + A.ty.store; omega
    · show x < fb.off + B.ty.store; omega

/-- What a scalar region looks like. -/
def Q (D : Nat → Node) (h : List Static) (r : Region) : Prop :=
  r.singleton = true → ∃ A ∈ h, TSafe D A ∧ (∀ n, A.node = some n → isSingleton (D n) A.offset = true) ∧
    r.representative = A.node ∧ r.offset = A.offset ∧ r.length = A.len ∧
    r.incomplete = false ∧ r.complicated = false ∧ r.collapsed = false ∧
    (r.type = some A.ty.id ∨ (r.type = none ∧ A.ty = .int 8)) ∧ (r.bytewise = true → A.ty = .int 8)

theorem isSingleton_safe {n : Node} {o : Nat} (h : isSingleton n o = true) : TypeSafe.isTypeSafe n.toNode o = true := by
  unfold isSingleton at h
  simp only [Bool.and_eq_true] at h
  exact h.1.2

theorem q_closed (m : Mode) {D : Nat → Node} {h prog : List Static} (hV : Valid D h prog) :
    Closed (info D) m.bitPrecise (Q D h) where
  merge := by
    intro x R hx hR ho qx qR hs
    have hs' : x.singleton = true ∧ R.singleton = true := by simpa [Region.merge] using hs
    obtain ⟨A, hA, tA, sA, a1, a2, a3, a4, a5, a6, a7, a8⟩ := qx hs'.1
    obtain ⟨B, hB, tB, sB, b1, b2, b3, b4, b5, b6, b7, b8⟩ := qR hs'.2
    rw [overlaps_iff hx hR] at ho
    rw [a4, a5, a6] at ho
    simp at ho
    obtain ⟨hrep, y⟩ := ho
    have hnode : A.node = B.node := by rw [← a1, ← b1, hrep]
    have pa := hV.positive A hA
    have pb := hV.positive B hB
    obtain ⟨c1, c2, c3⟩ := tsafe_same hV hA hB tA tB hnode (x := max A.offset B.offset)
      (by omega) (by omega) (by omega) (by omega)
    have hm := merge_range (bp := m.bitPrecise) hx.fits hR.fits
    refine ⟨A, hA, tA, sA, a1, by omega, by omega, by simp [Region.merge, a4, b4], by simp [Region.merge, a5, b5],
      by simp [Region.merge, a6, b6], ?_, ?_⟩
    · simp only [Region.merge]
      by_cases ht : A.ty = .int 8
      · by_cases hc : (m.bitPrecise && (x.bytewise || R.bytewise || x.type != R.type) || x.type != R.type) = true
        · rw [if_pos hc]; exact Or.inr ⟨rfl, ht⟩
        · rw [if_neg hc]; exact a7
      · have ax : x.type = some A.ty.id := a7.resolve_right fun h => ht h.2
        have bx : R.type = some A.ty.id := by rw [c2]; exact b7.resolve_right fun h => ht (c2 ▸ h.2)
        have ab : x.bytewise = false := by
          cases hb : x.bytewise
          · rfl
          · exact absurd (a8 hb) ht
        have bb : R.bytewise = false := by
          cases hb : R.bytewise
          · rfl
          · exact absurd (c2 ▸ b8 hb) ht
        rw [ax, bx, ab, bb]
        simp
    · intro hb
      by_cases ht : A.ty = .int 8
      · exact ht
      · exfalso
        have ax : x.type = some A.ty.id := a7.resolve_right fun h => ht h.2
        have bx : R.type = some A.ty.id := by rw [c2]; exact b7.resolve_right fun h => ht (c2 ▸ h.2)
        simp only [Region.merge, ax, bx] at hb
        simp at hb
        rcases hb.2 with h | h
        · exact ht (a8 h)
        · exact ht (c2 ▸ b8 h)

theorem q_init (m : Mode) {D : Nat → Node} {h prog : List Static} (hV : Valid D h prog) (hns : NoScalars m D h) {A : Static}
    (hA : A ∈ h) : Q D h ((describe m D A).region (info D) m.bitPrecise) := by
  intro hs
  have hf : (describe m D A).Fits := hV.fits A hA
  obtain ⟨r1, r2⟩ := region_range (info D) m.bitPrecise _ hf
  have hs2 : (A.node.isSome && (describe m D A).singleton) = true := hs
  rw [Bool.and_eq_true] at hs2
  obtain ⟨n, hn⟩ := Option.isSome_iff_exists.1 hs2.1
  have hsg : isSingleton (D n) A.offset = true := by
    have := hs2.2
    simp only [describe, hn] at this
    exact this
  have tA : TSafe D A := ⟨n, hn, isSingleton_safe hsg⟩
  obtain ⟨n1, n2, n3⟩ := tsafe_node hV tA
  refine ⟨A, hA, tA, ?_, rfl, r1, r2, ?_, ?_, ?_, Or.inl rfl, ?_⟩
  · intro n' hn'; rw [hn] at hn'; cases hn'; exact hsg
  · rw [hn] at n1
    simp only [Access.region, initRegion, describe, hn]; exact n1
  · rw [hn] at n2
    simp only [Access.region, initRegion, describe, hn]; exact n2
  · rw [hn] at n3
    simp only [Access.region, initRegion, describe, hn]; exact n3
  · intro hb
    simp only [Access.region, initRegion, describe, hn, isSingleton_safe hsg] at hb
    simp at hb
    rcases hb.2 with h | h
    · have := hns hb.1 h A hA
      rw [hs2.2] at this
      cases this
    · exact h

/-- What is known of an access and its statement. -/
structure Fact (m : Mode) (D : Nat → Node) (h : List Static) (final : List Region) (A : Static) (st : Stmt) (ρ : Region) : Prop where
  mem : A ∈ h
  reg : final[st.region]? = some ρ
  con : Contains (info D) m.bitPrecise ρ ((describe m D A).region (info D) m.bitPrecise)
  plain : Plain ρ
  inv : Inv (info D) ρ
  q : Q D h ρ
  form : st.form = form ρ
  ty : st.ty = A.ty

theorem facts (m : Mode) {D : Nat → Node} {h prog : List Static} (hV : Valid D h prog) (hns : NoScalars m D h) :
    Wf (info D) (translate m D (table m D h) prog).2 ∧
    ∀ (k : Nat) (A : Static), prog[k]? = some A → ∃ st ρ, (translate m D (table m D h) prog).1[k]? = some st ∧
      Fact m D h (translate m D (table m D h) prog).2 A st ρ := by
  have hfit : ∀ B ∈ h.map (describe m D), B.Fits := by
    intro B hB
    obtain ⟨A, hA, rfl⟩ := List.mem_map.1 hB
    exact hV.fits A hA
  obtain ⟨hw, hc⟩ := collect_spec (info D) m.bitPrecise (h.map (describe m D)) hfit
  have hk : Known (info D) m.bitPrecise (table m D h) (prog.map (describe m D)) := by
    intro B hB
    obtain ⟨A, hA, rfl⟩ := List.mem_map.1 hB
    have hm := hV.seen A hA
    exact ⟨hV.fits A hm, hV.positive A hm, hc _ (List.mem_map_of_mem hm)⟩
  obtain ⟨h1, _, _, _, h5⟩ := translate_spec m D prog _ hw hk
  have hfit2 : ∀ B ∈ (h ++ prog).map (describe m D), B.Fits := by
    intro B hB
    obtain ⟨A, hA, rfl⟩ := List.mem_map.1 hB
    rcases List.mem_append.1 hA with hA | hA
    · exact hV.fits A hA
    · exact hV.fits A (hV.seen A hA)
  have happ : (translate m D (table m D h) prog).2 = collect (info D) m.bitPrecise ((h ++ prog).map (describe m D)) := by
    refine h1.trans ?_
    simp only [collect, Regions.run, List.map_append, List.foldl_append]
  have hw2 := (collect_spec (info D) m.bitPrecise _ hfit2).1
  have hq := collect_all (q_closed m hV) ((h ++ prog).map (describe m D)) hfit2 (by
    intro B hB
    obtain ⟨A, hA, rfl⟩ := List.mem_map.1 hB
    rcases List.mem_append.1 hA with hA | hA
    · exact q_init m hV hns hA
    · exact q_init m hV hns (hV.seen A hA))
  rw [← happ] at hw2 hq
  refine ⟨hw2, ?_⟩
  intro k A hA
  obtain ⟨i, ρ, g1, g2, g3, g4⟩ := h5 k A hA
  have hmem := List.mem_of_getElem? g1
  exact ⟨⟨i, form ρ, A.ty⟩, ρ, g4, hV.seen A (List.mem_of_getElem? hA), g1, g2, g3, hw2.inv ρ hmem, hq ρ hmem, rfl, rfl⟩

/-- The region contains an access of a type-safe field, so it is a region of the node of the access. -/
theorem fact_scalar {m : Mode} {D : Nat → Node} {h prog : List Static} (hV : Valid D h prog) {final : List Region} {A : Static}
    {st : Stmt} {ρ : Region} (hf : Fact m D h final A st ρ) (hs : ρ.singleton = true) :
    TSafe D A ∧ A.node = ρ.representative ∧ (∃ n, A.node = some n ∧ isSingleton (D n) A.offset = true) ∧
    ρ.offset = A.offset ∧ ρ.length = A.len ∧
    (ρ.type = some A.ty.id ∨ (ρ.type = none ∧ A.ty = .int 8)) := by
  have hfit : (describe m D A).Fits := hV.fits A hf.mem
  obtain ⟨r1, r2⟩ := region_range (info D) m.bitPrecise _ hfit
  have hs1 : (A.node.isSome && (describe m D A).singleton) = true := hf.con.sing hs
  rw [Bool.and_eq_true] at hs1
  obtain ⟨n, hn⟩ := Option.isSome_iff_exists.1 hs1.1
  have hsg : isSingleton (D n) A.offset = true := by
    have := hs1.2
    simp only [describe, hn] at this
    exact this
  have tA : TSafe D A := ⟨n, hn, isSingleton_safe hsg⟩
  obtain ⟨n1, n2, n3⟩ := tsafe_node hV tA
  obtain ⟨B, hB, tB, sB, b1, b2, b3, b4, b5, b6, b7, b8⟩ := hf.q hs
  have hrep : ρ.representative = A.node := hf.con.rep n1 n2
  have pa := hV.positive A hf.mem
  have hlo := hf.con.lo
  have hhi := hf.con.hi
  rw [r1] at hlo
  rw [r1, r2] at hhi
  have hlo' : ρ.offset ≤ A.offset := hlo
  have hhi' : A.offset + A.len ≤ ρ.offset + ρ.length := hhi
  obtain ⟨c1, c2, c3⟩ := tsafe_same hV hf.mem hB tA tB (hrep.symm.trans b1) (x := A.offset) (by omega) (by omega) (by omega) (by omega)
  refine ⟨tA, hrep.symm, ⟨n, hn, hsg⟩, by omega, by omega, ?_⟩
  rw [c2]; exact b7

theorem memType_elem {m : Mode} {ρ : Region} {A : Static}
    (h : ρ.type = some A.ty.id ∨ (ρ.type = none ∧ A.ty = .int 8)) : (memType m ρ).elem = bty m A.ty := by
  unfold memType
  rcases h with h | ⟨h, h'⟩
  · rw [h]; simp only [ofId_id]
  · rw [h, h']

theorem bty_int {m : Mode} (h1 : m.bitPrecise = false) (h2 : m.bvPointers = false) (t : Ty) : bty m t = .int := by
  cases t <;> simp [bty, h1, h2]

theorem fact_decl {m : Mode} {D : Nat → Node} {h prog : List Static} (hV : Valid D h prog) (hns : NoScalars m D h)
    (hcov : Covered m D prog) {final : List Region} {A : Static} {st : Stmt} {ρ : Region} (hf : Fact m D h final A st ρ) :
    memType m ρ = declFor m st := by
  unfold declFor
  rw [hf.form, hf.ty]
  by_cases hs : ρ.singleton = true
  · have hfm : form ρ = .scalar := by simp [form, hs]
    rw [hfm]
    obtain ⟨_, _, ⟨n, hn, hsg⟩, _, _, ht⟩ := fact_scalar hV hf hs
    have he := memType_elem (m := m) ht
    have hi : (memType m ρ).isMap = false := by
      simp only [memType, hs]
      cases hb : m.bitPrecise
      · rfl
      · cases hni : m.noInference
        · rfl
        · have := hns hb hni A hf.mem
          simp only [describe, hn] at this
          rw [hsg] at this; cases this
    cases hmt : memType m ρ with
    | mk a b => rw [hmt] at he hi; simp only at he hi; rw [he, hi]
  · have hs' : ρ.singleton = false := by simpa using hs
    have hi : (memType m ρ).isMap = true := by simp [memType, hs']
    by_cases hb : ρ.bytewise = true
    · have hfm : form ρ = .bytes := by simp [form, hs', hb]
      rw [hfm]
      have hbp := hf.con.bpb hb
      have he : (memType m ρ).elem = .bv 8 := by
        simp only [memType, hf.plain hb, bty, hbp, if_true]
      cases hmt : memType m ρ with
      | mk a b => rw [hmt] at he hi; simp only at he hi; rw [he, hi]
    · have hfm : form ρ = .elem := by simp [form, hs', hb]
      rw [hfm]
      have he : (memType m ρ).elem = bty m A.ty := by
        cases hbp : m.bitPrecise with
        | true =>
          apply memType_elem
          left
          apply Decidable.byContradiction
          intro ht
          exact hb (hf.con.type hbp ht)
        | false =>
          have hbv : m.bvPointers = false := by
            rcases hcov with h | h
            · rw [hbp] at h; cases h
            · exact h.1
          rw [bty_int hbp hbv]
          simp only [memType]
          split
          · exact bty_int hbp hbv _
          · exact bty_int hbp hbv _
      cases hmt : memType m ρ with
      | mk a b => rw [hmt] at he hi; simp only at he hi; rw [he, hi]

/-- An access by elements is an access of a type-safe field. -/
theorem fact_elem {m : Mode} {D : Nat → Node} {h prog : List Static} (hcov : Covered m D prog) {final : List Region} {A : Static}
    (hA : A ∈ prog) {st : Stmt} {ρ : Region} (hf : Fact m D h final A st ρ) (he : st.form = .elem) : TSafe D A := by
  rcases hcov with hbp | ⟨_, hall⟩
  · have hb : ρ.bytewise = false := by
      rw [hf.form] at he
      unfold form at he
      cases hb : ρ.bytewise
      · rfl
      · rw [hb] at he
        cases hs : ρ.singleton <;> rw [hs] at he <;> simp at he
    have hnb : ((describe m D A).region (info D) m.bitPrecise).bytewise = false := by
      cases hx : ((describe m D A).region (info D) m.bitPrecise).bytewise
      · rfl
      · have := hf.con.byte hbp hx
        rw [hb] at this; cases this
    have hnb2 : (m.bitPrecise && (describe m D A).bytewise) = false := hnb
    rw [hbp] at hnb2
    cases hn : A.node with
    | none => simp [describe, hn] at hnb2
    | some n =>
      refine ⟨n, hn, ?_⟩
      simp [describe, hn] at hnb2
      exact hnb2.1.2
  · exact hall A hA

theorem layout {m : Mode} {P : PtrRep} (hP : Laws P) {D : Nat → Node} {h prog : List Static} {tr : List (Event P)}
    (hV : Valid D h prog) (hns : NoScalars m D h) (hcov : Covered m D prog) (hS : Sound D prog tr) (hT : Typed m prog tr) :
    Layout m prog (translate m D (table m D h) prog).1 ((translate m D (table m D h) prog).2.map (memType m)) tr := by
  obtain ⟨hw, hfacts⟩ := facts m hV hns
  -- the facts behind an access
  have get : ∀ e s, Ev m prog (translate m D (table m D h) prog).1 ((translate m D (table m D h) prog).2.map (memType m)) (P := P) e s →
      ∃ A ρ, prog[e.stmt]? = some A ∧ A ∈ prog ∧ Fact m D h (translate m D (table m D h) prog).2 A s ρ := by
    intro e s hs
    obtain ⟨A, hA, _⟩ := hs.typed
    obtain ⟨st, ρ, h1, hf⟩ := hfacts _ A hA
    have : st = s := Option.some.inj (h1.symm.trans hs.stmt)
    subst this
    exact ⟨A, ρ, hA, List.mem_of_getElem? hA, hf⟩
  have same : ∀ {A B : Static} {s t : Stmt} {ρ ρ' : Region}, Fact m D h (translate m D (table m D h) prog).2 A s ρ →
      Fact m D h (translate m D (table m D h) prog).2 B t ρ' → s.region = t.region → ρ = ρ' := by
    intro A B s t ρ ρ' ha hb hr
    have := ha.reg
    rw [hr, hb.reg] at this
    exact (Option.some.inj this).symm
  constructor
  · intro e he
    obtain ⟨A, hA, _⟩ := hT e he
    obtain ⟨st, ρ, h1, hf⟩ := hfacts _ A hA
    have hmem := List.mem_of_getElem? hA
    have hsz := hV.size A hmem
    have hpos := hV.positive A hf.mem
    have hfit := hV.fits A hf.mem
    refine ⟨st, ⟨A, hA, hf.ty.symm⟩, h1, ?_, ?_, ?_, ?_⟩
    · rw [List.getElem?_map, hf.reg]
      simp [fact_decl hV hns hcov hf]
    · intro hb
      rw [hf.form] at hb
      unfold form at hb
      apply hf.con.bpb
      cases hx : ρ.bytewise
      · rw [hx] at hb
        cases hs : ρ.singleton <;> rw [hs] at hb <;> simp at hb
      · rfl
    · rw [hf.ty]
      refine ⟨?_, hV.width A hmem⟩
      rw [hsz] at hpos
      unfold Ty.store at hpos
      omega
    · rw [hf.ty, ← hsz]
      omega
  · intro e he f hf s t hs ht hr
    obtain ⟨A, ρ, hA, hAm, fa⟩ := get e s hs
    obtain ⟨B, ρ', hB, hBm, fb⟩ := get f t ht
    have := same fa fb hr
    rw [fa.form, fb.form, this]
  · intro e he f hf s t hs ht hr hform
    obtain ⟨A, ρ, hA, hAm, fa⟩ := get e s hs
    obtain ⟨B, ρ', hB, hBm, fb⟩ := get f t ht
    have hρ := same fa fb hr
    subst hρ
    have hsing : ρ.singleton = true := by
      have := fa.form
      rw [hform] at this
      unfold form at this
      cases hs : ρ.singleton
      · rw [hs] at this
        cases hb : ρ.bytewise <;> rw [hb] at this <;> simp at this
      · rfl
    obtain ⟨tA, a1, ⟨n, hn, hsg⟩, a3, a4, a5⟩ := fact_scalar hV fa hsing
    obtain ⟨tB, b1, ⟨n', hn', hsg'⟩, b3, b4, b5⟩ := fact_scalar hV fb hsing
    have hnn : A.node = B.node := a1.trans b1.symm
    have hn2 : B.node = some n := by rw [← hnn]; exact hn
    have hpos := hV.positive A fa.mem
    obtain ⟨c1, c2, c3⟩ := tsafe_same hV fa.mem fb.mem tA tB hnn (x := A.offset) (by omega) (by omega) (by omega) (by omega)
    unfold isSingleton at hsg
    simp only [Bool.and_eq_true, Bool.not_eq_true', Bool.or_eq_false_iff, beq_iff_eq] at hsg
    refine ⟨hS.global e he f hf A B hA hB n hn hn2 c1 hsg.1.1.1.1.1 hsg.1.1.1.1.2 hsg.1.1.2 hsg.1.1.1.2, ?_⟩
    rw [fa.ty, fb.ty, c2]
  · intro e he f hf s t hs ht hr hform ⟨i, j, hi, hj, hij⟩
    obtain ⟨A, ρ, hA, hAm, fa⟩ := get e s hs
    obtain ⟨B, ρ', hB, hBm, fb⟩ := get f t ht
    have hρ := same fa fb hr
    subst hρ
    have tA := fact_elem hcov hAm fa hform
    have tB := fact_elem hcov hBm fb (fb.form.trans (fa.form.symm.trans hform))
    rw [fa.ty, ← hV.size A hAm] at hi
    rw [fb.ty, ← hV.size B hBm] at hj
    obtain ⟨n1, n2, n3⟩ := tsafe_node hV tA
    have halias := hS.alias e he f hf A B hA hB i j hi hj hij
    simp only [may_incomplete, may_complicated, may_collapsed] at halias
    rcases halias with x | x | ⟨x, y⟩
    · rw [n1] at x; cases x.1
    · rw [n2] at x; cases x.1
    · rw [n3] at y
      have y' : A.offset + i = B.offset + j := by simpa using y
      obtain ⟨c1, c2, c3⟩ := tsafe_same hV fa.mem fb.mem tA tB x (x := A.offset + i) (by omega) (by omega) (by omega) (by omega)
      have : i = j := by omega
      subst this
      exact ⟨hP.cancel _ _ _ hij, by rw [fa.ty, fb.ty, c2]⟩
  · intro e he f hf s t hs ht ⟨i, j, hi, hj, hij⟩
    obtain ⟨A, ρ, hA, hAm, fa⟩ := get e s hs
    obtain ⟨B, ρ', hB, hBm, fb⟩ := get f t ht
    rw [fa.ty, ← hV.size A hAm] at hi
    rw [fb.ty, ← hV.size B hBm] at hj
    refine same_index hw (A := describe m D A) (B := describe m D B) (hV.fits A fa.mem) (hV.fits B fb.mem) fa.reg fb.reg fa.con fb.con ?_
    have halias := hS.alias e he f hf A B hA hB i j hi hj hij
    simp only [may_incomplete, may_complicated, may_collapsed] at halias
    rcases halias with x | x | ⟨x, y⟩
    · exact Or.inl x
    · exact Or.inr (Or.inl x)
    · refine Or.inr (Or.inr ⟨x, ?_⟩)
      rcases y with y | y
      · exact Or.inl y
      · refine Or.inr ⟨A.offset + i, ?_, ?_, ?_, ?_⟩
        · show A.offset ≤ _; omega
        · show _ < A.offset + A.len; omega
        · show B.offset ≤ _; omega
        · show _ < B.offset + B.len; omega

end Smack.MemSplit
