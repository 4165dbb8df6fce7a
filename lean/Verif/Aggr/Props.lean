import Verif.Aggr.Insert
import Verif.Aggr.Ev
import Verif.Aggr.Memory

/-
C35: insertvalue and extractvalue in Boogie; C36: SimplifyEV; C37: SimplifyIV; C38: SplitAggregateValue;
C39: CodifyStaticInits.
-/

namespace Smack.Aggr

variable {B D : Type}

/-- The equations assumed for `res = insertvalue old, ins, p` on type `t`. -/
def Assumed (ext : String → D → Nat → D) (t : Ty) (p : Path) (res old ins : D) : Prop :=
  ∀ e ∈ genInsert t p .res .old, e.1.eval ext res old ins = e.2.eval ext res old ins

/-- C35, values. For every interpretation of the `$extractvalue` functions, every type and every path: if `old`
represents `v`, `ins` represents `w` and the assumptions hold, then `res` represents exactly LLVM's
`insertvalue v, w, p`; that value has `w` at `p` and is unchanged at every path that is not comparable with `p`. -/
theorem c35_insert (ext : String → D → Nat → D) (t t' : Ty) (p : Path) (off : Nat) (res old ins : D) (v w : V D)
    (hp : t.at? p = some (off, t')) (hv : Rep ext t old v) (hw : Rep ext t' ins w)
    (h : Assumed ext t p res old ins) :
    ∃ v', v.set p w = some v' ∧ Rep ext t res v' ∧ (∀ v'', Rep ext t res v'' → v'' = v') ∧
      v'.get p = some w ∧ ∀ q, Incomparable q p → v'.get q = v.get q := by
  obtain ⟨v', hs, hr⟩ := insert_rep p hp hv hw ((genInsert_holds ext res old ins p t .res .old).1 h)
  exact ⟨v', hs, hr, fun v'' h'' => h''.unique hr, set_get_same hs, fun q hq => set_get_incomparable hq hs⟩

/-- C35, existence. When every tuple of element values is the tuple of some aggregate (`Rich`), the assumptions can be
met for every aggregate, path and inserted value: they never block the execution. -/
theorem c35_exists (ext : String → D → Nat → D) (hrich : Rich ext) (t t' : Ty) (p : Path) (off : Nat) (old ins : D)
    (hp : t.at? p = some (off, t')) : ∃ res, Assumed ext t p res old ins := by
  obtain ⟨r, hr⟩ := exists_holds hrich ins p old hp
  exact ⟨r, (genInsert_holds ext r old ins p t .res .old).2 hr⟩

/-- Rich interpretations exist over the integers, the sort of `ref` in the integer encodings. -/
theorem c35_int_rich : ∃ ext : String → Int → Nat → Int, Rich ext := ⟨intExt, intExt_rich⟩

/-- With bit-vector pointers the sort of aggregates is finite: for every interpretation of `$extractvalue`, some
`insertvalue` into a struct of two pointers has no result, so the assumption blocks that execution. -/
theorem c35_finite_fails (w : Nat) (hw : 1 ≤ w) (ext : String → BitVec w → Nat → BitVec w) (k k0 k1 o0 o1 : Nat) :
    ∃ old ins i, i < 2 ∧ ∀ res, ¬ Assumed ext
      (.struct k (.cons o0 (.scalar "ref" k0) (.cons o1 (.scalar "ref" k1) .nil))) [i] res old ins := by
  obtain ⟨⟨x, y⟩, hy⟩ := no_surjection w hw fun r => (ext "ref" r 0, ext "ref" r 1)
  apply Classical.byContradiction
  intro hcon
  let t : Ty := .struct k (.cons o0 (.scalar "ref" k0) (.cons o1 (.scalar "ref" k1) .nil))
  have hall : ∀ old ins i, i < 2 → ∃ res, Assumed ext t [i] res old ins := by
    intro old ins i hi
    apply Classical.byContradiction
    intro h
    exact hcon ⟨old, ins, i, hi, fun res hres => h ⟨res, hres⟩⟩
  obtain ⟨r1, h1⟩ := hall 0 x 0 (by omega)
  obtain ⟨r2, h2⟩ := hall r1 y 1 (by omega)
  have e1 := (genInsert_holds ext r1 0 x [0] t .res .old).1 h1
  have e2 := (genInsert_holds ext r2 r1 y [1] t .res .old).1 h2
  have a1 : ext "ref" r1 0 = x := e1.2
  have a2 : ext "ref" r2 1 = y := e2.2
  have a3 : ext "ref" r2 0 = ext "ref" r1 0 := e2.1 0 (by show 0 < 1 + 1; omega) (by omega)
  exact hy r2 (by rw [a3, a1, a2])

/-- C35, `extractvalue`: the generated expression has the value of LLVM's `extractvalue`. -/
theorem c35_extract (ext : String → D → Nat → D) (t t' : Ty) (p : Path) (off : Nat) (agg : D) (v : V D)
    (hp : t.at? p = some (off, t')) (hv : Rep ext t agg v) :
    ∃ w, v.get p = some w ∧ Rep ext t' ((genExtract t p .old).eval ext agg agg agg) w :=
  extract_rep p .old hp hv

/-- `{ i32, [2 x i16], ref }`. -/
def exTy : Ty :=
  .struct 16 (.cons 0 (.scalar "i32" 4) (.cons 4 (.array 2 2 (.scalar "i16" 2)) (.cons 8 (.scalar "ref" 8) .nil)))

example : genInsert exTy [1, 0] .res .old =
    [(.ext "i32" .res 0, .ext "i32" .old 0), (.ext "ref" .res 2, .ext "ref" .old 2),
     (.ext "i16" (.ext "ref" .res 1) 1, .ext "i16" (.ext "ref" .old 1) 1),
     (.ext "i16" (.ext "ref" .res 1) 0, .ins)] := by decide
example : exTy.at? [1, 1] = some (6, .scalar "i16" 2) := by decide

/-- C36. One SimplifyEV step: the replacement has the type of the replaced `extractvalue` and exactly the same possible
values, for every operand, path, memory and choice of `undef`. -/
theorem c36_step (ρ : EvEnv B) (agg e : Ex (List B)) (p : Path) (t : Ty) (ht : ExTy ρ (.extract agg p) t)
    (h : simplifyEV agg p = some e) : ExTy ρ e t ∧ ∀ v, Eval ρ e v ↔ Eval ρ (.extract agg p) v :=
  rule_sound ρ ht h

/-- C36 for the whole pass: any number of steps anywhere in an expression. -/
theorem c36_pass (ρ : EvEnv B) (e f : Ex (List B)) (h : Rw e f) (t : Ty) (ht : ExTy ρ e t) :
    ExTy ρ f t ∧ ∀ v, Eval ρ f v ↔ Eval ρ e v := rw_sound ρ h ht

/-- A typed expression has a value, so the equivalences above are not vacuous. -/
theorem c36_total (ρ : EvEnv B) (e : Ex (List B)) (t : Ty) (ht : ExTy ρ e t) : ∃ v, Eval ρ e v :=
  (eval_typed ρ ht).2

example : Rw (B := Nat) (.extract (.insert (.insert (.undef exTy) (.other 0) [0]) (.other 1) [2]) [0]) (.other 0) :=
  .trans _ _ _ (.rule _ _ (.extract (.insert (.undef exTy) (.other 0) [0]) [0]) rfl) (.rule _ _ _ rfl)

/-- C37, what holds: for a chain that starts from `undef` and inserts at pairwise incomparable paths, the field stores
leave the memory that the original store leaves, for some value of the `undef` base. Missing (and false, see below):
chains with repeated or nested paths, and other bases. -/
theorem c37_undef_partial (t : Ty) (hwf : WF t) (a : Nat) (c : Chain (List B)) (hc : ChainOk t c) (m : Mem B) :
    ∃ l, ivStores t a c = some l ∧ (∃ m', ExecStores m l m') ∧ ∀ m', ExecStores m l m' →
      ∃ u v, HasTy u t ∧ chainVal u c = some v ∧ Stored m a t v m' := by
  obtain ⟨l, hl⟩ := ivStores_some a c hc.2
  exact ⟨l, hl, execStores_exists hwf a c hc.2 l hl m, fun m' he => iv_sound hwf a c hc l m m' hl he⟩

/-- If the chain also covers every leaf, any base gives the same memory: the base does not matter. -/
theorem c37_complete_partial (t : Ty) (hwf : WF t) (a : Nat) (c : Chain (List B)) (hc : ChainOk t c)
    (hall : ∀ q o n k, t.at? q = some (o, .scalar n k) → ∃ x ∈ c, x.1 <+: q)
    (m m' : Mem B) (l : List (Nat × Ty × V (List B))) (hl : ivStores t a c = some l) (he : ExecStores m l m')
    (u : V (List B)) (hu : HasTy u t) : ∃ v, chainVal u c = some v ∧ Stored m a t v m' := by
  obtain ⟨u', v', hu', hc', hs⟩ := iv_sound hwf a c hc l m m' hl he
  obtain ⟨v, hcv, hv, hin, _⟩ := chainVal_spec hu c hc
  obtain ⟨v2, hcv', hv', hin', _⟩ := chainVal_spec hu' c hc
  rw [hc'] at hcv'
  cases hcv'
  have : v = v' := by
    apply hv.ext hv'
    intro p o n k hp
    obtain ⟨x, hx, r, rfl⟩ := hall p o n k hp
    rw [hin x hx r, hin' x hx r]
  exact ⟨v, hcv, this ▸ hs⟩

/-- C37 fails for repeated indices: inserting `w` and then `w'` at the same scalar field stores `w'` first and `w` last,
so the overwritten value stays in memory, for every base. -/
theorem c37_repeated_fails (t : Ty) (a : Nat) (p : Path) (o : Nat) (n : String) (k : Nat)
    (hp : t.at? p = some (o, .scalar n k)) (w w' : List B) (hw : w.length = k) (hw' : w'.length = k) (hne : w ≠ w')
    (u : V (List B)) (hu : HasTy u t) (m m' : Mem B) (l : List (Nat × Ty × V (List B)))
    (hl : ivStores t a [(p, .leaf w'), (p, .leaf w)] = some l) (he : ExecStores m l m') :
    ∃ v, chainVal u [(p, .leaf w'), (p, .leaf w)] = some v ∧ ¬ Stored m a t v m' ∧
      ∀ (i : Nat) b, w[i]? = some b → m' (a + o + i) = b := by
  obtain ⟨v1, hs1, hv1⟩ := hu.set hp (HasTy.scalar w n k hw)
  obtain ⟨v2, hs2, hv2⟩ := hv1.set hp (HasTy.scalar w' n k hw')
  have hmem : ∀ (i : Nat) b, w[i]? = some b → m' (a + o + i) = b := by
    obtain ⟨l1, h1, rfl⟩ := ivStores_cons hp hl
    obtain ⟨l2, h2, rfl⟩ := ivStores_cons hp h1
    cases h2
    cases he with
    | cons _ m1 _ _ _ _ _ _ hr =>
      cases hr with
      | cons _ m2 _ _ _ _ _ hst hr =>
        cases hr
        intro i b hb
        exact hst.1 i b ⟨[], 0, n, k, w, i, rfl, rfl, by omega, hb⟩
  refine ⟨v2, by simp only [chainVal, hs1, hs2], ?_, hmem⟩
  intro hst
  apply hne
  apply List.ext_getElem?
  intro i
  rcases Nat.lt_or_ge i k with hi | hi
  · have h1 : w[i]? = some (w[i]'(by omega)) := List.getElem?_eq_getElem (by omega)
    have h2 : w'[i]? = some (w'[i]'(by omega)) := List.getElem?_eq_getElem (by omega)
    have e1 := hmem i _ h1
    have e2 := hst.1 (o + i) _ ⟨p, o, n, k, w', i, hp, set_get_same hs2, rfl, h2⟩
    rw [← Nat.add_assoc, e1] at e2
    rw [h1, h2, e2]
  · rw [List.getElem?_eq_none (by omega), List.getElem?_eq_none (by omega)]

/-- C37 fails for a base other than `undef`: a byte of the base outside the inserted field is not stored, so memory is
wrong whenever it did not hold that byte before. -/
theorem c37_base_fails (t : Ty) (hwf : WF t) (a : Nat) (p q : Path) (o o' : Nat) (n : String) (k : Nat) (t' : Ty)
    (hp : t.at? p = some (o, t')) (hq : t.at? q = some (o', .scalar n k)) (hpq : ¬ p <+: q)
    (u w : V (List B)) (hu : HasTy u t) (hw : HasTy w t') (bs : List B) (hub : u.get q = some (.leaf bs)) (i : Nat) (b : B)
    (hb : bs[i]? = some b) (m m' : Mem B) (hm : m (a + (o' + i)) ≠ b) (l : List (Nat × Ty × V (List B)))
    (hl : ivStores t a [(p, w)] = some l) (he : ExecStores m l m') :
    ∃ v, chainVal u [(p, w)] = some v ∧ ¬ Stored m a t v m' := by
  obtain ⟨v, hs, hv⟩ := hu.set hp hw
  refine ⟨v, by simp only [chainVal, hs], ?_⟩
  intro hst
  have hinc := incomparable_of_not_prefix hq hp hpq
  have e1 := hst.1 (o' + i) b ⟨q, o', n, k, bs, i, hq, (set_get_incomparable hinc hs).trans hub, rfl, hb⟩
  obtain ⟨l1, h1, rfl⟩ := ivStores_cons hp hl
  cases h1
  cases he with
  | cons _ m1 _ _ _ _ _ hst' hr =>
    cases hr
    have e2 := hst'.2 (a + (o' + i)) (by
      intro off b' hb'
      have h1 := hb'.bound (hwf.sub hp) hw
      have h2 := hwf.disjoint hinc hq hp
      have h3 := leaf_len hu hq hub
      have h4 := lt_of_getElem? hb
      simp only [size_scalar] at h2
      omega)
    exact hm (e2 ▸ e1)

/-- The hypotheses are met by inserting 7 and then 5 into field 0 of `{ i8, i8 }`: 7 ends up in memory; and by inserting
into field 0 of a base whose field 1 is 3. -/
def exPair : Ty := .struct 2 (.cons 0 (.scalar "i8" 1) (.cons 1 (.scalar "i8" 1) .nil))
example : chainVal (.node [.leaf [0], .leaf [0]]) [([0], V.leaf [5]), ([0], .leaf [7])] =
    some (.node [.leaf [5], .leaf [0]]) := rfl
example : ivStores exPair 10 [([0], V.leaf [5]), ([0], .leaf [7])] =
    some [(10, .scalar "i8" 1, .leaf [5]), (10, .scalar "i8" 1, .leaf [7])] := rfl
example : ivStores exPair 10 [([0], V.leaf [5])] = some [(10, .scalar "i8" 1, .leaf [5])] := rfl
example : exPair.at? [1] = some (1, .scalar "i8" 1) := by decide

/-- C38, loads. The split load produces exactly the value in memory, whatever `undef` value the insertions start
from. -/
theorem c38_load (t : Ty) (ha : t.isAgg = true) (m : Mem B) (a : Nat) (u v : V (List B)) (hu : HasTy u t) :
    splitLoad m t a u = some v ↔ Loaded m a t v := by
  obtain ⟨v', h1, h2⟩ := splitLoad_spec ha m a u hu
  constructor
  · intro h; rw [h1] at h; cases h; exact h2
  · intro h; rw [h1, h.unique h2]

/-- C38, stores. The split store leaves exactly the memory of the aggregate store, for constant and for computed
values. -/
theorem c38_store (t : Ty) (ha : t.isAgg = true) (hwf : WF t) (m m' : Mem B) (a : Nat) (v : V (List B)) (hv : HasTy v t)
    (isConst : Bool) : splitStore m t a v isConst = some m' ↔ Stored m a t v m' := by
  obtain ⟨m1, h1, h2⟩ := splitStore_spec ha hwf hv m a isConst
  constructor
  · intro h; rw [h1] at h; cases h; exact h2
  · intro h; rw [h1, h.unique h2]

/-- C38, each leaf exactly once and at its own offset: the visited paths (after the leading zero) are exactly the
paths of scalars, without repetition, and the address computation yields the leaf's offset. -/
theorem c38_leaves {α : Type} (t : Ty) (ha : t.isAgg = true) (base : Option (V α)) :
    ((visit base [] t).map (·.1)).Nodup ∧
    ∀ π, π ∈ (visit base [] t).map (·.1) ↔
      ∃ p o n k, π = 0 :: p ∧ t.at? p = some (o, .scalar n k) ∧ gepOff t (getFirsts π) = some (o, .scalar n k) := by
  refine ⟨visit_nodup t base [], ?_⟩
  intro π
  rw [List.mem_map]
  constructor
  · rintro ⟨e, he, rfl⟩
    obtain ⟨p, o, n, k, hp, rfl⟩ := (mem_visit_top t ha base e).1 he
    exact ⟨p, o, n, k, rfl, hp, (gepOff_zero t p).trans hp⟩
  · rintro ⟨p, o, n, k, rfl, hp, _⟩
    exact ⟨(0 :: p, constAt base p), (mem_visit_top t ha base _).2 ⟨p, o, n, k, hp, rfl⟩, rfl⟩

/-- C38, constant arguments and return values: going through the `alloca` reproduces the constant. -/
theorem c38_inserted (t : Ty) (ha : t.isAgg = true) (hwf : WF t) (m : Mem B) (box : Nat) (v u : V (List B))
    (hv : HasTy v t) (hu : HasTy u t) : createInsertedValue m t box v u = some v := by
  obtain ⟨m1, h1, h2⟩ := splitStore_spec ha hwf hv m box true
  unfold createInsertedValue
  rw [h1]
  exact (c38_load t ha m1 box u v hu).2 (h2.loaded hv)

example : (visit (α := Nat) none [] exTy).map (·.1) = [[0, 0], [0, 1, 0], [0, 1, 1], [0, 2]] := by decide

theorem exTy_wf : WF exTy := by
  intro p o t' h
  have hs : ∀ n k, ElemsOk (.scalar n k) := fun n k => ⟨fun i o t' h => (by simp [Ty.elem?] at h),
    fun i j o o' t' t'' _ h => (by simp [Ty.elem?] at h)⟩
  have hes : ∀ i x, exTy.elem? i = some x → (i = 0 ∧ x = (0, .scalar "i32" 4)) ∨
      (i = 1 ∧ x = (4, .array 2 2 (.scalar "i16" 2))) ∨ (i = 2 ∧ x = (8, .scalar "ref" 8)) := by
    intro i x hx
    match i, hx with
    | 0, hx => cases hx; simp
    | 1, hx => cases hx; simp
    | 2, hx => cases hx; simp
  have hea : ∀ i x, (Ty.array 2 2 (.scalar "i16" 2)).elem? i = some x → i < 2 ∧ x = (i * 2, .scalar "i16" 2) := by
    intro i x hx
    simp only [Ty.elem?] at hx
    split at hx
    · cases hx; exact ⟨by assumption, rfl⟩
    · cases hx
  cases p with
  | nil =>
    cases h
    constructor
    · intro i o t' h
      rcases hes i _ h with ⟨rfl, e⟩ | ⟨rfl, e⟩ | ⟨rfl, e⟩ <;> cases e <;> decide
    · intro i j o o' t' t'' hij h h'
      rcases hes i _ h with ⟨rfl, e⟩ | ⟨rfl, e⟩ | ⟨rfl, e⟩ <;>
        rcases hes j _ h' with ⟨rfl, e'⟩ | ⟨rfl, e'⟩ | ⟨rfl, e'⟩ <;> cases e <;> cases e' <;>
        first | decide | omega
  | cons i p =>
    obtain ⟨o1, t1, o2, h1, h2, rfl⟩ := Ty.at?_cons.1 h
    rcases hes i _ h1 with ⟨rfl, e⟩ | ⟨rfl, e⟩ | ⟨rfl, e⟩ <;> cases e
    · obtain ⟨_, e⟩ := at?_scalar h2; cases e; exact hs _ _
    · cases p with
      | nil =>
        cases h2
        constructor
        · intro i o t' h
          obtain ⟨hi, e⟩ := hea i _ h
          cases e
          simp only [Ty.size]
          omega
        · intro i j o o' t' t'' hij h h'
          obtain ⟨hi, e⟩ := hea i _ h
          obtain ⟨hj, e'⟩ := hea j _ h'
          cases e
          cases e'
          simp only [Ty.size]
          omega
      | cons j p =>
        obtain ⟨o3, t3, o4, h3, h4, rfl⟩ := Ty.at?_cons.1 h2
        obtain ⟨_, e⟩ := hea j _ h3
        cases e
        obtain ⟨_, e⟩ := at?_scalar h4
        cases e
        exact hs _ _
    · obtain ⟨_, e⟩ := at?_scalar h2; cases e; exact hs _ _

/-- Globals whose initialiser is reproduced. -/
def Codified (gs : List (Global B)) (i : Nat) (g : Global B) (v : V (List B)) : Prop :=
  gs[i]? = some g ∧ g.init = some v ∧ g.isRead = true

/-- C39. For every list of globals whose initialisers are well typed and whose memory ranges are disjoint: generating
`__SMACK_static_init` terminates, and running it writes every byte of every scalar leaf of the initialiser of every
global that has one and may be read, and changes no other byte. -/
theorem c39_static_init (gs : List (Global B)) (m : Mem B)
    (hty : ∀ i g v, Codified gs i g v → WF g.ty ∧ HasTy v g.ty)
    (hdis : ∀ i j g g' v v', i ≠ j → Codified gs i g v → Codified gs j g' v' →
      g.addr + g.ty.size ≤ g'.addr ∨ g'.addr + g'.ty.size ≤ g.addr) :
    ∃ fuel0, ∀ fuel, fuel0 ≤ fuel → ∃ m', staticInit fuel gs m = some m' ∧
      (∀ i g v, Codified gs i g v → ∀ off b, ByteAt g.ty v off b → m' (g.addr + off) = b) ∧
      (∀ x, (∀ i g v, Codified gs i g v → ∀ off b, ByteAt g.ty v off b → x ≠ g.addr + off) → m' x = m x) := by
  obtain ⟨k, hk⟩ := takes_list (initWork gs) (by
    intro it hit
    obtain ⟨i, g, v, h1, h2, h3, rfl⟩ := (mem_initWork gs it).1 hit
    exact takes g.ty v i [] (hty i g v ⟨h1, h2, h3⟩).2)
  refine ⟨k, ?_⟩
  intro fuel hf
  have hloop : initLoop fuel (initWork gs) = some ((initWork gs).flatMap itemStores) := by
    have := hk (fuel - k) []
    rw [show fuel - k + k = fuel by omega, List.append_nil] at this
    rw [this]
    cases fuel - k <;> simp [initLoop]
  have hstores : ∀ s, s ∈ (initWork gs).flatMap itemStores ↔ ∃ i g v p o n k bs, Codified gs i g v ∧
      g.ty.at? p = some (o, .scalar n k) ∧ v.get p = some (.leaf bs) ∧
      s = ⟨.leaf bs, i, if g.ty.isAgg then 0 :: p else []⟩ := by
    intro s
    rw [List.mem_flatMap]
    constructor
    · rintro ⟨it, hit, hs⟩
      obtain ⟨i, g, v, h1, h2, h3, rfl⟩ := (mem_initWork gs it).1 hit
      obtain ⟨p, o, n, k, bs, hp, hg, rfl⟩ := (mem_itemStores (hty i g v ⟨h1, h2, h3⟩).2 i s).1 hs
      exact ⟨i, g, v, p, o, n, k, bs, ⟨h1, h2, h3⟩, hp, hg, rfl⟩
    · rintro ⟨i, g, v, p, o, n, k, bs, hc, hp, hg, rfl⟩
      exact ⟨⟨g.ty, v, i, []⟩, (mem_initWork gs _).2 ⟨i, g, v, hc.1, hc.2.1, hc.2.2, rfl⟩,
        (mem_itemStores (hty i g v hc).2 i _).2 ⟨p, o, n, k, bs, hp, hg, rfl⟩⟩
  obtain ⟨L, hL, hmem⟩ := runStores_eq gs ((initWork gs).flatMap itemStores) (by
    intro s hs
    obtain ⟨i, g, v, p, o, n, k, bs, hc, hp, hg, rfl⟩ := (hstores s).1 hs
    exact ⟨g, bs, o, .scalar n k, hc.1, rfl, gepOff_leaf hp⟩) m
  have hL' : ∀ x, x ∈ L ↔ ∃ i g v p o n k bs, Codified gs i g v ∧ g.ty.at? p = some (o, .scalar n k) ∧
      v.get p = some (.leaf bs) ∧ x = (g.addr + o, bs) := by
    intro x
    rw [hmem]
    constructor
    · rintro ⟨s, hs, g', bs', o', t', h1, h2, h3, rfl⟩
      obtain ⟨i, g, v, p, o, n, k, bs, hc, hp, hg, rfl⟩ := (hstores s).1 hs
      dsimp only at h1 h2 h3
      rw [hc.1] at h1
      cases h1
      rw [gepOff_leaf hp] at h3
      cases h3
      cases h2
      exact ⟨i, _, v, p, _, n, k, _, hc, hp, hg, rfl⟩
    · rintro ⟨i, g, v, p, o, n, k, bs, hc, hp, hg, rfl⟩
      exact ⟨_, (hstores _).2 ⟨i, g, v, p, o, n, k, bs, hc, hp, hg, rfl⟩, g, bs, o, .scalar n k, hc.1, rfl,
        gepOff_leaf hp, rfl⟩
  have hcons : Consistent L := by
    intro e he e' he'
    obtain ⟨i, g, v, p, o, n, k, bs, hc, hp, hg, rfl⟩ := (hL' e).1 he
    obtain ⟨i', g', v', p', o', n', k', bs', hc', hp', hg', rfl⟩ := (hL' e').1 he'
    have l1 := leaf_len (hty i g v hc).2 hp hg
    have l2 := leaf_len (hty i' g' v' hc').2 hp' hg'
    by_cases hii : i = i'
    · subst hii
      have e1 := hc.1.symm.trans hc'.1
      cases e1
      have e2 := hc.2.1.symm.trans hc'.2.1
      cases e2
      by_cases hpp : p = p'
      · subst hpp
        rw [hp] at hp'
        rw [hg] at hg'
        cases hp'
        cases hg'
        exact Or.inl rfl
      · right
        have := (hty i g v hc).1.disjoint (leaf_incomparable hp hp' hpp) hp hp'
        simp only [size_scalar] at this
        dsimp only
        omega
    · right
      have hd := hdis i i' g g' v v' hii hc hc'
      have b1 := (hty i g v hc).1.bound hp
      have b2 := (hty i' g' v' hc').1.bound hp'
      simp only [size_scalar] at b1 b2
      dsimp only
      omega
  obtain ⟨w1, w2⟩ := writes_spec L hcons m
  refine ⟨writes m L, by unfold staticInit; rw [hloop]; exact hL, ?_, ?_⟩
  · rintro i g v hc off b ⟨p, o, n, k, bs, j, hp, hg, rfl, hb⟩
    rw [← Nat.add_assoc]
    exact w1 (g.addr + o, bs) ((hL' _).2 ⟨i, g, v, p, o, n, k, bs, hc, hp, hg, rfl⟩) j b hb
  · intro x hx
    apply w2
    intro e he j b hb
    obtain ⟨i, g, v, p, o, n, k, bs, hc, hp, hg, heq⟩ := (hL' e).1 he
    subst heq
    have := hx i g v hc (o + j) b ⟨p, o, n, k, bs, j, hp, hg, rfl, hb⟩
    dsimp only
    omega

/-- Two globals, an aggregate and a scalar; the third one is not read. -/
example : (staticInit (B := Nat) 10
    [⟨100, .array 2 2 (.scalar "i16" 2), some (.node [.leaf [1, 2], .leaf [3, 4]]), true⟩,
     ⟨200, .scalar "i8" 1, some (.leaf [9]), true⟩, ⟨300, .scalar "i8" 1, some (.leaf [7]), false⟩] (fun _ => 0)).map
      (fun m => [m 100, m 101, m 102, m 103, m 200, m 300]) = some [1, 2, 3, 4, 9, 0] := by decide

end Smack.Aggr
