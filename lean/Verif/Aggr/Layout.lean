import Verif.Aggr.Tree

namespace Smack.Aggr

variable {B : Type}

/-- Induction over types by elements. -/
theorem Ty.induct {P : Ty → Prop} (hs : ∀ n k, P (.scalar n k))
    (ha : ∀ t : Ty, t.isAgg = true → (∀ i o t', t.elem? i = some (o, t') → P t') → P t) (t : Ty) : P t := by
  refine Ty.rec (motive_1 := P) (motive_2 := fun fs => ∀ i o t', fs.get? i = some (o, t') → P t')
    hs ?_ ?_ ?_ ?_ t
  · intro n s e ih
    refine ha _ rfl ?_
    intro i o t' h
    simp only [Ty.elem?] at h
    split at h
    · cases h; exact ih
    · cases h
  · intro k fs ih
    exact ha _ rfl ih
  · intro i o t' h
    simp [Fields.get?] at h
  · intro off t r iht ihr i o t' h
    cases i with
    | zero => simp only [Fields.get?, Option.some.injEq, Prod.mk.injEq] at h; rw [← h.2]; exact iht
    | succ i => exact ihr i o t' h

theorem WF.sub {t t' : Ty} (h : WF t) {p : Path} {o : Nat} (hp : t.at? p = some (o, t')) : WF t' := by
  intro q o' t'' hq
  exact h (p ++ q) (o + o') t'' (Ty.at?_append.2 ⟨o, t', o', hp, hq, rfl⟩)

theorem WF.elem {t t' : Ty} (h : WF t) {i : Nat} {o : Nat} (hi : t.elem? i = some (o, t')) : WF t' :=
  h.sub (p := [i]) (o := o) (Ty.at?_cons.2 ⟨o, t', 0, hi, rfl, rfl⟩)

theorem WF.bound {t t' : Ty} (h : WF t) {p : Path} {o : Nat} (hp : t.at? p = some (o, t')) :
    o + t'.size ≤ t.size := by
  induction p generalizing t o with
  | nil =>
    simp only [Ty.at?, Option.some.injEq, Prod.mk.injEq] at hp
    obtain ⟨rfl, rfl⟩ := hp
    omega
  | cons i p ih =>
    obtain ⟨o1, t1, o2, h1, h2, rfl⟩ := Ty.at?_cons.1 hp
    have := ih (h.elem h1) h2
    have := (h [] 0 t rfl).1 i o1 t1 h1
    omega

theorem WF.disjoint {t t1 t2 : Ty} (h : WF t) {p q : Path} (hi : Incomparable p q) {o o' : Nat}
    (hp : t.at? p = some (o, t1)) (hq : t.at? q = some (o', t2)) : o + t1.size ≤ o' ∨ o' + t2.size ≤ o := by
  obtain ⟨c, a, b, p', q', hab, rfl, rfl⟩ := hi.split
  obtain ⟨oc, tc, op, hc, hp', rfl⟩ := Ty.at?_append.1 hp
  obtain ⟨oc', tc', oq, hc', hq', rfl⟩ := Ty.at?_append.1 hq
  rw [hc] at hc'
  cases hc'
  obtain ⟨oa, ta, op2, ha, hp2, rfl⟩ := Ty.at?_cons.1 hp'
  obtain ⟨ob, tb, oq2, hb, hq2, rfl⟩ := Ty.at?_cons.1 hq'
  have hwc := h.sub hc
  have b1 := (hwc.elem ha).bound hp2
  have b2 := (hwc.elem hb).bound hq2
  rcases Nat.lt_or_gt_of_ne hab with hlt | hgt
  · left
    have := (hwc [] 0 tc rfl).2 a b oa ob ta tb hlt ha hb
    omega
  · right
    have := (hwc [] 0 tc rfl).2 b a ob oa tb ta hgt hb ha
    omega

/-! Sequences of scalar stores. -/

def writes (m : Mem B) : List (Nat × List B) → Mem B
  | [] => m
  | (a, bs) :: rest => writes (m.write a bs) rest

/-- Two entries write the same bytes or disjoint bytes. -/
def Consistent (l : List (Nat × List B)) : Prop :=
  ∀ e ∈ l, ∀ e' ∈ l, e = e' ∨ e.1 + e.2.length ≤ e'.1 ∨ e'.1 + e'.2.length ≤ e.1

theorem write_at (m : Mem B) (a : Nat) (bs : List B) (i : Nat) (b : B) (h : bs[i]? = some b) :
    m.write a bs (a + i) = b := by
  unfold Mem.write
  rw [if_pos (by omega), show a + i - a = i by omega, h]

theorem write_other (m : Mem B) (a : Nat) (bs : List B) (x : Nat)
    (h : ∀ (i : Nat) b, bs[i]? = some b → x ≠ a + i) : m.write a bs x = m x := by
  unfold Mem.write
  split
  · rename_i hx
    split
    · rename_i b hb
      exact absurd (show x = a + (x - a) by omega) (h _ _ hb)
    · rfl
  · rfl

theorem writes_spec (l : List (Nat × List B)) : Consistent l → ∀ m : Mem B,
    (∀ e ∈ l, ∀ (i : Nat) b, e.2[i]? = some b → writes m l (e.1 + i) = b) ∧
    (∀ x, (∀ e ∈ l, ∀ (i : Nat) b, e.2[i]? = some b → x ≠ e.1 + i) → writes m l x = m x) := by
  induction l with
  | nil =>
    intro _ m
    exact ⟨fun e he => absurd he (by simp), fun x _ => rfl⟩
  | cons e rest ih =>
    intro hc m
    obtain ⟨a, bs⟩ := e
    have hc' : Consistent rest := fun x hx y hy => hc x (List.mem_cons_of_mem _ hx) y (List.mem_cons_of_mem _ hy)
    obtain ⟨ih1, ih2⟩ := ih hc' (m.write a bs)
    refine ⟨?_, ?_⟩
    · intro e he i b hb
      simp only [writes]
      by_cases hmem : e ∈ rest
      · exact ih1 e hmem i b hb
      · rcases List.mem_cons.1 he with rfl | hr
        · rw [ih2]
          · exact write_at m a bs i b hb
          · intro e' he' j b' hb' heq
            have h1 := lt_of_getElem? hb
            have h2 := lt_of_getElem? hb'
            rcases hc _ he _ (List.mem_cons_of_mem _ he') with h | h | h
            · exact hmem (h ▸ he')
            · dsimp only at h heq h1; omega
            · dsimp only at h heq h1; omega
        · exact absurd hr hmem
    · intro x hx
      simp only [writes]
      rw [ih2 x fun e he => hx e (List.mem_cons_of_mem _ he)]
      exact write_other m a bs x (hx (a, bs) (List.mem_cons_self ..))

/-! The leaves visited by SplitAggregateValue. -/

theorem visitFields_eq {α : Type} (base : Option (V α)) (idxs : Path) (fs : Fields) : ∀ i,
    visitFields base idxs i fs = (List.range fs.length).flatMap fun j =>
      match fs.get? j with
      | some (_, t') => visit (aggElem base (i + j)) (extend idxs (i + j)) t'
      | none => [] := by
  refine Fields.rec (motive_1 := fun _ => True) (motive_2 := fun fs => ∀ i,
    visitFields base idxs i fs = (List.range fs.length).flatMap fun j =>
      match fs.get? j with
      | some (_, t') => visit (aggElem base (i + j)) (extend idxs (i + j)) t'
      | none => [])
    (fun _ _ => trivial) (fun _ _ _ _ => trivial) (fun _ _ _ => trivial) ?_ ?_ fs
  · intro i; rfl
  · intro off t r _ ih i
    rw [visitFields, ih (i + 1)]
    simp only [Fields.length, List.range_succ_eq_map, List.flatMap_cons, Fields.get?, Nat.add_zero,
      List.flatMap_map]
    congr 1
    have he : ∀ j, i + 1 + j = i + (j + 1) := fun j => by omega
    simp only [he]

theorem visit_agg {α : Type} (base : Option (V α)) (idxs : Path) (t : Ty) (ha : t.isAgg = true) :
    visit base idxs t = (List.range t.num).flatMap fun j =>
      visit (aggElem base j) (extend idxs j) (elemTy t j) := by
  cases t with
  | scalar n k => cases ha
  | array n s e =>
    rw [visit, List.flatMap_def, List.flatMap_def]
    congr 1
    apply List.map_congr_left
    intro j hj
    have hj' : j < n := by simpa using hj
    have : elemTy (.array n s e) j = e := by simp [elemTy, Ty.elem?, hj']
    rw [this]
  | struct k fs =>
    rw [visit, visitFields_eq, List.flatMap_def, List.flatMap_def]
    congr 1
    apply List.map_congr_left
    intro j hj
    have hj' : j < fs.length := by simpa [Ty.num] using hj
    obtain ⟨⟨o, t'⟩, he⟩ := Option.isSome_iff_exists.1 ((fs.get?_isSome j).2 hj')
    have : elemTy (.struct k fs) j = t' := by simp [elemTy, Ty.elem?, he]
    rw [this, he]
    simp

/-- The constant leaf below `base`. -/
def constAt {α : Type} (base : Option (V α)) (p : Path) : Option (V α) := p.foldl aggElem base

theorem extend_of_ne {idxs : Path} (h : idxs ≠ []) (i : Nat) : extend idxs i = idxs ++ [i] := by
  unfold extend
  cases idxs with
  | nil => exact absurd rfl h
  | cons a l => rfl

theorem mem_visit {α : Type} (t : Ty) : ∀ (base : Option (V α)) (idxs : Path), idxs ≠ [] →
    ∀ e, e ∈ visit base idxs t ↔
      ∃ p o n k, t.at? p = some (o, .scalar n k) ∧ e = (idxs ++ p, constAt base p) := by
  induction t using Ty.induct with
  | hs n k =>
    intro base idxs _ e
    rw [visit, List.mem_singleton]
    constructor
    · intro h; exact ⟨[], 0, n, k, rfl, by simpa [constAt] using h⟩
    · rintro ⟨p, o, n', k', hp, rfl⟩
      obtain ⟨rfl, _⟩ := at?_scalar hp
      simp [constAt]
  | ha t ha ih =>
    intro base idxs hne e
    rw [visit_agg base idxs t ha, List.mem_flatMap]
    constructor
    · rintro ⟨j, hj, he⟩
      obtain ⟨oj, tj, hej⟩ := Ty.elem?_of_lt (List.mem_range.1 hj)
      rw [elemTy_eq hej] at he
      rw [extend_of_ne hne] at he
      obtain ⟨p, o, n, k, hp, rfl⟩ := (ih j oj tj hej _ _ (by simp) e).1 he
      exact ⟨j :: p, oj + o, n, k, Ty.at?_cons.2 ⟨oj, tj, o, hej, hp, rfl⟩, by simp [constAt]⟩
    · rintro ⟨p, o, n, k, hp, rfl⟩
      cases p with
      | nil =>
        simp only [Ty.at?, Option.some.injEq, Prod.mk.injEq] at hp
        rw [hp.2] at ha
        cases ha
      | cons j p =>
        obtain ⟨oj, tj, o2, hej, hp', rfl⟩ := Ty.at?_cons.1 hp
        refine ⟨j, List.mem_range.2 (Ty.lt_of_elem? hej), ?_⟩
        rw [elemTy_eq hej, extend_of_ne hne]
        exact (ih j oj tj hej _ _ (by simp) _).2 ⟨p, o2, n, k, hp', by simp [constAt]⟩

/-- The same for the initial call, which has no indices. -/
theorem mem_visit_top {α : Type} (t : Ty) (ha : t.isAgg = true) (base : Option (V α)) (e : Path × Option (V α)) :
    e ∈ visit base [] t ↔ ∃ p o n k, t.at? p = some (o, .scalar n k) ∧ e = (0 :: p, constAt base p) := by
  rw [visit_agg base [] t ha, List.mem_flatMap]
  have hext : ∀ j, extend [] j = [0] ++ [j] := fun j => rfl
  constructor
  · rintro ⟨j, hj, he⟩
    obtain ⟨oj, tj, hej⟩ := Ty.elem?_of_lt (List.mem_range.1 hj)
    rw [elemTy_eq hej, hext] at he
    obtain ⟨p, o, n, k, hp, rfl⟩ := (mem_visit tj _ _ (by simp) e).1 he
    exact ⟨j :: p, oj + o, n, k, Ty.at?_cons.2 ⟨oj, tj, o, hej, hp, rfl⟩, by simp [constAt]⟩
  · rintro ⟨p, o, n, k, hp, rfl⟩
    cases p with
    | nil =>
      simp only [Ty.at?, Option.some.injEq, Prod.mk.injEq] at hp
      rw [hp.2] at ha
      cases ha
    | cons j p =>
      obtain ⟨oj, tj, o2, hej, hp', rfl⟩ := Ty.at?_cons.1 hp
      refine ⟨j, List.mem_range.2 (Ty.lt_of_elem? hej), ?_⟩
      rw [elemTy_eq hej, hext]
      exact (mem_visit tj _ _ (by simp) _).2 ⟨p, o2, n, k, hp', by simp [constAt]⟩

theorem visit_prefix {α : Type} (t : Ty) (base : Option (V α)) (idxs : Path) (hne : idxs ≠ []) (π : Path)
    (h : π ∈ (visit base idxs t).map (·.1)) : ∃ p, π = idxs ++ p := by
  obtain ⟨e, he, rfl⟩ := List.mem_map.1 h
  obtain ⟨p, o, n, k, _, rfl⟩ := (mem_visit t base idxs hne e).1 he
  exact ⟨p, rfl⟩

/-- No leaf is visited twice. -/
theorem visit_nodup {α : Type} (t : Ty) : ∀ (base : Option (V α)) (idxs : Path),
    ((visit base idxs t).map (·.1)).Nodup := by
  induction t using Ty.induct with
  | hs n k => intro base idxs; simp [visit]
  | ha t ha ih =>
    intro base idxs
    rw [visit_agg base idxs t ha, List.map_flatMap, List.Nodup, List.pairwise_flatMap]
    refine ⟨?_, ?_⟩
    · intro j hj
      obtain ⟨oj, tj, hej⟩ := Ty.elem?_of_lt (List.mem_range.1 hj)
      rw [elemTy_eq hej]
      exact ih j oj tj hej _ _
    · refine List.Pairwise.imp ?_ (List.pairwise_lt_range (n := t.num))
      intro i j hij x hx y hy e
      have hne : ∀ i, extend idxs i ≠ [] := by
        intro i
        unfold extend
        split <;> simp
      obtain ⟨p, rfl⟩ := visit_prefix _ _ _ (hne i) _ hx
      obtain ⟨q, hq⟩ := visit_prefix _ _ _ (hne j) _ hy
      rw [← e] at hq
      unfold extend at hq
      simp only [List.append_assoc] at hq
      have := List.append_cancel_left hq
      simp only [List.cons_append, List.cons.injEq] at this
      omega

theorem constAt_none {α : Type} (p : Path) : constAt (none : Option (V α)) p = none := by
  induction p with
  | nil => rfl
  | cons i p ih => exact ih

theorem constAt_some {α : Type} (v : V α) (p : Path) : constAt (some v) p = v.get p := by
  induction p generalizing v with
  | nil => rfl
  | cons i p ih =>
    cases v with
    | leaf a => show constAt none p = _; rw [constAt_none]; rfl
    | node vs =>
      show constAt (vs[i]?) p = _
      simp only [V.get]
      cases vs[i]? with
      | none => rw [constAt_none]
      | some x => exact ih x

end Smack.Aggr
