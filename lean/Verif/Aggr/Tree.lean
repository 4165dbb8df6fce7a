import Verif.Aggr.Spec

namespace Smack.Aggr

/-! Paths and trees. -/

theorem Fields.get?_isSome (fs : Fields) (i : Nat) : (fs.get? i).isSome = true ↔ i < fs.length := by
  induction i generalizing fs with
  | zero => cases fs <;> simp [Fields.get?, Fields.length]
  | succ i ih =>
    cases fs with
    | nil => simp [Fields.get?, Fields.length]
    | cons o t r => simp [Fields.get?, Fields.length, ih]

theorem Ty.elem?_isSome (t : Ty) (i : Nat) : (t.elem? i).isSome = true ↔ i < t.num := by
  cases t with
  | scalar n k => simp [Ty.elem?, Ty.num]
  | array n s e => simp [Ty.elem?, Ty.num]
  | struct k fs => simp [Ty.elem?, Ty.num, Fields.get?_isSome]

theorem Ty.elem?_of_lt {t : Ty} {i : Nat} (h : i < t.num) : ∃ o t', t.elem? i = some (o, t') := by
  have := (t.elem?_isSome i).2 h
  obtain ⟨⟨o, t'⟩, he⟩ := Option.isSome_iff_exists.1 this
  exact ⟨o, t', he⟩

theorem Ty.lt_of_elem? {t : Ty} {i : Nat} {x : Nat × Ty} (h : t.elem? i = some x) : i < t.num :=
  (t.elem?_isSome i).1 (by rw [h]; rfl)

theorem Ty.isAgg_of_elem? {t : Ty} {i : Nat} {x : Nat × Ty} (h : t.elem? i = some x) : t.isAgg = true := by
  cases t with
  | scalar n k => simp [Ty.elem?] at h
  | array n s e => rfl
  | struct k fs => rfl

theorem elemTy_eq {t : Ty} {i o : Nat} {t' : Ty} (h : t.elem? i = some (o, t')) : elemTy t i = t' := by
  simp [elemTy, h]

theorem elemName_eq {t : Ty} {i o : Nat} {t' : Ty} (h : t.elem? i = some (o, t')) : elemName t i = t'.boogie := by
  simp [elemName, h]

theorem Ty.at?_cons {t : Ty} {i : Nat} {p : Path} {o : Nat} {t'' : Ty} :
    t.at? (i :: p) = some (o, t'') ↔
      ∃ o1 t1 o2, t.elem? i = some (o1, t1) ∧ t1.at? p = some (o2, t'') ∧ o = o1 + o2 := by
  rw [Ty.at?]
  cases h : t.elem? i with
  | none => simp
  | some x =>
    obtain ⟨o1, t1⟩ := x
    show (t1.at? p).map (fun x => (o1 + x.1, x.2)) = _ ↔ _
    rw [Option.map_eq_some_iff]
    constructor
    · rintro ⟨⟨o2, t2⟩, h2, e⟩
      cases e
      exact ⟨o1, t1, o2, rfl, h2, rfl⟩
    · rintro ⟨a, b, c, e, h3, rfl⟩
      cases e
      exact ⟨(c, t''), h3, rfl⟩

theorem Ty.at?_append {t : Ty} {p q : Path} {o : Nat} {t'' : Ty} :
    t.at? (p ++ q) = some (o, t'') ↔
      ∃ o1 t1 o2, t.at? p = some (o1, t1) ∧ t1.at? q = some (o2, t'') ∧ o = o1 + o2 := by
  induction p generalizing t o with
  | nil =>
    simp only [List.nil_append, Ty.at?, Option.some.injEq, Prod.mk.injEq]
    constructor
    · intro h; exact ⟨0, t, o, ⟨rfl, rfl⟩, h, by omega⟩
    · rintro ⟨o1, t1, o2, ⟨rfl, rfl⟩, h, rfl⟩
      rw [h]; simp
  | cons i p ih =>
    rw [List.cons_append, Ty.at?_cons]
    constructor
    · rintro ⟨o1, t1, o2, h1, h2, rfl⟩
      obtain ⟨o3, t3, o4, h3, h4, rfl⟩ := ih.1 h2
      exact ⟨o1 + o3, t3, o4, Ty.at?_cons.2 ⟨o1, t1, o3, h1, h3, rfl⟩, h4, by omega⟩
    · rintro ⟨o1, t1, o2, h1, h2, rfl⟩
      obtain ⟨o3, t3, o4, h3, h4, rfl⟩ := Ty.at?_cons.1 h1
      exact ⟨o3, t3, o4 + o2, h3, ih.2 ⟨o4, t1, o2, h4, h2, rfl⟩, by omega⟩

theorem gepOff_zero (t : Ty) (p : Path) : gepOff t (0 :: p) = t.at? p := by
  simp only [gepOff]
  cases t.at? p with
  | none => rfl
  | some x => simp

section values
variable {α : Type}

theorem V.get_cons {v : V α} {i : Nat} {p : Path} {w : V α} :
    v.get (i :: p) = some w ↔ ∃ vs x, v = .node vs ∧ vs[i]? = some x ∧ x.get p = some w := by
  cases v with
  | leaf a => simp [V.get]
  | node vs =>
    simp only [V.get]
    cases h : vs[i]? with
    | none =>
      simp only [reduceCtorEq, false_iff]
      rintro ⟨vs', x, e, h', _⟩
      cases e
      rw [h] at h'
      cases h'
    | some x =>
      constructor
      · intro hw; exact ⟨vs, x, rfl, h, hw⟩
      · rintro ⟨vs', y, e, h', hw⟩
        cases e
        rw [h] at h'
        cases h'
        exact hw

theorem V.get_append {v : V α} {p q : Path} {w : V α} :
    v.get (p ++ q) = some w ↔ ∃ x, v.get p = some x ∧ x.get q = some w := by
  induction p generalizing v with
  | nil => simp [V.get]
  | cons i p ih =>
    rw [List.cons_append, V.get_cons]
    constructor
    · rintro ⟨vs, x, rfl, h1, h2⟩
      obtain ⟨y, h3, h4⟩ := ih.1 h2
      exact ⟨y, V.get_cons.2 ⟨vs, x, rfl, h1, h3⟩, h4⟩
    · rintro ⟨y, h1, h2⟩
      obtain ⟨vs, x, rfl, h3, h4⟩ := V.get_cons.1 h1
      exact ⟨vs, x, rfl, h3, ih.2 ⟨y, h4, h2⟩⟩

theorem V.set_cons {v : V α} {i : Nat} {p : Path} {w v' : V α} :
    v.set (i :: p) w = some v' ↔
      ∃ vs x x', v = .node vs ∧ vs[i]? = some x ∧ x.set p w = some x' ∧ v' = .node (vs.set i x') := by
  cases v with
  | leaf a => simp [V.set]
  | node vs =>
    simp only [V.set]
    cases h : vs[i]? with
    | none =>
      simp only [reduceCtorEq, false_iff]
      rintro ⟨vs', x, x', e, h', _⟩
      cases e
      rw [h] at h'
      cases h'
    | some x =>
      simp only [Option.map_eq_some_iff]
      constructor
      · rintro ⟨x', h1, rfl⟩; exact ⟨vs, x, x', rfl, h, h1, rfl⟩
      · rintro ⟨vs', y, x', e, h', h1, rfl⟩
        cases e
        rw [h] at h'
        cases h'
        exact ⟨x', h1, rfl⟩

theorem lt_of_getElem? {β : Type} {l : List β} {i : Nat} {x : β} (h : l[i]? = some x) : i < l.length := by
  rcases Nat.lt_or_ge i l.length with h' | h'
  · exact h'
  · rw [List.getElem?_eq_none h'] at h; cases h

theorem getElem?_set_eq {β : Type} {l : List β} {i : Nat} {x y : β} (h : l[i]? = some x) :
    (l.set i y)[i]? = some y := by
  rw [List.getElem?_set_self (lt_of_getElem? h)]

theorem getElem?_set_other {β : Type} {l : List β} {i j : Nat} {y : β} (h : i ≠ j) : (l.set i y)[j]? = l[j]? := by
  rw [List.getElem?_set_ne h]

theorem set_get_ext {v w v' : V α} {p : Path} (h : v.set p w = some v') (q : Path) :
    v'.get (p ++ q) = w.get q := by
  induction p generalizing v v' with
  | nil => simp only [V.set, Option.some.injEq] at h; rw [h]; rfl
  | cons i p ih =>
    obtain ⟨vs, x, x', rfl, h1, h2, rfl⟩ := V.set_cons.1 h
    simp only [List.cons_append, V.get, getElem?_set_eq h1]
    exact ih h2

theorem set_get_same {v w v' : V α} {p : Path} (h : v.set p w = some v') : v'.get p = some w := by
  have := set_get_ext h []
  simpa [V.get] using this

theorem set_get_diff {v w v' : V α} {c p q : Path} {a b : Nat} (hab : a ≠ b)
    (h : v.set (c ++ b :: q) w = some v') : v'.get (c ++ a :: p) = v.get (c ++ a :: p) := by
  induction c generalizing v v' with
  | nil =>
    obtain ⟨vs, x, x', rfl, h1, h2, rfl⟩ := V.set_cons.1 h
    simp only [List.nil_append, V.get, getElem?_set_other (fun e => hab e.symm)]
  | cons i c ih =>
    obtain ⟨vs, x, x', rfl, h1, h2, rfl⟩ := V.set_cons.1 h
    simp only [List.cons_append, V.get, getElem?_set_eq h1, h1]
    exact ih h2

theorem set_prefix {v w v' : V α} {p q : Path} (h : v.set (p ++ q) w = some v') :
    ∃ x x', v.get p = some x ∧ x.set q w = some x' ∧ v'.get p = some x' := by
  induction p generalizing v v' with
  | nil => exact ⟨v, v', rfl, h, rfl⟩
  | cons i p ih =>
    obtain ⟨vs, x, x', rfl, h1, h2, rfl⟩ := V.set_cons.1 h
    obtain ⟨y, y', h3, h4, h5⟩ := ih h2
    refine ⟨y, y', V.get_cons.2 ⟨vs, x, rfl, h1, h3⟩, h4, V.get_cons.2 ⟨_, x', rfl, getElem?_set_eq h1, h5⟩⟩

/-- Two paths that are not comparable split at different indices. -/
theorem Incomparable.split {p q : Path} (h : Incomparable p q) :
    ∃ c a b p' q', a ≠ b ∧ p = c ++ a :: p' ∧ q = c ++ b :: q' := by
  induction p generalizing q with
  | nil => exact absurd ⟨q, rfl⟩ h.1
  | cons a p ih =>
    cases q with
    | nil => exact absurd ⟨a :: p, rfl⟩ h.2
    | cons b q =>
      by_cases hab : a = b
      · subst hab
        have h' : Incomparable p q := by
          constructor
          · rintro ⟨r, rfl⟩; exact h.1 ⟨r, by simp⟩
          · rintro ⟨r, rfl⟩; exact h.2 ⟨r, by simp⟩
        obtain ⟨c, x, y, p', q', h1, rfl, rfl⟩ := ih h'
        exact ⟨a :: c, x, y, p', q', h1, rfl, rfl⟩
      · exact ⟨[], a, b, p, q, hab, rfl, rfl⟩

theorem set_get_incomparable {v w v' : V α} {p q : Path} (hi : Incomparable p q) (h : v.set q w = some v') :
    v'.get p = v.get p := by
  obtain ⟨c, a, b, p', q', hab, rfl, rfl⟩ := hi.split
  exact set_get_diff hab h

end values

section typed
variable {B : Type}

theorem HasTy.get {v : V (List B)} {t : Ty} (h : HasTy v t) {p : Path} {o : Nat} {t' : Ty}
    (hp : t.at? p = some (o, t')) : ∃ w, v.get p = some w ∧ HasTy w t' := by
  induction p generalizing v t o with
  | nil =>
    simp only [Ty.at?, Option.some.injEq, Prod.mk.injEq] at hp
    obtain ⟨_, rfl⟩ := hp
    exact ⟨v, rfl, h⟩
  | cons i p ih =>
    obtain ⟨o1, t1, o2, h1, h2, rfl⟩ := Ty.at?_cons.1 hp
    cases h with
    | scalar bs n k hk => simp [Ty.elem?] at h1
    | agg vs _ ha hl he =>
      have hlt : i < vs.length := by rw [hl]; exact Ty.lt_of_elem? h1
      have hx : vs[i]? = some vs[i] := List.getElem?_eq_getElem hlt
      obtain ⟨w, hw, ht⟩ := ih (he i o1 t1 _ h1 hx) h2
      exact ⟨w, V.get_cons.2 ⟨vs, _, rfl, hx, hw⟩, ht⟩

theorem HasTy.set {v w : V (List B)} {t : Ty} (h : HasTy v t) {p : Path} {o : Nat} {t' : Ty}
    (hp : t.at? p = some (o, t')) (hw : HasTy w t') : ∃ v', v.set p w = some v' ∧ HasTy v' t := by
  induction p generalizing v t o with
  | nil =>
    simp only [Ty.at?, Option.some.injEq, Prod.mk.injEq] at hp
    obtain ⟨_, rfl⟩ := hp
    exact ⟨w, rfl, hw⟩
  | cons i p ih =>
    obtain ⟨o1, t1, o2, h1, h2, rfl⟩ := Ty.at?_cons.1 hp
    cases h with
    | scalar bs n k hk => simp [Ty.elem?] at h1
    | agg vs _ ha hl he =>
      have hlt : i < vs.length := by rw [hl]; exact Ty.lt_of_elem? h1
      have hx : vs[i]? = some vs[i] := List.getElem?_eq_getElem hlt
      obtain ⟨x', hx', ht⟩ := ih (he i o1 t1 _ h1 hx) h2
      refine ⟨_, V.set_cons.2 ⟨vs, _, x', rfl, hx, hx', rfl⟩, .agg _ _ ha (by simp [hl]) ?_⟩
      intro j oj tj y hj hy
      by_cases hij : i = j
      · subst hij
        rw [getElem?_set_eq hx] at hy
        cases hy
        rw [h1] at hj
        cases hj
        exact ht
      · rw [getElem?_set_other hij] at hy
        exact he j oj tj y hj hy

theorem HasTy.node_of_agg {v : V (List B)} {t : Ty} (h : HasTy v t) (ha : t.isAgg = true) :
    ∃ vs, v = .node vs ∧ vs.length = t.num := by
  cases h with
  | scalar bs n k hk => cases ha
  | agg vs _ _ hl he => exact ⟨vs, rfl, hl⟩

theorem HasTy.leaf {v : V (List B)} {n : String} {k : Nat} (h : HasTy v (.scalar n k)) :
    ∃ bs, v = .leaf bs ∧ bs.length = k := by
  cases h with
  | scalar bs _ _ hk => exact ⟨bs, rfl, hk⟩
  | agg vs _ ha _ _ => cases ha

/-- Typed values are determined by their leaves. -/
theorem HasTy.ext {v v' : V (List B)} {t : Ty} (h : HasTy v t) (h' : HasTy v' t)
    (hl : ∀ p o n k, t.at? p = some (o, .scalar n k) → v.get p = v'.get p) : v = v' := by
  induction h generalizing v' with
  | scalar bs n k hk =>
    have := hl [] 0 n k rfl
    simpa [V.get] using this
  | agg vs t ha hlen he ih =>
    obtain ⟨vs', rfl, hlen'⟩ := h'.node_of_agg ha
    congr 1
    apply List.ext_getElem? 
    intro i
    by_cases hi : i < t.num
    · obtain ⟨o, t', hel⟩ := Ty.elem?_of_lt hi
      have hx : vs[i]? = some (vs[i]'(by omega)) := List.getElem?_eq_getElem _
      have hx' : vs'[i]? = some (vs'[i]'(by omega)) := List.getElem?_eq_getElem _
      rw [hx, hx']
      congr 1
      refine ih i o t' _ hel hx ?_ ?_
      · cases h' with
        | agg _ _ _ _ he' => exact he' i o t' _ hel hx'
      · intro p o' n k hp
        have := hl (i :: p) (o + o') n k (Ty.at?_cons.2 ⟨o, t', o', hel, hp, rfl⟩)
        simp only [V.get, hx, hx'] at this
        exact this
    · rw [List.getElem?_eq_none (by omega), List.getElem?_eq_none (by omega)]

theorem at?_scalar {n : String} {k : Nat} {p : Path} {x : Nat × Ty} (h : (Ty.scalar n k).at? p = some x) :
    p = [] ∧ x = (0, .scalar n k) := by
  cases p with
  | nil => simp only [Ty.at?, Option.some.injEq] at h; exact ⟨rfl, h.symm⟩
  | cons i p => simp [Ty.at?, Ty.elem?] at h

/-- Two different leaf paths are not comparable. -/
theorem leaf_incomparable {t : Ty} {p q : Path} {o o' : Nat} {n n' : String} {k k' : Nat}
    (hp : t.at? p = some (o, .scalar n k)) (hq : t.at? q = some (o', .scalar n' k')) (hne : p ≠ q) :
    Incomparable p q := by
  constructor
  · rintro ⟨r, rfl⟩
    obtain ⟨o1, t1, o2, h1, h2, _⟩ := Ty.at?_append.1 hq
    rw [hp] at h1
    cases h1
    exact hne (by simp [(at?_scalar h2).1])
  · rintro ⟨r, rfl⟩
    obtain ⟨o1, t1, o2, h1, h2, _⟩ := Ty.at?_append.1 hp
    rw [hq] at h1
    cases h1
    exact hne (by simp [(at?_scalar h2).1])

/-- The value read from memory, by recursion on the type. -/
theorem exists_loaded_aux (m : Mem B) :
    (∀ (t : Ty) (a : Nat), ∃ v, Loaded m a t v) ∧
    (∀ (fs : Fields) (a : Nat), ∃ vs : List (V (List B)), vs.length = fs.length ∧
      ∀ i o t' x, fs.get? i = some (o, t') → vs[i]? = some x → Loaded m (a + o) t' x) := by
  have key : ∀ (t : Ty) (ha : t.isAgg = true) (a : Nat) (vs : List (V (List B))), vs.length = t.num →
      (∀ i o t' x, t.elem? i = some (o, t') → vs[i]? = some x → Loaded m (a + o) t' x) →
      Loaded m a t (.node vs) := by
    intro t ha a vs hl he
    refine ⟨.agg vs t ha hl fun i o t' x h1 h2 => (he i o t' x h1 h2).1, ?_⟩
    intro p o n k hp
    cases p with
    | nil =>
      simp only [Ty.at?, Option.some.injEq, Prod.mk.injEq] at hp
      rw [hp.2] at ha
      cases ha
    | cons i p =>
      obtain ⟨o1, t1, o2, h1, h2, rfl⟩ := Ty.at?_cons.1 hp
      have hlt : i < vs.length := by rw [hl]; exact Ty.lt_of_elem? h1
      have hx : vs[i]? = some vs[i] := List.getElem?_eq_getElem hlt
      have := (he i o1 t1 _ h1 hx).2 p o2 n k h2
      rw [← Nat.add_assoc]
      exact V.get_cons.2 ⟨vs, _, rfl, hx, this⟩
  have hF : ∀ (fs : Fields), (∀ i o t', fs.get? i = some (o, t') → ∀ a, ∃ v, Loaded m a t' v) →
      ∀ a, ∃ vs : List (V (List B)), vs.length = fs.length ∧
      ∀ i o t' x, fs.get? i = some (o, t') → vs[i]? = some x → Loaded m (a + o) t' x := by
    intro fs
    refine Fields.rec (motive_1 := fun _ => True) (motive_2 := fun fs =>
      (∀ i o t', fs.get? i = some (o, t') → ∀ a, ∃ v, Loaded m a t' v) →
      ∀ a, ∃ vs : List (V (List B)), vs.length = fs.length ∧
      ∀ i o t' x, fs.get? i = some (o, t') → vs[i]? = some x → Loaded m (a + o) t' x)
      (fun _ _ => trivial) (fun _ _ _ _ => trivial) (fun _ _ _ => trivial) ?_ ?_ fs
    · intro _ a
      exact ⟨[], rfl, fun i o t' x h => by simp [Fields.get?] at h⟩
    · intro off t r _ ih h a
      obtain ⟨v, hv⟩ := h 0 off t rfl (a + off)
      obtain ⟨vs, hl, he⟩ := ih (fun i o t' hi => h (i + 1) o t' hi) a
      refine ⟨v :: vs, by simp [Fields.length, hl], ?_⟩
      intro i o t' x h1 h2
      cases i with
      | zero =>
        simp only [Fields.get?, Option.some.injEq, Prod.mk.injEq] at h1
        simp only [List.getElem?_cons_zero, Option.some.injEq] at h2
        rw [← h1.1, ← h1.2, ← h2]
        exact hv
      | succ i => exact he i o t' x h1 h2
  have hT : ∀ t : Ty, ∀ a, ∃ v, Loaded m a t v := by
    intro t
    refine Ty.rec (motive_1 := fun t => ∀ a, ∃ v, Loaded m a t v)
      (motive_2 := fun fs => ∀ i o t', fs.get? i = some (o, t') → ∀ a, ∃ v, Loaded m a t' v) ?_ ?_ ?_ ?_ ?_ t
    · intro n k a
      refine ⟨.leaf (m.read a k), .scalar _ _ _ (by simp [Mem.read]), ?_⟩
      intro p o n' k' hp
      obtain ⟨rfl, e⟩ := at?_scalar hp
      cases e
      rfl
    · intro n s e ih a
      refine ⟨.node ((List.range n).map fun i => Classical.choose (ih (a + i * s))), key _ rfl a _ (by simp [Ty.num]) ?_⟩
      intro i o t' x h1 h2
      simp only [Ty.elem?] at h1
      split at h1
      · rename_i hi
        cases h1
        rw [List.getElem?_map, List.getElem?_range hi] at h2
        simp only [Option.map_some, Option.some.injEq] at h2
        subst h2
        exact Classical.choose_spec (ih (a + i * s))
      · cases h1
    · intro k fs ih a
      obtain ⟨vs, hl, he⟩ := hF fs ih a
      exact ⟨.node vs, key _ rfl a vs hl he⟩
    · intro i o t' h
      simp [Fields.get?] at h
    · intro off t r iht ihr i o t' h
      cases i with
      | zero => simp only [Fields.get?, Option.some.injEq, Prod.mk.injEq] at h; rw [← h.2]; exact iht
      | succ i => exact ihr i o t' h
  exact ⟨hT, fun fs a => hF fs (fun i o t' _ => hT t') a⟩

theorem exists_loaded (m : Mem B) (a : Nat) (t : Ty) : ∃ v, Loaded m a t v := (exists_loaded_aux m).1 t a

theorem Loaded.sub {m : Mem B} {a : Nat} {t : Ty} {v : V (List B)} (h : Loaded m a t v) {p : Path} {o : Nat} {t' : Ty}
    (hp : t.at? p = some (o, t')) {w : V (List B)} (hw : v.get p = some w) : Loaded m (a + o) t' w := by
  obtain ⟨w', hw', ht⟩ := h.1.get hp
  rw [hw] at hw'
  cases hw'
  refine ⟨ht, ?_⟩
  intro q o' n k hq
  have := h.2 (p ++ q) (o + o') n k (Ty.at?_append.2 ⟨o, t', o', hp, hq, rfl⟩)
  obtain ⟨x, hx, hx'⟩ := V.get_append.1 this
  rw [hw] at hx
  cases hx
  rw [hx', Nat.add_assoc]

theorem Loaded.unique {m : Mem B} {a : Nat} {t : Ty} {v v' : V (List B)} (h : Loaded m a t v) (h' : Loaded m a t v') :
    v = v' :=
  h.1.ext h'.1 fun p o n k hp => by rw [h.2 p o n k hp, h'.2 p o n k hp]

end typed

end Smack.Aggr
