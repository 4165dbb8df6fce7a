import Verif.Aggr.Layout

namespace Smack.Aggr

variable {B : Type}

theorem size_scalar (n : String) (k : Nat) : (Ty.scalar n k).size = k := rfl

theorem ByteAt.sub {t t' : Ty} {v w : V (List B)} {p : Path} {o off : Nat} {b : B}
    (hp : t.at? p = some (o, t')) (hg : v.get p = some w) (h : ByteAt t' w off b) : ByteAt t v (o + off) b := by
  obtain ⟨q, o', n, k, bs, i, hq, hw, rfl, hb⟩ := h
  exact ⟨p ++ q, o + o', n, k, bs, i, Ty.at?_append.2 ⟨o, t', o', hp, hq, rfl⟩, V.get_append.2 ⟨w, hg, hw⟩,
    by omega, hb⟩

theorem leaf_len {t : Ty} {v : V (List B)} (hv : HasTy v t) {p : Path} {o : Nat} {n : String} {k : Nat} {bs : List B}
    (hp : t.at? p = some (o, .scalar n k)) (hg : v.get p = some (.leaf bs)) : bs.length = k := by
  obtain ⟨w, hw, ht⟩ := hv.get hp
  rw [hg] at hw
  cases hw
  cases ht with
  | scalar _ _ _ h => exact h

theorem ByteAt.bound {t : Ty} {v : V (List B)} (hw : WF t) (hv : HasTy v t) {off : Nat} {b : B}
    (h : ByteAt t v off b) : off < t.size := by
  obtain ⟨p, o, n, k, bs, i, hp, hg, rfl, hb⟩ := h
  have h1 := hw.bound hp
  have h2 := leaf_len hv hp hg
  have h3 := lt_of_getElem? hb
  simp only [size_scalar] at h1
  omega

/-- Scalar stores of all leaves store the aggregate. -/
theorem stored_of_writes {t : Ty} (hw : WF t) {v : V (List B)} (hv : HasTy v t) (m : Mem B) (a : Nat)
    (L : List (Nat × List B))
    (hL : ∀ x, x ∈ L ↔ ∃ p o n k bs, t.at? p = some (o, .scalar n k) ∧ v.get p = some (.leaf bs) ∧ x = (a + o, bs)) :
    Stored m a t v (writes m L) := by
  have hc : Consistent L := by
    intro e he e' he'
    obtain ⟨p, o, n, k, bs, hp, hg, rfl⟩ := (hL e).1 he
    obtain ⟨p', o', n', k', bs', hp', hg', rfl⟩ := (hL e').1 he'
    by_cases hpp : p = p'
    · subst hpp
      rw [hp] at hp'
      rw [hg] at hg'
      cases hp'
      cases hg'
      exact Or.inl rfl
    · right
      have := hw.disjoint (leaf_incomparable hp hp' hpp) hp hp'
      have h1 := leaf_len hv hp hg
      have h2 := leaf_len hv hp' hg'
      simp only [size_scalar] at this
      dsimp only
      omega
  obtain ⟨h1, h2⟩ := writes_spec L hc m
  constructor
  · rintro off b ⟨p, o, n, k, bs, i, hp, hg, rfl, hb⟩
    rw [← Nat.add_assoc]
    exact h1 (a + o, bs) ((hL _).2 ⟨p, o, n, k, bs, hp, hg, rfl⟩) i b hb
  · intro x hx
    apply h2
    intro e he i b hb
    obtain ⟨p, o, n, k, bs, hp, hg, rfl⟩ := (hL e).1 he
    have := hx (o + i) b ⟨p, o, n, k, bs, i, hp, hg, rfl, hb⟩
    dsimp only
    omega

/-! ### Splitting stores -/

theorem splitStoreFold_eq {t : Ty} {v : V (List B)} (a : Nat) (l : List (Path × Option (V (List B)))) :
    (∀ e ∈ l, ∃ p o n k bs, t.at? p = some (o, .scalar n k) ∧ v.get p = some (.leaf bs) ∧ e.1 = 0 :: p ∧
      (e.2 = none ∨ e.2 = some (.leaf bs))) →
    ∀ m, ∃ L, splitStoreFold t a v m l = some (writes m L) ∧
      ∀ x, x ∈ L ↔ ∃ e ∈ l, ∃ p o n k bs, t.at? p = some (o, .scalar n k) ∧ v.get p = some (.leaf bs) ∧
        e.1 = 0 :: p ∧ x = (a + o, bs) := by
  induction l with
  | nil => intro _ m; exact ⟨[], rfl, by simp⟩
  | cons e rest ih =>
    intro h m
    obtain ⟨p, o, n, k, bs, hp, hg, he1, he2⟩ := h e (List.mem_cons_self ..)
    obtain ⟨L, hL, hmem⟩ := ih (fun e he => h e (List.mem_cons_of_mem _ he)) (m.write (a + o) bs)
    refine ⟨(a + o, bs) :: L, ?_, ?_⟩
    · have hstep : splitStoreStep t a v m e = some (m.write (a + o) bs) := by
        unfold splitStoreStep
        rw [he1]
        simp only [getFirsts, getSeconds, List.drop_succ_cons, List.drop_zero, gepOff_zero, hp]
        rcases he2 with he2 | he2
        · rw [he2, hg]; rfl
        · rw [he2]; rfl
      rw [splitStoreFold, hstep]
      exact hL
    · intro x
      rw [List.mem_cons, hmem]
      constructor
      · rintro (rfl | ⟨e', he', h'⟩)
        · exact ⟨e, List.mem_cons_self .., p, o, n, k, bs, hp, hg, he1, rfl⟩
        · exact ⟨e', List.mem_cons_of_mem _ he', h'⟩
      · rintro ⟨e', he', p', o', n', k', bs', hp', hg', h1', rfl⟩
        rcases List.mem_cons.1 he' with rfl | hr
        · left
          rw [he1] at h1'
          cases h1'
          rw [hp] at hp'
          rw [hg] at hg'
          cases hp'
          cases hg'
          rfl
        · exact Or.inr ⟨e', hr, p', o', n', k', bs', hp', hg', h1', rfl⟩

theorem splitStore_spec {t : Ty} (ha : t.isAgg = true) (hw : WF t) {v : V (List B)} (hv : HasTy v t) (m : Mem B)
    (a : Nat) (isConst : Bool) : ∃ m', splitStore m t a v isConst = some m' ∧ Stored m a t v m' := by
  have hl : ∀ e ∈ visit (if isConst then some v else none) [] t, ∃ p o n k bs,
      t.at? p = some (o, .scalar n k) ∧ v.get p = some (.leaf bs) ∧ e.1 = 0 :: p ∧
      (e.2 = none ∨ e.2 = some (.leaf bs)) := by
    intro e he
    obtain ⟨p, o, n, k, hp, rfl⟩ := (mem_visit_top t ha _ e).1 he
    obtain ⟨w, hg, ht⟩ := hv.get hp
    obtain ⟨bs, rfl, _⟩ := ht.leaf
    refine ⟨p, o, n, k, bs, hp, hg, rfl, ?_⟩
    cases isConst with
    | true => right; show constAt (some v) p = _; rw [constAt_some, hg]
    | false => left; exact constAt_none p
  obtain ⟨L, hL, hmem⟩ := splitStoreFold_eq a _ hl m
  refine ⟨writes m L, hL, stored_of_writes hw hv m a L ?_⟩
  intro x
  rw [hmem]
  constructor
  · rintro ⟨e, _, p, o, n, k, bs, hp, hg, _, rfl⟩
    exact ⟨p, o, n, k, bs, hp, hg, rfl⟩
  · rintro ⟨p, o, n, k, bs, hp, hg, rfl⟩
    exact ⟨(0 :: p, constAt _ p), (mem_visit_top t ha _ _).2 ⟨p, o, n, k, hp, rfl⟩, p, o, n, k, bs, hp, hg, rfl, rfl⟩

/-! ### Splitting loads -/

theorem splitLoadFold_spec {t : Ty} (m : Mem B) (a : Nat) (l : List Path) :
    (∀ π ∈ l, ∃ p o n k, t.at? p = some (o, .scalar n k) ∧ π = 0 :: p) →
    ∀ v, HasTy v t → ∃ v', splitLoadFold m t a v l = some v' ∧ HasTy v' t ∧
      ∀ p o n k, t.at? p = some (o, .scalar n k) →
        v'.get p = if 0 :: p ∈ l then some (.leaf (m.read (a + o) k)) else v.get p := by
  induction l with
  | nil => intro _ v hv; exact ⟨v, rfl, hv, by simp⟩
  | cons π rest ih =>
    intro h v hv
    obtain ⟨p, o, n, k, hp, rfl⟩ := h π (List.mem_cons_self ..)
    have hleaf : HasTy (V.leaf (m.read (a + o) k)) (.scalar n k) := .scalar _ _ _ (by simp [Mem.read])
    obtain ⟨v1, hs, hv1⟩ := hv.set hp hleaf
    obtain ⟨v', hf, hv', hspec⟩ := ih (fun π he => h π (List.mem_cons_of_mem _ he)) v1 hv1
    refine ⟨v', ?_, hv', ?_⟩
    · have : splitLoadStep m t a v (0 :: p) = some v1 := by
        unfold splitLoadStep
        simp only [getFirsts, getSeconds, List.drop_succ_cons, List.drop_zero, gepOff_zero, hp]
        exact hs
      rw [splitLoadFold, this]
      exact hf
    · intro q o' n' k' hq
      rw [hspec q o' n' k' hq]
      by_cases hr : 0 :: q ∈ rest
      · rw [if_pos hr, if_pos (List.mem_cons_of_mem _ hr)]
      · rw [if_neg hr]
        by_cases hqp : q = p
        · subst hqp
          rw [if_pos (List.mem_cons_self ..), set_get_same hs]
          rw [hp] at hq
          cases hq
          rfl
        · rw [if_neg (by simp [hr, hqp])]
          exact set_get_incomparable (leaf_incomparable hq hp hqp) hs

theorem splitLoad_spec {t : Ty} (ha : t.isAgg = true) (m : Mem B) (a : Nat) (u : V (List B)) (hu : HasTy u t) :
    ∃ v, splitLoad m t a u = some v ∧ Loaded m a t v := by
  have hl : ∀ π ∈ (visit (α := List B) none [] t).map (·.1), ∃ p o n k, t.at? p = some (o, .scalar n k) ∧ π = 0 :: p := by
    intro π hπ
    obtain ⟨e, he, rfl⟩ := List.mem_map.1 hπ
    obtain ⟨p, o, n, k, hp, rfl⟩ := (mem_visit_top t ha _ e).1 he
    exact ⟨p, o, n, k, hp, rfl⟩
  obtain ⟨v, hf, hv, hspec⟩ := splitLoadFold_spec m a _ hl u hu
  refine ⟨v, hf, hv, ?_⟩
  intro p o n k hp
  rw [hspec p o n k hp, if_pos]
  exact List.mem_map.2 ⟨(0 :: p, constAt none p), (mem_visit_top t ha _ _).2 ⟨p, o, n, k, hp, rfl⟩, rfl⟩

/-- A stored value is loaded back. -/
theorem Stored.loaded {m m' : Mem B} {a : Nat} {t : Ty} {v : V (List B)} (hv : HasTy v t) (h : Stored m a t v m') :
    Loaded m' a t v := by
  refine ⟨hv, ?_⟩
  intro p o n k hp
  obtain ⟨w, hg, ht⟩ := hv.get hp
  obtain ⟨bs, rfl, hk⟩ := ht.leaf
  rw [hg]
  congr 2
  apply List.ext_getElem?
  intro i
  simp only [Mem.read, List.getElem?_map]
  rcases Nat.lt_or_ge i k with hi | hi
  · have hb : bs[i]? = some (bs[i]'(by omega)) := List.getElem?_eq_getElem (by omega)
    rw [hb]
    have := h.1 (o + i) _ ⟨p, o, n, k, bs, i, hp, hg, rfl, hb⟩
    rw [← Nat.add_assoc] at this
    simp [hi, this]
  · rw [List.getElem?_eq_none (by omega)]
    simp [hi]

theorem Stored.unique {m m1 m2 : Mem B} {a : Nat} {t : Ty} {v : V (List B)} (h1 : Stored m a t v m1)
    (h2 : Stored m a t v m2) : m1 = m2 := by
  funext x
  by_cases hx : ∃ off b, ByteAt t v off b ∧ x = a + off
  · obtain ⟨off, b, hb, rfl⟩ := hx
    rw [h1.1 off b hb, h2.1 off b hb]
  · have : ∀ off b, ByteAt t v off b → x ≠ a + off := fun off b hb e => hx ⟨off, b, hb, e⟩
    rw [h1.2 x this, h2.2 x this]

/-! ### SimplifyIV -/

theorem Incomparable.symm {p q : Path} (h : Incomparable p q) : Incomparable q p := ⟨h.2, h.1⟩

theorem Incomparable.ext {p q : Path} (h : Incomparable p q) (r : Path) : Incomparable (p ++ r) q := by
  constructor
  · intro hp
    exact h.1 ((List.prefix_append p r).trans hp)
  · intro hq
    rcases List.prefix_or_prefix_of_prefix hq (List.prefix_append p r) with h' | h'
    · exact h.2 h'
    · exact h.1 h'

theorem incomparable_of_not_prefix {t t' : Ty} {p q : Path} {o o' : Nat} {n : String} {k : Nat}
    (hq : t.at? q = some (o', .scalar n k)) (hp : t.at? p = some (o, t')) (h : ¬ p <+: q) : Incomparable q p := by
  refine ⟨?_, h⟩
  rintro ⟨s, rfl⟩
  obtain ⟨o1, t1, o2, h1, h2, _⟩ := Ty.at?_append.1 hp
  rw [hq] at h1
  cases h1
  obtain ⟨rfl, _⟩ := at?_scalar h2
  exact h ⟨[], by simp⟩

/-- The links of a chain are well typed and at pairwise incomparable paths. -/
def ChainOk (t : Ty) (c : Chain (List B)) : Prop :=
  c.Pairwise (fun x y => Incomparable x.1 y.1) ∧ ∀ x ∈ c, ∃ o t', t.at? x.1 = some (o, t') ∧ HasTy x.2 t'

theorem ChainOk.tail {t : Ty} {x : Path × V (List B)} {c : Chain (List B)} (h : ChainOk t (x :: c)) : ChainOk t c :=
  ⟨(List.pairwise_cons.1 h.1).2, fun y hy => h.2 y (List.mem_cons_of_mem _ hy)⟩

theorem chainVal_spec {t : Ty} {u : V (List B)} (hu : HasTy u t) (c : Chain (List B)) (hc : ChainOk t c) :
    ∃ v, chainVal u c = some v ∧ HasTy v t ∧
      (∀ x ∈ c, ∀ r, v.get (x.1 ++ r) = x.2.get r) ∧
      (∀ q o n k, t.at? q = some (o, .scalar n k) → (∀ x ∈ c, ¬ x.1 <+: q) → v.get q = u.get q) := by
  induction c with
  | nil => exact ⟨u, rfl, hu, by simp, fun _ _ _ _ _ _ => rfl⟩
  | cons x c ih =>
    obtain ⟨v, h1, h2, h3, h4⟩ := ih hc.tail
    obtain ⟨p, w⟩ := x
    obtain ⟨o, t', hp, hw⟩ := hc.2 (p, w) (List.mem_cons_self ..)
    obtain ⟨v', hs, hv'⟩ := h2.set hp hw
    refine ⟨v', ?_, hv', ?_, ?_⟩
    · simp only [chainVal, h1]; exact hs
    · intro y hy r
      rcases List.mem_cons.1 hy with rfl | hy
      · exact set_get_ext hs r
      · rw [set_get_incomparable (Incomparable.ext ((List.pairwise_cons.1 hc.1).1 y hy).symm r) hs]
        exact h3 y hy r
    · intro q o' n k hq hnp
      rw [set_get_incomparable (incomparable_of_not_prefix hq hp (hnp (p, w) (List.mem_cons_self ..))) hs]
      exact h4 q o' n k hq fun y hy => hnp y (List.mem_cons_of_mem _ hy)

theorem ivStores_some {t : Ty} (a : Nat) (c : Chain (List B)) (hc : ∀ x ∈ c, ∃ o t', t.at? x.1 = some (o, t') ∧ HasTy x.2 t') :
    ∃ l, ivStores t a c = some l := by
  induction c with
  | nil => exact ⟨[], rfl⟩
  | cons x c ih =>
    obtain ⟨l, hl⟩ := ih fun y hy => hc y (List.mem_cons_of_mem _ hy)
    obtain ⟨p, w⟩ := x
    obtain ⟨o, t', hp, _⟩ := hc (p, w) (List.mem_cons_self ..)
    refine ⟨(a + o, t', w) :: l, ?_⟩
    simp only [ivStores, ivIndices, gepOff_zero]
    rw [show t.at? p = some (o, t') from hp, hl]

theorem ivStores_cons {t : Ty} {a : Nat} {p : Path} {w : V (List B)} {c : Chain (List B)}
    {l : List (Nat × Ty × V (List B))} {o : Nat} {t' : Ty} (hp : t.at? p = some (o, t'))
    (h : ivStores t a ((p, w) :: c) = some l) :
    ∃ l', ivStores t a c = some l' ∧ l = (a + o, t', w) :: l' := by
  simp only [ivStores, ivIndices, gepOff_zero, hp] at h
  cases hr : ivStores t a c with
  | none => rw [hr] at h; cases h
  | some l' => rw [hr] at h; cases h; exact ⟨l', rfl, rfl⟩

theorem execStores_spec {t : Ty} (hwf : WF t) (a : Nat) (c : Chain (List B)) (hc : ChainOk t c) :
    ∀ l m m', ivStores t a c = some l → ExecStores m l m' →
      (∀ x ∈ c, ∀ o t', t.at? x.1 = some (o, t') → ∀ off b, ByteAt t' x.2 off b → m' (a + (o + off)) = b) ∧
      (∀ y, (∀ x ∈ c, ∀ o t', t.at? x.1 = some (o, t') → ∀ off b, ByteAt t' x.2 off b → y ≠ a + (o + off)) →
        m' y = m y) := by
  induction c with
  | nil =>
    intro l m m' hl he
    cases hl
    cases he
    exact ⟨by simp, fun _ _ => rfl⟩
  | cons x c ih =>
    intro l m m' hl he
    obtain ⟨p, w⟩ := x
    obtain ⟨o, t', hp, hw⟩ := hc.2 (p, w) (List.mem_cons_self ..)
    obtain ⟨l', hl', rfl⟩ := ivStores_cons hp hl
    cases he with
    | cons _ m1 _ _ _ _ _ hst hrest =>
      obtain ⟨h1, h2⟩ := ih hc.tail l' m1 m' hl' hrest
      have hdis : ∀ x ∈ c, ∀ o2 t2, t.at? x.1 = some (o2, t2) → ∀ off b, ByteAt t' w off b →
          ∀ off2 b2, ByteAt t2 x.2 off2 b2 → o + off ≠ o2 + off2 := by
        intro x hx o2 t2 h2' off b hb off2 b2 hb2
        have hi := (List.pairwise_cons.1 hc.1).1 x hx
        have hd := hwf.disjoint hi hp h2'
        have b1 := hb.bound (hwf.sub hp) hw
        obtain ⟨o3, t3, h3, hw3⟩ := hc.tail.2 x hx
        rw [h2'] at h3
        cases h3
        have b2 := hb2.bound (hwf.sub h2') hw3
        omega
      constructor
      · intro x hx o2 t2 hx2 off b hb
        rcases List.mem_cons.1 hx with rfl | hx
        · dsimp only at hx2 hb
          rw [hp] at hx2
          cases hx2
          rw [h2]
          · rw [← Nat.add_assoc]; exact hst.1 off b hb
          · intro x hx o3 t3 h3 off3 b3 hb3
            have := hdis x hx o3 t3 h3 off b hb off3 b3 hb3
            omega
        · exact h1 x hx o2 t2 hx2 off b hb
      · intro y hy
        rw [h2 y fun x hx => hy x (List.mem_cons_of_mem _ hx)]
        apply hst.2
        intro off b hb
        have := hy (p, w) (List.mem_cons_self ..) o t' hp off b hb
        omega

theorem exists_stored {t : Ty} (hwf : WF t) {v : V (List B)} (hv : HasTy v t) (m : Mem B) (a : Nat) :
    ∃ m', Stored m a t v m' := by
  cases ha : t.isAgg with
  | true =>
    obtain ⟨m', _, h⟩ := splitStore_spec ha hwf hv m a true
    exact ⟨m', h⟩
  | false =>
    cases t with
    | array n s e => cases ha
    | struct k fs => cases ha
    | scalar n k =>
      obtain ⟨bs, rfl, hk⟩ := hv.leaf
      refine ⟨writes m [(a, bs)], stored_of_writes hwf hv m a _ ?_⟩
      intro x
      rw [List.mem_singleton]
      constructor
      · rintro rfl; exact ⟨[], 0, n, k, bs, rfl, rfl, rfl⟩
      · rintro ⟨p, o, n', k', bs', hp, hg, rfl⟩
        obtain ⟨rfl, e⟩ := at?_scalar hp
        cases e
        cases hg
        rfl

theorem execStores_exists {t : Ty} (hwf : WF t) (a : Nat) (c : Chain (List B))
    (hc : ∀ x ∈ c, ∃ o t', t.at? x.1 = some (o, t') ∧ HasTy x.2 t') :
    ∀ l, ivStores t a c = some l → ∀ m, ∃ m', ExecStores m l m' := by
  induction c with
  | nil => intro l hl m; cases hl; exact ⟨m, .nil m⟩
  | cons x c ih =>
    intro l hl m
    obtain ⟨p, w⟩ := x
    obtain ⟨o, t', hp, hw⟩ := hc (p, w) (List.mem_cons_self ..)
    obtain ⟨l', hl', rfl⟩ := ivStores_cons hp hl
    obtain ⟨m1, h1⟩ := exists_stored (hwf.sub hp) hw m (a + o)
    obtain ⟨m', h2⟩ := ih (fun y hy => hc y (List.mem_cons_of_mem _ hy)) l' hl' m1
    exact ⟨m', .cons _ _ _ _ _ _ _ h1 h2⟩

theorem read_getElem? (m : Mem B) (a k i : Nat) (b : B) (h : (m.read a k)[i]? = some b) : b = m (a + i) := by
  unfold Mem.read at h
  rw [List.getElem?_map] at h
  cases hr : (List.range k)[i]? with
  | none => rw [hr] at h; cases h
  | some j =>
    rw [hr] at h
    rw [List.getElem?_range (by have := lt_of_getElem? hr; simpa using this)] at hr
    cases hr
    simpa using h.symm

/-- Distinct links: the field stores store the chain's value for a suitable choice of `undef`. -/
theorem iv_sound {t : Ty} (hwf : WF t) (a : Nat) (c : Chain (List B)) (hc : ChainOk t c) (l : List (Nat × Ty × V (List B)))
    (m m' : Mem B) (hl : ivStores t a c = some l) (he : ExecStores m l m') :
    ∃ u v, HasTy u t ∧ chainVal u c = some v ∧ Stored m a t v m' := by
  obtain ⟨u, hu⟩ := exists_loaded m a t
  obtain ⟨v, hcv, hv, hin, hout⟩ := chainVal_spec hu.1 c hc
  obtain ⟨h1, h2⟩ := execStores_spec hwf a c hc l m m' hl he
  refine ⟨u, v, hu.1, hcv, ?_, ?_⟩
  · rintro off b ⟨q, o, n, k, bs, i, hq, hg, rfl, hb⟩
    by_cases hx : ∃ x ∈ c, x.1 <+: q
    · obtain ⟨x, hx, r, rfl⟩ := hx
      obtain ⟨o1, t1, o2, ho1, ho2, rfl⟩ := Ty.at?_append.1 hq
      rw [hin x hx r] at hg
      have := h1 x hx o1 t1 ho1 (o2 + i) b ⟨r, o2, n, k, bs, i, ho2, hg, rfl, hb⟩
      rw [← this]
      congr 1
      omega
    · have hx' : ∀ x ∈ c, ¬ x.1 <+: q := fun x hxc hp => hx ⟨x, hxc, hp⟩
      rw [hout q o n k hq hx', hu.2 q o n k hq] at hg
      simp only [Option.some.injEq, V.leaf.injEq] at hg
      subst hg
      have hlen := lt_of_getElem? hb
      simp only [Mem.read, List.length_map, List.length_range] at hlen
      rw [read_getElem? _ _ _ _ _ hb, ← Nat.add_assoc]
      apply h2
      intro x hx o1 t1 ho1 off b' hb'
      have hd := hwf.disjoint (incomparable_of_not_prefix hq ho1 (hx' x hx)) hq ho1
      obtain ⟨o3, t3, h3, hw3⟩ := hc.2 x hx
      rw [ho1] at h3
      cases h3
      have := hb'.bound (hwf.sub ho1) hw3
      simp only [size_scalar] at hd
      omega
  · intro y hy
    apply h2
    intro x hx o1 t1 ho1 off b hb
    refine hy (o1 + off) b (ByteAt.sub ho1 ?_ hb)
    have := hin x hx []
    simpa [V.get] using this

/-! ### CodifyStaticInits -/

/-- The stores emitted for one work list entry. -/
def itemStores (it : Item B) : List (InitStore B) :=
  (visit (some it.val) it.idxs it.ty).filterMap fun e => e.2.map fun v => ⟨v, it.glob, e.1⟩

/-- `k` iterations process an entry completely. -/
def Takes (it : Item B) (k : Nat) : Prop :=
  ∀ fuel rest, initLoop (fuel + k) (it :: rest) = (initLoop fuel rest).map (itemStores it ++ ·)

theorem takes_list (l : List (Item B)) (h : ∀ it ∈ l, ∃ k, Takes it k) :
    ∃ k, ∀ fuel rest, initLoop (fuel + k) (l ++ rest) = (initLoop fuel rest).map (l.flatMap itemStores ++ ·) := by
  induction l with
  | nil => exact ⟨0, fun fuel rest => by rw [Nat.add_zero, List.nil_append]; cases initLoop fuel rest <;> rfl⟩
  | cons it l ih =>
    obtain ⟨k1, h1⟩ := h it (List.mem_cons_self ..)
    obtain ⟨k2, h2⟩ := ih fun x hx => h x (List.mem_cons_of_mem _ hx)
    refine ⟨k2 + k1, ?_⟩
    intro fuel rest
    rw [← Nat.add_assoc, List.cons_append, h1, h2]
    cases initLoop fuel rest <;> simp

theorem children_eq (t : Ty) (vs : List (V (List B))) (hl : vs.length = t.num) (g : Nat) (idxs : Path) :
    (children ⟨t, .node vs, g, idxs⟩).flatMap itemStores =
      (List.range t.num).flatMap fun j =>
        (visit (aggElem (some (V.node vs)) j) (extend idxs j) (elemTy t j)).filterMap fun e =>
          e.2.map fun v => (⟨v, g, e.1⟩ : InitStore B) := by
  have : children ⟨t, .node vs, g, idxs⟩ = (List.range t.num).filterMap fun i =>
      (vs[i]?).map fun v => (⟨elemTy t i, v, g, extend idxs i⟩ : Item B) := by
    unfold children
    congr 1
    funext i
    simp only [aggElem]
    cases vs[i]? <;> rfl
  rw [this]
  have hr : ∀ j ∈ List.range t.num, j < vs.length := fun j hj => by rw [hl]; exact List.mem_range.1 hj
  generalize List.range t.num = l at hr
  induction l with
  | nil => rfl
  | cons j l ih =>
    have hj : vs[j]? = some (vs[j]'(hr j (List.mem_cons_self ..))) := List.getElem?_eq_getElem _
    rw [List.filterMap_cons, List.flatMap_cons, ← ih fun j hj => hr j (List.mem_cons_of_mem _ hj)]
    simp only [hj, Option.map_some, List.flatMap_cons, itemStores, aggElem]

theorem takes (t : Ty) : ∀ (v : V (List B)) (g : Nat) (idxs : Path), HasTy v t → ∃ k, Takes ⟨t, v, g, idxs⟩ k := by
  induction t using Ty.induct with
  | hs n k =>
    intro v g idxs hv
    refine ⟨1, ?_⟩
    intro fuel rest
    simp only [initLoop, Ty.isAgg, Bool.false_eq_true, if_false, itemStores, visit]
    rfl
  | ha t ha ih =>
    intro v g idxs hv
    obtain ⟨vs, rfl, hl⟩ := hv.node_of_agg ha
    have hch : ∀ it ∈ children (⟨t, .node vs, g, idxs⟩ : Item B), ∃ k, Takes it k := by
      intro it hit
      unfold children at hit
      obtain ⟨i, hi, hit⟩ := List.mem_filterMap.1 hit
      obtain ⟨oi, ti, hei⟩ := Ty.elem?_of_lt (List.mem_range.1 hi)
      simp only [aggElem, elemTy_eq hei] at hit
      cases hx : vs[i]? with
      | none => rw [hx] at hit; cases hit
      | some x =>
        rw [hx] at hit
        cases hit
        obtain ⟨w, hw, ht⟩ := hv.get (p := [i]) (o := oi) (t' := ti) (Ty.at?_cons.2 ⟨oi, ti, 0, hei, rfl, rfl⟩)
        simp only [V.get, hx, Option.some.injEq] at hw
        subst hw
        exact ih i oi ti hei x g _ ht
    obtain ⟨k, hk⟩ := takes_list _ hch
    refine ⟨k + 1, ?_⟩
    intro fuel rest
    rw [← Nat.add_assoc, initLoop]
    simp only [ha, if_true]
    rw [hk, children_eq t vs hl]
    have : itemStores (⟨t, .node vs, g, idxs⟩ : Item B) = (List.range t.num).flatMap fun j =>
        (visit (aggElem (some (V.node vs)) j) (extend idxs j) (elemTy t j)).filterMap fun e =>
          e.2.map fun v => (⟨v, g, e.1⟩ : InitStore B) := by
      unfold itemStores
      rw [visit_agg _ _ t ha, List.filterMap_flatMap]
    rw [this]

theorem mem_visit_any {α : Type} (t : Ty) (base : Option (V α)) (e : Path × Option (V α)) :
    e ∈ visit base [] t ↔ ∃ p o n k, t.at? p = some (o, .scalar n k) ∧
      e = (if t.isAgg then 0 :: p else [], constAt base p) := by
  cases ha : t.isAgg with
  | true => rw [mem_visit_top t ha]; simp
  | false =>
    cases t with
    | array n s e => cases ha
    | struct k fs => cases ha
    | scalar n k =>
      rw [visit, List.mem_singleton]
      constructor
      · intro h; exact ⟨[], 0, n, k, rfl, by simpa [constAt] using h⟩
      · rintro ⟨p, o, n', k', hp, rfl⟩
        obtain ⟨rfl, _⟩ := at?_scalar hp
        rfl

/-- Stores emitted for a whole global. -/
theorem mem_itemStores {t : Ty} {v : V (List B)} (hv : HasTy v t) (g : Nat) (s : InitStore B) :
    s ∈ itemStores ⟨t, v, g, []⟩ ↔ ∃ p o n k bs, t.at? p = some (o, .scalar n k) ∧ v.get p = some (.leaf bs) ∧
      s = ⟨.leaf bs, g, if t.isAgg then 0 :: p else []⟩ := by
  unfold itemStores
  rw [List.mem_filterMap]
  constructor
  · rintro ⟨e, he, hs⟩
    obtain ⟨p, o, n, k, hp, rfl⟩ := (mem_visit_any t _ e).1 he
    obtain ⟨w, hg, ht⟩ := hv.get hp
    obtain ⟨bs, rfl, _⟩ := ht.leaf
    simp only [constAt_some, hg, Option.map_some, Option.some.injEq] at hs
    exact ⟨p, o, n, k, bs, hp, hg, hs.symm⟩
  · rintro ⟨p, o, n, k, bs, hp, hg, rfl⟩
    refine ⟨(if t.isAgg then 0 :: p else [], constAt (some v) p), (mem_visit_any t _ _).2 ⟨p, o, n, k, hp, rfl⟩, ?_⟩
    simp [constAt_some, hg]

theorem gepOff_leaf {t : Ty} {p : Path} {o : Nat} {n : String} {k : Nat} (hp : t.at? p = some (o, .scalar n k)) :
    gepOff t (if t.isAgg then 0 :: p else []) = some (o, .scalar n k) := by
  cases ha : t.isAgg with
  | true => simp only [if_true]; rw [gepOff_zero, hp]
  | false =>
    cases t with
    | array n s e => cases ha
    | struct k fs => cases ha
    | scalar n' k' =>
      obtain ⟨rfl, h⟩ := at?_scalar hp
      simp only [Bool.false_eq_true, if_false, gepOff]
      rw [h]

theorem runStores_eq (gs : List (Global B)) (l : List (InitStore B)) :
    (∀ s ∈ l, ∃ g bs o t', gs[s.glob]? = some g ∧ s.val = .leaf bs ∧ gepOff g.ty s.idxs = some (o, t')) →
    ∀ m, ∃ L, runStores gs m l = some (writes m L) ∧
      ∀ x, x ∈ L ↔ ∃ s ∈ l, ∃ g bs o t', gs[s.glob]? = some g ∧ s.val = .leaf bs ∧
        gepOff g.ty s.idxs = some (o, t') ∧ x = (g.addr + o, bs) := by
  induction l with
  | nil => intro _ m; exact ⟨[], rfl, by simp⟩
  | cons s rest ih =>
    intro h m
    obtain ⟨g, bs, o, t', h1, h2, h3⟩ := h s (List.mem_cons_self ..)
    obtain ⟨L, hL, hmem⟩ := ih (fun e he => h e (List.mem_cons_of_mem _ he)) (m.write (g.addr + o) bs)
    refine ⟨(g.addr + o, bs) :: L, ?_, ?_⟩
    · rw [runStores, h1, h2]
      simp only [leafBytes, h3]
      exact hL
    · intro x
      rw [List.mem_cons, hmem]
      constructor
      · rintro (rfl | ⟨e', he', h'⟩)
        · exact ⟨s, List.mem_cons_self .., g, bs, o, t', h1, h2, h3, rfl⟩
        · exact ⟨e', List.mem_cons_of_mem _ he', h'⟩
      · rintro ⟨e', he', g', bs', o', t'', h1', h2', h3', rfl⟩
        rcases List.mem_cons.1 he' with rfl | hr
        · left
          rw [h1] at h1'
          cases h1'
          rw [h2] at h2'
          cases h2'
          rw [h3] at h3'
          cases h3'
          rfl
        · exact Or.inr ⟨e', hr, g', bs', o', t'', h1', h2', h3', rfl⟩

theorem mem_initWork (gs : List (Global B)) (it : Item B) :
    it ∈ initWork gs ↔ ∃ (i : Nat) (g : Global B) (v : V (List B)), gs[i]? = some g ∧ g.init = some v ∧ g.isRead = true ∧
      it = ⟨g.ty, v, i, []⟩ := by
  unfold initWork
  rw [List.mem_filterMap]
  constructor
  · rintro ⟨i, _, h⟩
    cases hg : gs[i]? with
    | none => rw [hg] at h; cases h
    | some g =>
      rw [hg] at h
      dsimp only at h
      cases hi : g.init with
      | none => rw [hi] at h; cases h
      | some v =>
        rw [hi] at h
        dsimp only at h
        split at h
        · rename_i hr
          cases h
          exact ⟨i, g, v, hg, hi, hr, rfl⟩
        · cases h
  · rintro ⟨i, g, v, hg, hi, hr, rfl⟩
    refine ⟨i, List.mem_range.2 (lt_of_getElem? hg), ?_⟩
    rw [hg]
    dsimp only
    rw [hi]
    simp [hr]

end Smack.Aggr
