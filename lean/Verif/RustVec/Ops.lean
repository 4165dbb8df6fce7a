/- Auxiliary lemmas: the remaining operations. -/
import Verif.RustVec.Lemmas

namespace Smack.RustVec

variable {V : Type} {g : Cfg} {c : Codec V}

/-- Two vectors in different blocks, one operation on the second: the first is not touched. -/
theorem Did.other {n : Nat} {h h' : Heap} {v v' u : Vec} {xs ys : List V} (d : Did n c h h' v v' xs) (r : VRep c n h u ys)
    (hne : u.ptr.blk ≠ v.ptr.blk) : VRep c n h' u ys ∧ u.ptr.blk ≠ v'.ptr.blk := by
  refine ⟨r.frame (d.keep.same _ r.lt hne), ?_⟩
  rcases d.own with h1 | h1
  · rw [h1]; exact hne
  · have := r.lt; omega

theorem Did.trans {n : Nat} {h h1 h2 : Heap} {v v1 v2 : Vec} {xs ys : List V} (d : Did n c h h1 v v1 xs) (e : Did n c h1 h2 v1 v2 ys) :
    Did n c h h2 v v2 ys := by
  refine ⟨e.rep, ⟨Nat.le_trans d.keep.len e.keep.len, fun a ha hne => ?_⟩, ?_, Nat.le_trans d.cap e.cap⟩
  · rw [e.keep.same a (by have := d.keep.len; omega) (by rcases d.own with h1 | h1 <;> omega), d.keep.same a ha hne]
  · have := d.keep.len
    rcases d.own with h1 | h1 <;> rcases e.own with h2 | h2 <;> omega

theorem Did.refl {n : Nat} {h : Heap} {v : Vec} {xs : List V} (r : VRep c n h v xs) : Did n c h h v v xs :=
  ⟨r, Keep.refl _ _, .inl rfl, Nat.le_refl _⟩

theorem Stays.refl (h : Heap) (v : Vec) : Stays h h v v := ⟨rfl, rfl, fun _ l => l, rfl⟩

theorem Stays.trans {h h1 h2 : Heap} {v v1 v2 : Vec} (a : Stays h h1 v v1) (b : Stays h1 h2 v1 v2) : Stays h h2 v v2 :=
  ⟨b.ptr.trans a.ptr, b.cap.trans a.cap, fun x l => a.quiet x (b.quiet x l), b.len.trans a.len⟩

theorem moveLoop_ok (hc : c.Ok) {n : Nat} (s : Sizes c n) : ∀ (zs : List V) {h : Heap} {src dst : Vec} {xs ys : List V},
    VRep c n h src (xs ++ zs) → VRep c n h dst ys → src.ptr.blk ≠ dst.ptr.blk → ys.length + zs.length ≤ n →
    (g.copies = true ∨ ys.length + zs.length ≤ dst.cap) →
    ∃ src' dst' h', moveLoop g c zs.length src dst h = .ok ((src', dst'), h') ∧ VRep c n h' src' xs ∧ src'.ptr = src.ptr ∧ src'.cap = src.cap ∧
      Did n c h h' dst dst' (ys ++ zs.reverse) ∧ (ys.length + zs.length ≤ dst.cap → Stays h h' dst dst') := by
  intro zs
  induction hm : zs.length generalizing zs with
  | zero =>
    intro h src dst xs ys r1 r2 _ _ _
    have : zs = [] := List.length_eq_zero_iff.mp hm
    subst this
    rw [List.append_nil] at r1
    refine ⟨src, dst, h, rfl, r1, rfl, rfl, ?_, fun _ => Stays.refl _ _⟩
    rw [List.reverse_nil, List.append_nil]; exact Did.refl r2
  | succ m ih =>
    intro h src dst xs ys r1 r2 hne hn hg
    have hz : zs ≠ [] := by rintro rfl; cases hm
    obtain ⟨z, _, g2, _⟩ := last_split zs hz
    have hl : zs.dropLast.length = m := by simp; omega
    obtain ⟨src1, e1, p1, q1, q2⟩ := pop_ok hc r1
    have hlast : (xs ++ zs).getLast? = some z := by rw [g2, ← List.append_assoc, List.getLast?_concat]
    have hdrop : (xs ++ zs).dropLast = xs ++ zs.dropLast := by
      conv => lhs; rw [g2, ← List.append_assoc, List.dropLast_concat]
    rw [hlast] at e1
    rw [hdrop] at p1
    obtain ⟨dst1, h1, e2, d1, t1⟩ := push_ok hc s r2 z (by omega) (by rcases hg with hg | hg; exact .inl hg; exact .inr (by omega))
    obtain ⟨p2, hne2⟩ := d1.other p1 (by rw [q1]; exact hne)
    obtain ⟨src', dst', h', e3, r3, q3, q4, d3, t3⟩ := ih zs.dropLast hl (h := h1) (src := src1) (dst := dst1) (xs := xs) (ys := ys ++ [z])
      p2 d1.rep hne2 (by simp; omega) (by
        rcases hg with hg | hg
        · exact .inl hg
        · right; have := d1.cap; simp; omega)
    refine ⟨src', dst', h', ?_, r3, q3.trans q1, q4.trans q2, ?_, fun hh => ?_⟩
    · unfold moveLoop
      exact (bind_ok e1).trans ((bind_ok e2).trans e3)
    · have := d1.trans d3
      have e : ys ++ zs.reverse = ys ++ [z] ++ zs.dropLast.reverse := by
        conv => lhs; rw [g2]
        simp
      rw [e]; exact this
    · refine (t1 (by omega)).trans (t3 ?_)
      have := d1.cap; simp; omega

theorem append_ok (hc : c.Ok) {n : Nat} (s : Sizes c n) {h : Heap} {v u : Vec} {xs ys : List V} (r : VRep c n h v xs) (q : VRep c n h u ys)
    (hne : u.ptr.blk ≠ v.ptr.blk) (hn : xs.length + ys.length ≤ n)
    (hg : g.copies = true ∨ (xs.length + ys.length ≤ v.cap ∧ ys.length ≤ 32)) :
    ∃ v' u' h', Vec.append g c v u h = .ok ((v', u'), h') ∧ VRep c n h' v' (xs ++ ys) ∧ VRep c n h' u' [] ∧ u'.ptr = u.ptr ∧ u'.cap = u.cap ∧
      v.cap ≤ v'.cap ∧ (v'.ptr.blk = v.ptr.blk ∨ h.length ≤ v'.ptr.blk) ∧ h.length ≤ h'.length ∧
      (∀ a, a < h.length → a ≠ v.ptr.blk → a ≠ u.ptr.blk → h'[a]? = h[a]?) ∧
      (xs.length + ys.length ≤ v.cap ∧ ys.length ≤ 32 → v'.ptr = v.ptr ∧ v'.cap = v.cap ∧ Quiet h h') := by
  obtain ⟨w, h0, e0, r0, c0, b0, l0, s0, v0⟩ := new_ok (g := g) s h
  have q0 : VRep c n h0 u ys := q.frame (s0 _ q.lt)
  have p0 : VRep c n h0 v xs := r.frame (s0 _ r.lt)
  have hu := q.lt; have hv := r.lt
  obtain ⟨u1, w1, h1, e1, r1, f1, f2, d1, t1⟩ := moveLoop_ok (g := g) hc s ys (h := h0) (src := u) (dst := w) (xs := []) (ys := [])
    q0 r0 (by omega) (by simp; omega) (by
      rcases hg with hg | hg
      · exact .inl hg
      · right; simp; omega)
  rw [List.nil_append] at d1
  obtain ⟨p1, n1⟩ := d1.other p0 (by omega)
  have hl1 := d1.keep.len
  obtain ⟨w2, v2, h2, e2, r2, g1, g2, d2, t2⟩ := moveLoop_ok (g := g) hc s ys.reverse (h := h1) (src := w1) (dst := v) (xs := []) (ys := xs)
    (by rw [List.nil_append]; exact d1.rep) p1 (Ne.symm n1) (by simp; omega) (by
      rcases hg with hg | hg
      · exact .inl hg
      · right; simp; omega)
  rw [List.length_reverse] at e2 t2
  rw [List.reverse_reverse] at d2
  have hw2 : w2.ptr.blk = w1.ptr.blk := by rw [g1]
  have hw1 : h.length ≤ w1.ptr.blk := by rcases d1.own with o | o <;> omega
  obtain ⟨u2, m2⟩ := d2.other r1 (by rw [f1]; exact hne)
  obtain ⟨p2, m3⟩ := d2.other d1.rep (Ne.symm n1)
  obtain ⟨h3, e3, k3, l3, v3⟩ := drop_ok hc r2
  have hl2 := d2.keep.len
  refine ⟨v2, u1, h3, ?_, ?_, ?_, f1, f2, ?_, ?_, by omega, ?_, ?_⟩
  · unfold Vec.append
    refine (bind_ok e0).trans ?_
    rw [q.len]
    refine (bind_ok e1).trans ((bind_ok e2).trans ((bind_ok e3).trans rfl))
  · exact d2.rep.frame (k3.same _ d2.rep.lt (by rw [hw2]; exact Ne.symm m3))
  · exact u2.frame (k3.same _ u2.lt (by rw [hw2, f1]; omega))
  · exact d2.cap
  · rcases d2.own with o | o
    · exact .inl o
    · right; omega
  · intro a ha h4 h5
    rw [k3.same a (by omega) (by omega), d2.keep.same a (by omega) (by omega), d1.keep.same a (by omega) (by omega), s0 a ha]
  · rintro ⟨h4, h5⟩
    have s1 := t1 (by simp; omega)
    have s2 := t2 h4
    refine ⟨s2.ptr, s2.cap, fun a l => ?_⟩
    obtain ⟨l1, ne⟩ := v3 a l
    rcases v0 a (s1.quiet a (s2.quiet a l1)) with h6 | h6
    · exact h6
    · exact absurd (by rw [hw2, s1.ptr, b0]; exact h6) ne

/-- Moving elements inside a block. -/
theorem copy_ok {h : Heap} {b src dst len : Nat} {B : Block} (hB : h[b]? = some B) (hl : B.live = true)
    (h1 : (src + len) * c.size ≤ B.size) (h2 : (dst + len) * c.size ≤ B.size) :
    ∃ B' : Block, copyBytes ⟨b, src * c.size⟩ ⟨b, dst * c.size⟩ (len * c.size) h = .ok ((), h.set b B') ∧ B'.live = true ∧ B'.size = B.size ∧
      (∀ i, i < dst * c.size ∨ (dst + len) * c.size ≤ i → B'.data i = B.data i) ∧
      (∀ i, i < len → ∀ j, j < c.size → B'.data ((dst + i) * c.size + j) = B.data ((src + i) * c.size + j)) := by
  rw [Nat.add_mul] at h1 h2 ⊢
  have rd := readBytes_ok hB hl h1
  have hlen : ((List.range (len * c.size)).map (fun i => B.data (src * c.size + i))).length = len * c.size := by simp
  obtain ⟨B', wr, wl, ws, we, wd⟩ := writeBytes_ok (off := dst * c.size) (l := (List.range (len * c.size)).map (fun i => B.data (src * c.size + i)))
    hB hl (by rw [hlen]; exact h2)
  rw [hlen] at we wd
  refine ⟨B', ?_, wl, ws, we, ?_⟩
  · unfold copyBytes
    exact (bind_ok rd).trans wr
  · intro i hi j hj
    have hlt := mul_lt_step hi hj
    have := wd _ hlt
    simp only [List.getElem?_map, List.getElem?_range hlt, Option.map_some, Option.some.injEq] at this
    rw [Nat.add_mul, Nat.add_mul, Nat.add_assoc, Nat.add_assoc]
    exact this.symm

/-- The part of `insert` after growing. -/
theorem insert_room (hc : c.Ok) {n : Nat} {h : Heap} {v : Vec} {xs : List V} (r : VRep c n h v xs) (x : V) {k : Nat} (hk : k ≤ xs.length)
    (hf : xs.length < v.cap) :
    ∃ h', ((do
      (if k < v.len then copyBytes (v.ptr.add c k) (v.ptr.add c (k + 1)) ((v.len - k) * c.size) else pure ())
      write c (v.ptr.add c k) x
      pure { v with len := v.len + 1 } : M Vec) h) = .ok ({ v with len := v.len + 1 }, h') ∧
      VRep c n h' { v with len := v.len + 1 } (xs.take k ++ x :: xs.drop k) ∧ Keep v.ptr.blk h h' ∧ h'.length = h.length ∧ Quiet h h' := by
  obtain ⟨B, hB, hl, hs, hx⟩ := r.blk
  obtain ⟨⟨b, off⟩, cap, len⟩ := v
  have ho : off = 0 := r.off
  have hlen : len = xs.length := r.len
  subst ho; subst hlen
  simp only at hB hs hf
  simp only [ptr_add, Nat.zero_add]
  -- after the move
  have move : ∃ B1 : Block, (if k < xs.length then copyBytes ⟨b, k * c.size⟩ ⟨b, (k + 1) * c.size⟩ ((xs.length - k) * c.size) else pure () : M Unit) h =
      .ok ((), h.set b B1) ∧ B1.live = true ∧ B1.size = B.size ∧ (∀ i, i < (k + 1) * c.size → B1.data i = B.data i) ∧
      (∀ i, k ≤ i → i < xs.length → ∀ j, j < c.size → B1.data ((i + 1) * c.size + j) = B.data (i * c.size + j)) := by
    by_cases hlt : k < xs.length
    · rw [if_pos hlt]
      obtain ⟨B1, e, w1, w2, w3, w4⟩ := copy_ok (c := c) (src := k) (dst := k + 1) (len := xs.length - k) hB hl
        (by rw [hs]; exact Nat.mul_le_mul_right _ (by omega)) (by rw [hs]; exact Nat.mul_le_mul_right _ (by omega))
      refine ⟨B1, e, w1, w2, fun i hi => w3 i (.inl hi), fun i h1 h2 j hj => ?_⟩
      have := w4 (i - k) (by omega) j hj
      rwa [show k + 1 + (i - k) = i + 1 by omega, show k + (i - k) = i by omega] at this
    · rw [if_neg hlt]
      exact ⟨B, by rw [set_same hB]; rfl, hl, rfl, fun _ _ => rfl, fun i h1 h2 => absurd h1 (by omega)⟩
  obtain ⟨B1, e1, l1, s1, a1, a2⟩ := move
  have hB1 := get_set (y := B1) hB
  obtain ⟨B2, e2, l2, s2, b1, b2⟩ := write_ok hc (k := 0) (i := k) x hB1 l1 (by
    rw [s1, hs, Nat.zero_add]; exact Nat.mul_le_mul_right _ (by omega))
  rw [Nat.zero_add] at e2 b1 b2
  rw [List.set_set] at e2
  refine ⟨h.set b B2, ?_, ⟨rfl, ?_, ?_, r.pos, r.bound, B2, get_set hB, l2, (s2.trans s1).trans hs, ?_⟩, Keep.set _ _ _, by simp, quiet_set hB hl⟩
  · exact (bind_ok e1).trans ((bind_ok e2).trans rfl)
  · simp; omega
  · simp; omega
  · intro i y hi j hj
    rw [Nat.zero_add]
    have htake : (xs.take k).length = k := by simp; omega
    rcases Nat.lt_trichotomy i k with h1 | h1 | h1
    · rw [List.getElem?_append_left (by omega), List.getElem?_take_of_lt h1] at hi
      have h2 := mul_lt_step h1 hj
      rw [b1 _ (.inl h2), a1 _ (by rw [Nat.add_mul]; omega)]
      have := hx i y hi j hj
      rwa [Nat.zero_add] at this
    · subst h1
      rw [List.getElem?_append_right (by omega), htake, Nat.sub_self] at hi
      simp at hi; subst hi
      exact b2 j hj
    · rw [List.getElem?_append_right (by omega), htake] at hi
      obtain ⟨t, ht⟩ : ∃ t, i - k = t + 1 := ⟨i - k - 1, by omega⟩
      rw [ht, List.getElem?_cons_succ, List.getElem?_drop] at hi
      have hi' := getElem?_lt hi
      have e : i = k + t + 1 := by omega
      have h2 : (k + 1) * c.size ≤ i * c.size := Nat.mul_le_mul_right _ h1
      rw [b1 _ (.inr (by omega)), e, a2 (k + t) (by omega) hi' j hj]
      have := hx (k + t) y hi j hj
      rwa [Nat.zero_add] at this

theorem insert_ok (hc : c.Ok) {n : Nat} (s : Sizes c n) {h : Heap} {v : Vec} {xs : List V} (r : VRep c n h v xs) (x : V) {k : Nat}
    (hk : k ≤ xs.length) (hn : xs.length < n) (hg : g.copies = true ∨ xs.length < v.cap) :
    ∃ v' h', Vec.insert g c v k x h = .ok (v', h') ∧ Did n c h h' v v' (xs.take k ++ x :: xs.drop k) ∧
      (xs.length < v.cap → Stays h h' v v') := by
  unfold Vec.insert
  rw [if_pos (by rw [r.len]; exact hk)]
  by_cases hf : xs.length < v.cap
  · rw [if_neg (by rw [r.len]; omega)]
    obtain ⟨h', e, r', k, l, q⟩ := insert_room hc r x hk hf
    exact ⟨{ v with len := v.len + 1 }, h', (bind_ok (pure_eq _ _)).trans e, ⟨r', k, .inl rfl, Nat.le_refl _⟩, fun _ => ⟨rfl, rfl, q, l⟩⟩
  · have hfull : xs.length = v.cap := by have := r.le; omega
    rw [if_pos (by rw [r.len]; exact hfull.symm)]
    obtain ⟨v1, h1, e1, r1, c1, l1, b1, k1, n1⟩ := grow_ok s r (hg.resolve_right hf) hfull hn
    obtain ⟨h', e, r', k, l, q⟩ := insert_room hc r1 x hk (by have := r.pos; omega)
    refine ⟨{ v1 with len := v1.len + 1 }, h', (bind_ok e1).trans e, ⟨r', ⟨by have := k1.len; have := k.len; omega, ?_⟩,
      .inr (by show h.length ≤ v1.ptr.blk; omega), by show v.cap ≤ v1.cap; omega⟩, fun hh => absurd hh hf⟩
    intro a ha hne
    rw [k.same a (by have := k1.len; omega) (by omega), k1.same a ha hne]

theorem insert_panic {n : Nat} {h : Heap} {v : Vec} {xs : List V} (r : VRep c n h v xs) (x : V) {k : Nat} (hk : ¬ k ≤ xs.length) :
    Vec.insert g c v k x h = .panic := by
  unfold Vec.insert
  rw [if_neg (by rw [r.len]; exact hk)]; rfl

theorem remove_ok (hc : c.Ok) {n : Nat} {h : Heap} {v : Vec} {xs : List V} (r : VRep c n h v xs) {k : Nat} {x : V} (hk : xs[k]? = some x) :
    ∃ v' h', Vec.remove c v k h = .ok ((x, v'), h') ∧ Did n c h h' v v' (xs.take k ++ xs.drop (k + 1)) ∧ Stays h h' v v' := by
  obtain ⟨B, hB, hl, hs, hx⟩ := r.blk
  have hkl := getElem?_lt hk
  have hle := r.le
  obtain ⟨⟨b, off⟩, cap, len⟩ := v
  have ho : off = 0 := r.off
  have hlen : len = xs.length := r.len
  subst ho; subst hlen
  simp only at hB hs hle
  have rd := read_ok hc (k := 0) (i := k) hB hl (by rw [hs, Nat.zero_add]; exact Nat.mul_le_mul_right _ (by omega)) hx hk
  rw [Nat.zero_add] at rd
  obtain ⟨B1, e, w1, w2, w3, w4⟩ := copy_ok (c := c) (src := k + 1) (dst := k) (len := xs.length - 1 - k) hB hl
    (by rw [hs]; exact Nat.mul_le_mul_right _ (by omega)) (by rw [hs]; exact Nat.mul_le_mul_right _ (by omega))
  refine ⟨⟨⟨b, 0⟩, cap, xs.length - 1⟩, h.set b B1, ?_, ⟨⟨rfl, ?_, ?_, r.pos, r.bound, B1, get_set hB, w1, w2.trans hs, ?_⟩, Keep.set _ _ _, .inl rfl,
    Nat.le_refl _⟩, ⟨rfl, rfl, quiet_set hB hl, by simp⟩⟩
  · unfold Vec.remove
    simp only [ptr_add, Nat.zero_add, if_pos hkl]
    exact (bind_ok rd).trans ((bind_ok e).trans rfl)
  · simp; omega
  · simp; omega
  · intro i y hi j hj
    rw [Nat.zero_add]
    have htake : (xs.take k).length = k := by simp; omega
    rcases Nat.lt_or_ge i k with h1 | h1
    · rw [List.getElem?_append_left (by omega), List.getElem?_take_of_lt h1] at hi
      rw [w3 _ (.inl (mul_lt_step h1 hj))]
      have := hx i y hi j hj
      rwa [Nat.zero_add] at this
    · rw [List.getElem?_append_right (by omega), htake, List.getElem?_drop] at hi
      have hi' := getElem?_lt hi
      have := w4 (i - k) (by omega) j hj
      rw [show k + (i - k) = i by omega, show k + 1 + (i - k) = i + 1 by omega] at this
      rw [this]
      rw [show k + 1 + (i - k) = i + 1 by omega] at hi
      have := hx (i + 1) y hi j hj
      rwa [Nat.zero_add] at this

theorem remove_panic {n : Nat} {h : Heap} {v : Vec} {xs : List V} (r : VRep c n h v xs) {k : Nat} (hk : xs[k]? = none) :
    Vec.remove c v k h = .panic := by
  unfold Vec.remove
  have := List.getElem?_eq_none_iff.mp hk
  rw [if_neg (by rw [r.len]; omega)]; rfl

theorem readSlice_ok (hc : c.Ok) {h : Heap} {b : Nat} {B : Block} {xs : List V} (hB : h[b]? = some B) (hl : B.live = true)
    (hs : xs.length * c.size ≤ B.size) (hx : Cells c B 0 xs) : ∀ (m i : Nat), i + m = xs.length →
    readSlice c ⟨b, 0⟩ i m h = .ok (xs.drop i, h) := by
  intro m
  induction m with
  | zero =>
    intro i e
    rw [List.drop_eq_nil_of_le (by omega)]; rfl
  | succ m ih =>
    intro i e
    have hi : i < xs.length := by omega
    have rd := read_ok hc (k := 0) (i := i) hB hl (by rw [Nat.zero_add]; exact Nat.le_trans (Nat.mul_le_mul_right _ (by omega)) hs) hx
      (List.getElem?_eq_getElem hi)
    rw [Nat.zero_add] at rd
    unfold readSlice
    rw [ptr_add, Nat.zero_add]
    refine (bind_ok rd).trans ((bind_ok (ih (i + 1) (by omega))).trans ?_)
    rw [List.drop_eq_getElem_cons hi]; rfl

theorem slice_ok (hc : c.Ok) {n : Nat} {h : Heap} {v : Vec} {xs : List V} (r : VRep c n h v xs) : Vec.slice c v h = .ok (xs, h) := by
  obtain ⟨B, hB, hl, hs, hx⟩ := r.blk
  have := readSlice_ok hc hB hl (by rw [hs]; exact Nat.mul_le_mul_right _ r.le) hx v.len 0 (by rw [Nat.zero_add]; exact r.len)
  unfold Vec.slice
  rw [show v.ptr = ⟨v.ptr.blk, 0⟩ by rw [← r.off]]
  exact this

theorem set_ok (hc : c.Ok) {n : Nat} {h : Heap} {v : Vec} {xs : List V} (r : VRep c n h v xs) {k : Nat} (hk : k < xs.length) (x : V) :
    ∃ h', Vec.set c v k x h = .ok ((), h') ∧ Did n c h h' v v (xs.set k x) ∧ Stays h h' v v := by
  obtain ⟨B, hB, hl, hs, hx⟩ := r.blk
  have hle := r.le
  obtain ⟨⟨b, off⟩, cap, len⟩ := v
  have ho : off = 0 := r.off
  have hlen : len = xs.length := r.len
  subst ho; subst hlen
  simp only at hB hs hle
  obtain ⟨B1, e, w1, w2, w3, w4⟩ := write_ok hc (k := 0) (i := k) x hB hl (by rw [hs, Nat.zero_add]; exact Nat.mul_le_mul_right _ (by omega))
  rw [Nat.zero_add] at e w3 w4
  refine ⟨h.set b B1, ?_, ⟨⟨rfl, by simp, by simp; exact hle, r.pos, r.bound, B1, get_set hB, w1, w2.trans hs, ?_⟩, Keep.set _ _ _, .inl rfl,
    Nat.le_refl _⟩, ⟨rfl, rfl, quiet_set hB hl, by simp⟩⟩
  · unfold Vec.set
    simp only [ptr_add, Nat.zero_add, if_pos hk]
    exact e
  · intro i y hi j hj
    rw [Nat.zero_add]
    by_cases e : i = k
    · subst e
      rw [List.getElem?_set_self hk] at hi
      cases hi
      exact w4 j hj
    · rw [List.getElem?_set_ne (Ne.symm e)] at hi
      have := hx i y hi j hj
      rw [Nat.zero_add] at this
      rw [this, w3]
      rcases Nat.lt_or_gt_of_ne e with h1 | h1
      · exact .inl (mul_lt_step h1 hj)
      · right
        exact Nat.le_trans (Nat.mul_le_mul_right c.size (show k + 1 ≤ i from h1)) (Nat.le_add_right _ _)

theorem set_panic {n : Nat} {h : Heap} {v : Vec} {xs : List V} (r : VRep c n h v xs) {k : Nat} (hk : ¬ k < xs.length) (x : V) :
    Vec.set c v k x h = .panic := by
  unfold Vec.set
  rw [if_neg (by rw [r.len]; exact hk)]; rfl

/-! ## Iterators -/

theorem intoIter_ok {n : Nat} {h : Heap} {v : Vec} {xs : List V} (r : VRep c n h v xs) : IRep c h (Vec.intoIter c v) xs ∧
    (Vec.intoIter c v).buf.blk = v.ptr.blk := by
  obtain ⟨B, hB, hl, hs, hx⟩ := r.blk
  have hsz : xs.length * c.size ≤ B.size := by rw [hs]; exact Nat.mul_le_mul_right _ r.le
  refine ⟨⟨r.off, rfl, ?_, B, 0, hB, hl, ?_, ?_, by rw [Nat.zero_add]; exact hsz, hx⟩, rfl⟩
  · unfold Vec.intoIter
    dsimp only
    split
    · rfl
    · split <;> rfl
  · rw [Nat.zero_mul]; exact r.off
  · unfold Vec.intoIter
    dsimp only
    split
    · next h0 => show v.ptr.off + v.len = _; rw [r.off, r.len, h0]; simp
    · split
      · next h0 h1 => rw [r.len] at h1; rw [r.off, h1]; simp
      · next h0 h1 =>
        show v.ptr.off + v.len * c.size = _
        rw [r.off, r.len, Nat.zero_add, Nat.zero_add, Nat.max_eq_left (by omega)]

theorem irep_empty {h : Heap} {it : Iter} {xs : List V} (r : IRep c h it xs) : it.start = it.stop ↔ xs = [] := by
  obtain ⟨B, k, _, _, h1, h2, _, _⟩ := r.blk
  have hm : 0 < max c.size 1 := by omega
  constructor
  · intro e
    rw [e, h2] at h1
    have := Nat.eq_of_mul_eq_mul_right hm h1
    exact List.length_eq_zero_iff.mp (by omega)
  · rintro rfl
    have e1 := r.start; have e2 := r.stop
    obtain ⟨buf, ⟨sb, so⟩, ⟨tb, to⟩⟩ := it
    simp at e1 e2 h1 h2
    simp [e1, e2, h1, h2]

theorem read_at (hc : c.Ok) {h : Heap} {b k i off : Nat} {B : Block} {xs : List V} {x : V} (hB : h[b]? = some B) (hl : B.live = true)
    (hs : (k + i + 1) * c.size ≤ B.size) (hx : Cells c B k xs) (hi : xs[i]? = some x) (ho : off = (k + i) * max c.size 1) :
    read c ⟨b, off⟩ h = .ok (x, h) := by
  by_cases h0 : c.size = 0
  · have e : c.enc x = [] := List.length_eq_zero_iff.mp (by rw [hc.len, h0])
    have hd := hc.dec x
    rw [e] at hd
    unfold read readBytes
    refine (bind_ok (a := []) (h' := h) (by simp [h0])).trans ?_
    rw [hd]; rfl
  · rw [ho, Nat.max_eq_left (by omega)]
    exact read_ok hc hB hl hs hx hi

theorem next_ok (hc : c.Ok) {h : Heap} {it : Iter} {xs : List V} (r : IRep c h it xs) :
    ∃ it', Iter.next c it h = .ok ((xs.head?, it'), h) ∧ IRep c h it' xs.tail ∧ it'.buf = it.buf := by
  unfold Iter.next
  cases xs with
  | nil => rw [if_pos ((irep_empty r).mpr rfl)]; exact ⟨it, rfl, r, rfl⟩
  | cons x xs =>
    rw [if_neg (by rw [irep_empty r]; simp)]
    obtain ⟨B, k, hB, hl, h1, h2, hs, hx⟩ := r.blk
    have e1 := r.start
    simp only [List.length_cons] at hs h2
    have rd := read_at hc (k := k) (i := 0) (off := it.start.off) hB hl (Nat.le_trans (Nat.mul_le_mul_right _ (by omega)) hs) hx rfl h1
    rw [← e1] at rd
    refine ⟨_, (bind_ok rd).trans rfl, ⟨r.off, ?_, r.stop, B, k + 1, hB, hl, ?_, ?_, ?_, ?_⟩, rfl⟩
    · dsimp only
      split
      · exact e1
      · exact e1
    · dsimp only
      split
      · next h0 => show it.start.off + 1 = _; rw [h1, h0]; simp
      · next h0 => show it.start.off + 1 * c.size = _; rw [h1, Nat.max_eq_left (by omega), Nat.one_mul, Nat.add_mul, Nat.one_mul]
    · rw [h2, List.tail_cons, show k + 1 + xs.length = k + (xs.length + 1) by omega]
    · rw [List.tail_cons, show k + 1 + xs.length = k + (xs.length + 1) by omega]; exact hs
    · intro i y hi j hj
      have := hx (i + 1) y hi j hj
      rwa [show k + (i + 1) = k + 1 + i by omega] at this

theorem nextBack_ok (hc : c.Ok) {h : Heap} {it : Iter} {xs : List V} (r : IRep c h it xs) :
    ∃ it', Iter.nextBack c it h = .ok ((xs.getLast?, it'), h) ∧ IRep c h it' xs.dropLast ∧ it'.buf = it.buf := by
  unfold Iter.nextBack
  by_cases e : xs = []
  · subst e; rw [if_pos ((irep_empty r).mpr rfl)]; exact ⟨it, rfl, r, rfl⟩
  · rw [if_neg (by rw [irep_empty r]; exact e)]
    obtain ⟨x, g1, g2, g3⟩ := last_split xs e
    obtain ⟨B, k, hB, hl, h1, h2, hs, hx⟩ := r.blk
    have hp : 0 < xs.length := List.length_pos_iff.mpr e
    have hstep : it.stop.off = (k + (xs.length - 1)) * max c.size 1 + max c.size 1 := by
      rw [h2, show k + xs.length = (k + (xs.length - 1)) + 1 by omega, Nat.add_mul, Nat.one_mul]
    rw [if_neg (by omega)]
    have rd := read_at hc (k := k) (i := xs.length - 1) (off := it.stop.off - max c.size 1) hB hl
      (Nat.le_trans (Nat.mul_le_mul_right _ (by omega)) hs) hx g3 (by omega)
    have e2 := r.stop
    rw [← e2] at rd
    rw [g1]
    refine ⟨{ it with stop := ⟨it.stop.blk, it.stop.off - max c.size 1⟩ }, (bind_ok rd).trans rfl, ⟨r.off, r.start, e2, B, k, hB, hl, h1, ?_, ?_, hx.dropLast⟩, rfl⟩
    · simp only [List.length_dropLast]; omega
    · exact Nat.le_trans (Nat.mul_le_mul_right _ (by simp)) hs

theorem sizeHint_ok {h : Heap} {it : Iter} {xs : List V} (r : IRep c h it xs) : Iter.sizeHint c it = xs.length := by
  obtain ⟨B, k, _, _, h1, h2, _, _⟩ := r.blk
  unfold Iter.sizeHint
  have hm : (if c.size = 0 then 1 else c.size) = max c.size 1 := by split <;> omega
  rw [hm, h1, h2, ← Nat.sub_mul, Nat.add_sub_cancel_left, Nat.mul_div_cancel _ (by omega)]

theorem nextLoop_ok (hc : c.Ok) {h : Heap} : ∀ {xs : List V} {it : Iter}, IRep c h it xs →
    ∃ it', nextLoop c xs.length it h = .ok ((xs, it'), h) ∧ it'.buf = it.buf := by
  intro xs
  induction xs with
  | nil => intro it r; exact ⟨it, rfl, rfl⟩
  | cons x xs ih =>
    intro it r
    obtain ⟨it1, e1, r1, b1⟩ := next_ok hc r
    obtain ⟨it2, e2, b2⟩ := ih r1
    refine ⟨it2, ?_, b2.trans b1⟩
    unfold nextLoop
    exact (bind_ok e1).trans ((bind_ok e2).trans rfl)

theorem dropIter_ok (hc : c.Ok) {h : Heap} {it : Iter} {xs : List V} (r : IRep c h it xs) :
    ∃ h', Iter.drop c it h = .ok (xs, h') ∧ Keep it.buf.blk h h' ∧ h'.length = h.length ∧ ∀ a, Live h' a → Live h a ∧ a ≠ it.buf.blk := by
  obtain ⟨it', e, p⟩ := nextLoop_ok hc r
  obtain ⟨B, k, hB, hl, _⟩ := r.blk
  refine ⟨h.set it.buf.blk { B with live := false }, ?_, Keep.set _ _ _, by simp, fun a l => live_free hB l⟩
  unfold Iter.drop
  rw [sizeHint_ok r]
  refine (bind_ok e).trans ((bind_ok (a := ()) (h' := h.set it.buf.blk { B with live := false }) ?_).trans rfl)
  show free it'.buf h = _
  have : it'.buf = ⟨it.buf.blk, 0⟩ := by rw [p, ← r.off]
  rw [this]
  exact free_ok hB hl

/-! ## `vec!` -/

theorem pushAll_ok (hc : c.Ok) {n : Nat} (s : Sizes c n) : ∀ (l : List V) {h : Heap} {v : Vec} {xs : List V}, VRep c n h v xs →
    xs.length + l.length ≤ n → (g.copies = true ∨ xs.length + l.length ≤ v.cap) →
    ∃ v' h', pushAll g c l v h = .ok (v', h') ∧ Did n c h h' v v' (xs ++ l) ∧ (xs.length + l.length ≤ v.cap → Stays h h' v v') := by
  intro l
  induction l with
  | nil =>
    intro h v xs r _ _
    rw [List.append_nil]
    exact ⟨v, h, rfl, Did.refl r, fun _ => Stays.refl _ _⟩
  | cons x l ih =>
    intro h v xs r hn hg
    rw [List.length_cons] at hn hg
    obtain ⟨v1, h1, e1, d1, t1⟩ := push_ok (g := g) hc s r x (by omega) (by rcases hg with hg | hg; exact .inl hg; exact .inr (by omega))
    obtain ⟨v2, h2, e2, d2, t2⟩ := ih d1.rep (by simp; omega) (by
      rcases hg with hg | hg
      · exact .inl hg
      · right; have := d1.cap; simp; omega)
    refine ⟨v2, h2, ?_, ?_, fun hh => ?_⟩
    · unfold pushAll
      exact (bind_ok e1).trans e2
    · have := d1.trans d2
      rwa [List.append_assoc] at this
    · rw [List.length_cons] at hh
      exact (t1 (by omega)).trans (t2 (by have := d1.cap; simp; omega))

theorem ofList_ok (hc : c.Ok) {n : Nat} (s : Sizes c n) (l : List V) (hn : l.length ≤ n) (hg : g.copies = true ∨ l.length ≤ 32) (h : Heap) :
    ∃ v h', Vec.ofList g c l h = .ok (v, h') ∧ VRep c n h' v l ∧ 32 ≤ v.cap ∧ h.length ≤ v.ptr.blk ∧ h.length ≤ h'.length ∧
      (∀ a, a < h.length → h'[a]? = h[a]?) ∧ (l.length ≤ 32 → ∀ a, Live h' a → Live h a ∨ a = v.ptr.blk) := by
  obtain ⟨w, h0, e0, r0, c0, b0, l0, s0, v0⟩ := new_ok (g := g) s h
  obtain ⟨v, h', e, d, t⟩ := pushAll_ok (g := g) hc s l r0 (by simp; omega) (by rw [c0]; simpa using hg)
  rw [List.nil_append] at d
  have hl := d.keep.len
  refine ⟨v, h', ?_, d.rep, by have := d.cap; omega, ?_, by omega, fun a ha => ?_, fun h32 a la => ?_⟩
  · unfold Vec.ofList
    exact (bind_ok e0).trans e
  · rcases d.own with o | o <;> omega
  · rw [d.keep.same a (by omega) (by omega), s0 a ha]
  · have st := t (by simp; omega)
    rcases v0 a (st.quiet a la) with h1 | h1
    · exact .inl h1
    · right; rw [st.ptr, b0]; exact h1

/-- A vector made with room for its elements. -/
theorem ofList_room (hc : c.Ok) {n : Nat} (s : Sizes c n) (l : List V) (hl : l.length ≤ 32) (h : Heap) :
    ∃ v h', Vec.ofList g c l h = .ok (v, h') ∧ VRep c n h' v l ∧ v.cap = 32 ∧ v.ptr.blk = h.length ∧ h'.length = h.length + 1 := by
  obtain ⟨w, h0, e0, r0, c0, b0, l0, s0, v0⟩ := new_ok (g := g) s h
  obtain ⟨v, h', e, d, t⟩ := pushAll_ok (g := g) hc s l r0 (by simp; have := s.lo; omega) (by rw [c0]; simp; exact .inr hl)
  rw [List.nil_append] at d
  have st := t (by simp; omega)
  refine ⟨v, h', ?_, d.rep, by rw [st.cap, c0], by rw [st.ptr, b0], by rw [st.len, l0]⟩
  unfold Vec.ofList
  exact (bind_ok e0).trans e

/-- Growing without copying: the new block has whatever it had. -/
theorem grow_plain {n : Nat} (s : Sizes c n) {h : Heap} {v : Vec} {xs ys : List V} (r : VRep c n h v xs) (hg : g.copies = false)
    (hf : xs.length = v.cap) (hn : xs.length < n) (hy : ys.length = xs.length) (hj : Cells c ⟨true, 2 * v.cap * c.size, g.junk h.length⟩ 0 ys) :
    ∃ v' h', Vec.grow g c v h = .ok (v', h') ∧ VRep c n h' v' ys ∧ v'.cap = 2 * v.cap := by
  have e2 : umul 2 v.cap h = .ok (2 * v.cap, h) := umul_ok (by have := s.cnt; omega) h
  have e3 : umul v.cap c.size h = .ok (v.cap * c.size, h) := s.umul (by omega) h
  have e4 : umul (2 * v.cap) c.size h = .ok (2 * v.cap * c.size, h) := s.umul (by omega) h
  refine ⟨⟨⟨h.length, 0⟩, 2 * v.cap, v.len⟩, h ++ [⟨true, 2 * v.cap * c.size, g.junk h.length⟩], ?_,
    ⟨rfl, by show v.len = _; rw [r.len, hy], by show _ ≤ 2 * v.cap; omega, by show 0 < 2 * v.cap; have := r.pos; omega, by show 2 * v.cap ≤ _; omega, _,
      by simp, rfl, rfl, hj⟩, rfl⟩
  unfold Vec.grow
  refine (bind_ok e2).trans ((bind_ok e3).trans ((bind_ok e4).trans ?_))
  refine (bind_ok (a := ⟨h.length, 0⟩) (h' := h ++ [⟨true, 2 * v.cap * c.size, g.junk h.length⟩]) ?_).trans rfl
  unfold sizedRealloc
  rw [bind_ok (a := ⟨h.length, 0⟩) (h' := h ++ [⟨true, 2 * v.cap * c.size, g.junk h.length⟩]) rfl, hg]
  rfl

/-- Bytes holding the elements `ys`. -/
def bytesOf (c : Codec V) (ys : List V) (j : Nat) : Byte :=
  match ys[j / c.size]? with
  | some y => ((c.enc y)[j % c.size]?).getD 0
  | none => 0

theorem bytesOf_cells (hc : c.Ok) (ys : List V) {a : Bool} {b : Nat} : Cells c ⟨a, b, bytesOf c ys⟩ 0 ys := by
  intro i x hi j hj
  have h1 : ((0 + i) * c.size + j) / c.size = i := by
    rw [Nat.zero_add, Nat.mul_comm, Nat.mul_add_div (by omega), Nat.div_eq_of_lt hj]; rfl
  have h2 : ((0 + i) * c.size + j) % c.size = j := by
    rw [Nat.zero_add, Nat.mul_comm, Nat.mul_add_mod, Nat.mod_eq_of_lt hj]
  show _ = some (bytesOf c ys _)
  unfold bytesOf
  rw [h1, h2, hi]
  have : (c.enc x)[j]? = some ((c.enc x)[j]'(by rw [hc.len]; exact hj)) := List.getElem?_eq_getElem _
  simp [this]

/-- The loop of `vec![val; count]` when both expressions have no effect besides the state of `val`. -/
theorem repeat_ok (hc : c.Ok) {n : Nat} (s : Sizes c n) {σ : Type} {val : σ → V × σ} {count : σ → Nat × σ} {f : Nat → V} {st : Nat → σ} {k : Nat}
    (hval : ∀ i, i < k → ∀ s1, count (st i) = (k, s1) → val s1 = (f i, st (i + 1))) (hcount : ∀ i, i ≤ k → (count (st i)).1 = k)
    (hn : k ≤ n) (hg : g.copies = true ∨ k ≤ 32) :
    ∀ (m i : Nat) {h : Heap} {v : Vec}, i + m = k → VRep c n h v ((List.range i).map f) → 32 ≤ v.cap →
      ∃ v' h', RepeatLoop g c val count i v (st i) h v' (count (st k)).2 h' ∧ VRep c n h' v' ((List.range k).map f) := by
  intro m
  induction m with
  | zero =>
    intro i h v e r _
    have : i = k := by omega
    subst this
    exact ⟨v, h, .stop (n := i) (Prod.ext (hcount i (by omega)) rfl) (by omega), r⟩
  | succ m ih =>
    intro i h v e r hv
    obtain ⟨v1, h1, e1, d1, _⟩ := push_ok (g := g) hc s r (f i) (by simp; omega) (by simp; rcases hg with h | h; exact .inl h; exact .inr (by omega))
    have r1 := d1.rep
    have : (List.range i).map f ++ [f i] = (List.range (i + 1)).map f := by rw [List.range_succ, List.map_append]; rfl
    rw [this] at r1
    obtain ⟨v2, h2, e2, r2⟩ := ih (i + 1) (by omega) r1 (by have := d1.cap; omega)
    have hc' : count (st i) = (k, (count (st i)).2) := Prod.ext (hcount i (by omega)) rfl
    exact ⟨v2, h2, .step hc' (by omega) (hval i (by omega) _ hc') e1 e2, r2⟩

end Smack.RustVec
