/- Auxiliary lemmas: accesses, the representation of vectors and iterators, each operation. -/
import Verif.RustVec.Spec

namespace Smack.RustVec

variable {V : Type} {g : Cfg} {c : Codec V}

/-! ## The monad -/

theorem bind_ok {α β : Type} {m : M α} {f : α → M β} {h h' : Heap} {a : α} (e : m h = .ok (a, h')) : (m >>= f) h = f a h' := by
  show M.bind m f h = _
  unfold M.bind; rw [e]

theorem pure_eq {α : Type} (a : α) (h : Heap) : (Pure.pure a : M α) h = .ok (a, h) := rfl

/-! ## Accesses -/

theorem getElem?_lt {α : Type} {l : List α} {i : Nat} {x : α} (h : l[i]? = some x) : i < l.length := (List.getElem?_eq_some_iff.mp h).1

theorem set_same {α : Type} {l : List α} {i : Nat} {x : α} (h : l[i]? = some x) : l.set i x = l := by
  obtain ⟨hi, e⟩ := List.getElem?_eq_some_iff.mp h
  rw [← e, List.set_getElem_self]

theorem get_set {α : Type} {l : List α} {i : Nat} {x y : α} (h : l[i]? = some x) : (l.set i y)[i]? = some y := by
  rw [List.getElem?_set_self (getElem?_lt h)]

theorem get_set_ne {α : Type} {l : List α} {i j : Nat} {y : α} (h : j ≠ i) : (l.set i y)[j]? = l[j]? := by
  rw [List.getElem?_set_ne (Ne.symm h)]

theorem readBytes_ok {h : Heap} {b off n : Nat} {B : Block} (hB : h[b]? = some B) (hl : B.live = true) (hs : off + n ≤ B.size) :
    readBytes ⟨b, off⟩ n h = .ok ((List.range n).map (fun i => B.data (off + i)), h) := by
  unfold readBytes
  split
  · next e => subst e; rfl
  · show (match h[b]? with | some b => _ | none => _) = _
    rw [hB]
    simp [hl, hs]

theorem writeBytes_ok {h : Heap} {b off : Nat} {l : List Byte} {B : Block} (hB : h[b]? = some B) (hl : B.live = true)
    (hs : off + l.length ≤ B.size) :
    ∃ B' : Block, writeBytes ⟨b, off⟩ l h = .ok ((), h.set b B') ∧ B'.live = true ∧ B'.size = B.size ∧
      (∀ i, i < off ∨ off + l.length ≤ i → B'.data i = B.data i) ∧ (∀ j, j < l.length → l[j]? = some (B'.data (off + j))) := by
  unfold writeBytes
  by_cases e : l = []
  · subst e
    refine ⟨B, ?_, hl, rfl, fun _ _ => rfl, fun j hj => absurd hj (by simp)⟩
    simp [set_same hB]
  · refine ⟨{ B with data := fun i => if i < off then B.data i else (l[i - off]?).getD (B.data i) }, ?_, hl, rfl, ?_, ?_⟩
    · rw [if_neg e]
      show (match h[b]? with | some b => _ | none => _) = _
      rw [hB]
      simp [hl, hs]
    · intro i hi
      show (if i < off then B.data i else (l[i - off]?).getD (B.data i)) = _
      split
      · rfl
      · rw [List.getElem?_eq_none (by omega)]; rfl
    · intro j hj
      show _ = some (if off + j < off then B.data (off + j) else (l[off + j - off]?).getD (B.data (off + j)))
      rw [if_neg (by omega), Nat.add_sub_cancel_left, List.getElem?_eq_getElem hj]; rfl

/-- The elements `xs` are stored from element `k` on. -/
def Cells (c : Codec V) (B : Block) (k : Nat) (xs : List V) : Prop :=
  ∀ i x, xs[i]? = some x → ∀ j, j < c.size → (c.enc x)[j]? = some (B.data ((k + i) * c.size + j))

theorem Cells.nil {B : Block} {k : Nat} : Cells c B k [] := fun i x h => by simp at h

theorem read_ok (hc : c.Ok) {h : Heap} {b k i : Nat} {B : Block} {xs : List V} {x : V} (hB : h[b]? = some B) (hl : B.live = true)
    (hs : (k + i + 1) * c.size ≤ B.size) (hx : Cells c B k xs) (hi : xs[i]? = some x) : read c ⟨b, (k + i) * c.size⟩ h = .ok (x, h) := by
  unfold read
  rw [Nat.add_mul, Nat.one_mul] at hs
  rw [bind_ok (readBytes_ok hB hl hs)]
  have : (List.range c.size).map (fun j => B.data ((k + i) * c.size + j)) = c.enc x := by
    apply List.ext_getElem?
    intro j
    by_cases hj : j < c.size
    · rw [hx i x hi j hj]; simp [hj]
    · rw [List.getElem?_eq_none (by simp; omega), List.getElem?_eq_none (by rw [hc.len]; omega)]
  rw [this, hc.dec]; rfl

theorem mul_lt_step {i k s j : Nat} (h : i < k) (hj : j < s) : i * s + j < k * s := by
  have := Nat.mul_le_mul_right s h
  rw [Nat.succ_mul] at this; omega

/-! ## Representation -/

variable (c) in
/-- A vector with the elements `xs` in its own block. `n` is a bound on lengths. -/
structure VRep (n : Nat) (h : Heap) (v : Vec) (xs : List V) : Prop where
  off : v.ptr.off = 0
  len : v.len = xs.length
  le : xs.length ≤ v.cap
  pos : 0 < v.cap
  bound : v.cap ≤ 2 * n
  blk : ∃ B, h[v.ptr.blk]? = some B ∧ B.live = true ∧ B.size = v.cap * c.size ∧ Cells c B 0 xs

variable (c) in
/-- An iterator with the elements `xs` to come. -/
structure IRep (h : Heap) (it : Iter) (xs : List V) : Prop where
  off : it.buf.off = 0
  start : it.start.blk = it.buf.blk
  stop : it.stop.blk = it.buf.blk
  blk : ∃ B k, h[it.buf.blk]? = some B ∧ B.live = true ∧ it.start.off = k * max c.size 1 ∧ it.stop.off = (k + xs.length) * max c.size 1 ∧
    (k + xs.length) * c.size ≤ B.size ∧ Cells c B k xs

theorem VRep.lt {n : Nat} {h : Heap} {v : Vec} {xs : List V} (r : VRep c n h v xs) : v.ptr.blk < h.length := by
  obtain ⟨B, hB, _⟩ := r.blk; exact getElem?_lt hB

theorem VRep.live {n : Nat} {h : Heap} {v : Vec} {xs : List V} (r : VRep c n h v xs) : Live h v.ptr.blk := by
  obtain ⟨B, hB, hl, _⟩ := r.blk; exact ⟨B, hB, hl⟩

theorem VRep.frame {n : Nat} {h h' : Heap} {v : Vec} {xs : List V} (r : VRep c n h v xs) (e : h'[v.ptr.blk]? = h[v.ptr.blk]?) :
    VRep c n h' v xs := ⟨r.off, r.len, r.le, r.pos, r.bound, by rw [e]; exact r.blk⟩

theorem IRep.frame {h h' : Heap} {it : Iter} {xs : List V} (r : IRep c h it xs) (e : h'[it.buf.blk]? = h[it.buf.blk]?) :
    IRep c h' it xs := ⟨r.off, r.start, r.stop, by rw [e]; exact r.blk⟩

theorem Live.lt {h : Heap} {b : Nat} (l : Live h b) : b < h.length := by
  obtain ⟨B, hB, _⟩ := l; exact getElem?_lt hB

/-- The heap changes only in the block `b` and in new blocks. -/
structure Keep (b : Nat) (h h' : Heap) : Prop where
  len : h.length ≤ h'.length
  same : ∀ a, a < h.length → a ≠ b → h'[a]? = h[a]?

theorem Keep.refl (b : Nat) (h : Heap) : Keep b h h := ⟨Nat.le_refl _, fun _ _ _ => rfl⟩

theorem Keep.set (b : Nat) (h : Heap) (B : Block) : Keep b h (h.set b B) := ⟨by simp, fun _ _ n => get_set_ne n⟩

/-- Blocks stay live only if they were. -/
def Quiet (h h' : Heap) : Prop := ∀ a, Live h' a → Live h a

theorem quiet_set {h : Heap} {b : Nat} {B B' : Block} (hB : h[b]? = some B) (hl : B.live = true) : Quiet h (h.set b B') := by
  rintro a ⟨A, hA, la⟩
  by_cases e : a = b
  · subst e; exact ⟨B, hB, hl⟩
  · rw [get_set_ne e] at hA; exact ⟨A, hA, la⟩

/-! ## Operations -/

theorem umul_ok {a b : Nat} (h : a * b < 2 ^ 64) (hp : Heap) : umul a b hp = .ok (a * b, hp) := by
  unfold umul
  rw [if_pos h]; rfl

theorem Sizes.umul {n cap : Nat} (s : Sizes c n) (h : cap ≤ 4 * n) (hp : Heap) : umul cap c.size hp = .ok (cap * c.size, hp) :=
  umul_ok (Nat.lt_of_le_of_lt (Nat.mul_le_mul_right _ h) s.bytes) hp

theorem get_append {h : Heap} {B : Block} {a : Nat} (ha : a < h.length) : (h ++ [B])[a]? = h[a]? := List.getElem?_append_left ha

theorem live_append {h : Heap} {B : Block} {a : Nat} (l : Live (h ++ [B]) a) : Live h a ∨ a = h.length := by
  obtain ⟨A, hA, la⟩ := l
  by_cases e : a < h.length
  · rw [get_append e] at hA; exact .inl ⟨A, hA, la⟩
  · have := getElem?_lt hA
    simp at this; right; omega

theorem alloc_rep {n cap : Nat} {h : Heap} (h0 : 0 < cap) (h1 : cap ≤ 2 * n) (J : Nat → Byte) :
    VRep c n (h ++ [⟨true, cap * c.size, J⟩]) ⟨⟨h.length, 0⟩, cap, 0⟩ [] :=
  ⟨rfl, rfl, Nat.zero_le _, h0, h1, ⟨true, cap * c.size, J⟩, by simp, rfl, rfl, Cells.nil⟩

theorem new_ok {n : Nat} (s : Sizes c n) (h : Heap) : ∃ v h', Vec.new g c h = .ok (v, h') ∧ VRep c n h' v [] ∧ v.cap = 32 ∧
    v.ptr.blk = h.length ∧ h'.length = h.length + 1 ∧ (∀ a, a < h.length → h'[a]? = h[a]?) ∧
    (∀ a, Live h' a → Live h a ∨ a = h.length) :=
  ⟨⟨⟨h.length, 0⟩, 32, 0⟩, _, (bind_ok (s.umul (by have := s.lo; omega) h)).trans rfl, alloc_rep (by decide) (by have := s.lo; omega) _, rfl, rfl, by simp, fun _ ha => get_append ha, fun _ l => live_append l⟩

theorem withCapacity_ok {n cap : Nat} (s : Sizes c n) (h0 : 0 < cap) (h1 : cap ≤ n) (h : Heap) :
    ∃ v h', Vec.withCapacity g c cap h = .ok (v, h') ∧ VRep c n h' v [] ∧ v.cap = cap ∧
    v.ptr.blk = h.length ∧ h'.length = h.length + 1 ∧ (∀ a, a < h.length → h'[a]? = h[a]?) ∧
    (∀ a, Live h' a → Live h a ∨ a = h.length) :=
  ⟨⟨⟨h.length, 0⟩, cap, 0⟩, _, (bind_ok (s.umul (by omega) h)).trans rfl, alloc_rep h0 (by omega) _, rfl, rfl, by simp, fun _ ha => get_append ha, fun _ l => live_append l⟩

theorem grow_ok {n : Nat} (s : Sizes c n) {h : Heap} {v : Vec} {xs : List V} (r : VRep c n h v xs) (hg : g.copies = true)
    (hf : xs.length = v.cap) (hn : xs.length < n) : ∃ v' h', Vec.grow g c v h = .ok (v', h') ∧ VRep c n h' v' xs ∧ v'.cap = 2 * v.cap ∧
      v'.len = v.len ∧ v'.ptr.blk = h.length ∧ Keep v.ptr.blk h h' ∧ h'.length = h.length + 1 ∧ ∀ a, a < h.length → h'[a]? = h[a]? := by
  obtain ⟨B, hB, hl, hs, hx⟩ := r.blk
  obtain ⟨⟨b, off⟩, cap, len⟩ := v
  have ho : off = 0 := r.off
  subst ho
  simp only at hB hs hf
  have hcap : cap < n := by omega
  have e2 : umul 2 cap h = .ok (2 * cap, h) := umul_ok (by have := s.cnt; omega) h
  have e3 : umul cap c.size h = .ok (cap * c.size, h) := s.umul (by omega) h
  have e4 : umul (2 * cap) c.size h = .ok (2 * cap * c.size, h) := s.umul (by omega) h
  have hbl := getElem?_lt hB
  let N : Block := ⟨true, 2 * cap * c.size, g.junk h.length⟩
  have h1 : (h ++ [N])[b]? = some B := by rw [get_append hbl]; exact hB
  have h2 : (h ++ [N])[h.length]? = some N := by simp
  have rd := readBytes_ok (off := 0) (n := cap * c.size) h1 hl (by omega)
  have hlen : ((List.range (cap * c.size)).map (fun i => B.data (0 + i))).length = cap * c.size := by simp
  obtain ⟨N', wr, wl, ws, _, wd⟩ := writeBytes_ok (off := 0) (l := (List.range (cap * c.size)).map (fun i => B.data (0 + i))) h2 rfl
    (by rw [hlen]; show 0 + cap * c.size ≤ 2 * cap * c.size; rw [Nat.mul_assoc]; omega)
  rw [hlen] at wd
  refine ⟨⟨⟨h.length, 0⟩, 2 * cap, len⟩, (h ++ [N]).set h.length N', ?_, ?_, rfl, rfl, rfl, ⟨by simp, ?_⟩, by simp, ?_⟩
  · unfold Vec.grow
    refine (bind_ok e2).trans ((bind_ok e3).trans ((bind_ok e4).trans ?_))
    refine (bind_ok (a := ⟨h.length, 0⟩) (h' := (h ++ [N]).set h.length N') ?_).trans rfl
    unfold sizedRealloc
    rw [bind_ok (a := ⟨h.length, 0⟩) (h' := h ++ [N]) rfl, hg, if_pos rfl]
    refine (bind_ok (a := ()) (h' := (h ++ [N]).set h.length N') ?_).trans rfl
    unfold copyBytes
    rw [bind_ok rd]
    exact wr
  · refine ⟨rfl, r.len, by show _ ≤ 2 * cap; omega, by show 0 < 2 * cap; have := r.pos; simp at this; omega, by show 2 * cap ≤ _; omega, N', ?_, wl, ws, ?_⟩
    · show ((h ++ [N]).set h.length N')[h.length]? = _
      exact get_set h2
    · intro i x hi j hj
      have hic := getElem?_lt hi
      have hlt : i * c.size + j < cap * c.size := mul_lt_step (by omega) hj
      have := wd _ hlt
      rw [Nat.zero_add] at this ⊢
      simp only [List.getElem?_map, List.getElem?_range hlt, Option.map_some, Nat.zero_add] at this
      rw [← this]
      have := hx i x hi j hj
      rwa [Nat.zero_add] at this
  · intro a ha hne
    rw [get_set_ne (by omega), get_append ha]
  · intro a ha
    rw [get_set_ne (by omega), get_append ha]

/-- Storing an element of a vector. -/
theorem write_ok (hc : c.Ok) {h : Heap} {b k i : Nat} {B : Block} (x : V) (hB : h[b]? = some B) (hl : B.live = true)
    (hs : (k + i + 1) * c.size ≤ B.size) :
    ∃ B' : Block, write c ⟨b, (k + i) * c.size⟩ x h = .ok ((), h.set b B') ∧ B'.live = true ∧ B'.size = B.size ∧
      (∀ j, j < (k + i) * c.size ∨ (k + i + 1) * c.size ≤ j → B'.data j = B.data j) ∧
      (∀ j, j < c.size → (c.enc x)[j]? = some (B'.data ((k + i) * c.size + j))) := by
  rw [Nat.add_mul (k + i), Nat.one_mul] at *
  have := writeBytes_ok (l := c.enc x) (off := (k + i) * c.size) hB hl (by rw [hc.len]; exact hs)
  rw [hc.len] at this
  exact this

theorem Cells.of_eq {B B' : Block} {k : Nat} {xs : List V} (hx : Cells c B k xs)
    (h : ∀ i, i < xs.length → ∀ j, j < c.size → B'.data ((k + i) * c.size + j) = B.data ((k + i) * c.size + j)) : Cells c B' k xs := by
  intro i x hi j hj
  rw [h i (getElem?_lt hi) j hj]; exact hx i x hi j hj

theorem ptr_add {b off i : Nat} : Ptr.add c ⟨b, off⟩ i = ⟨b, off + i * c.size⟩ := rfl

/-- The part of `push` after growing. -/
theorem push_room (hc : c.Ok) {n : Nat} {h : Heap} {v : Vec} {xs : List V} (r : VRep c n h v xs) (x : V) (hf : xs.length < v.cap) :
    ∃ h', (write c (v.ptr.add c v.len) x) h = .ok ((), h') ∧ VRep c n h' { v with len := v.len + 1 } (xs ++ [x]) ∧
      Keep v.ptr.blk h h' ∧ h'.length = h.length ∧ Quiet h h' := by
  obtain ⟨B, hB, hl, hs, hx⟩ := r.blk
  obtain ⟨⟨b, off⟩, cap, len⟩ := v
  have ho : off = 0 := r.off
  have hlen : len = xs.length := r.len
  subst ho; subst hlen
  simp only at hB hs hf
  obtain ⟨B', wr, wl, ws, we, wd⟩ := write_ok hc (k := 0) (i := xs.length) x hB hl
    (by rw [hs, Nat.zero_add]; exact Nat.mul_le_mul_right _ hf)
  rw [Nat.zero_add] at wr we wd
  refine ⟨h.set b B', ?_, ⟨rfl, by simp, by simp; exact hf, r.pos, r.bound, B', get_set hB, wl, ws.trans hs, ?_⟩, Keep.set _ _ _, by simp, quiet_set hB hl⟩
  · rw [ptr_add, Nat.zero_add]; exact wr
  · intro i y hi j hj
    rw [Nat.zero_add]
    rcases Nat.lt_or_ge i xs.length with h1 | h1
    · rw [List.getElem?_append_left h1] at hi
      have := hx i y hi j hj
      rw [Nat.zero_add] at this
      rw [we _ (.inl (mul_lt_step h1 hj)), this]
    · rw [List.getElem?_append_right h1] at hi
      have h2 := getElem?_lt hi
      simp at h2
      have h3 : i = xs.length := by omega
      subst h3
      simp at hi; subst hi
      exact wd j hj

/-- What happens to a vector. -/
structure Did (n : Nat) (c : Codec V) (h h' : Heap) (v v' : Vec) (xs' : List V) : Prop where
  rep : VRep c n h' v' xs'
  keep : Keep v.ptr.blk h h'
  own : v'.ptr.blk = v.ptr.blk ∨ h.length ≤ v'.ptr.blk
  cap : v.cap ≤ v'.cap

/-- It stays where it is. -/
structure Stays (h h' : Heap) (v v' : Vec) : Prop where
  ptr : v'.ptr = v.ptr
  cap : v'.cap = v.cap
  quiet : Quiet h h'
  len : h'.length = h.length

theorem push_ok (hc : c.Ok) {n : Nat} (s : Sizes c n) {h : Heap} {v : Vec} {xs : List V} (r : VRep c n h v xs) (x : V)
    (hn : xs.length < n) (hg : g.copies = true ∨ xs.length < v.cap) :
    ∃ v' h', Vec.push g c v x h = .ok (v', h') ∧ Did n c h h' v v' (xs ++ [x]) ∧ (xs.length < v.cap → Stays h h' v v') := by
  unfold Vec.push
  by_cases hf : xs.length < v.cap
  · rw [if_neg (by rw [r.len]; omega)]
    obtain ⟨h', e, r', k, l, q⟩ := push_room hc r x hf
    refine ⟨{ v with len := v.len + 1 }, h', ?_, ⟨r', k, .inl rfl, Nat.le_refl _⟩, fun _ => ⟨rfl, rfl, q, l⟩⟩
    exact (bind_ok (pure_eq _ _)).trans ((bind_ok e).trans rfl)
  · have hfull : xs.length = v.cap := by have := r.le; omega
    rw [if_pos (by rw [r.len]; exact hfull)]
    obtain ⟨v1, h1, e1, r1, c1, l1, b1, k1, n1, _⟩ := grow_ok s r (hg.resolve_right hf) hfull hn
    obtain ⟨h', e, r', k, l, q⟩ := push_room hc r1 x (by have := r.pos; omega)
    refine ⟨{ v1 with len := v1.len + 1 }, h', ?_, ⟨r', ⟨by have := k1.len; have := k.len; omega, ?_⟩, .inr (by show h.length ≤ v1.ptr.blk; omega),
      by show v.cap ≤ v1.cap; omega⟩, fun hh => absurd hh hf⟩
    · exact (bind_ok e1).trans ((bind_ok e).trans rfl)
    · intro a ha hne
      rw [k.same a (by have := k1.len; omega) (by omega), k1.same a ha hne]

theorem last_split (xs : List V) (h : xs ≠ []) : ∃ x, xs.getLast? = some x ∧ xs = xs.dropLast ++ [x] ∧ xs[xs.length - 1]? = some x := by
  refine ⟨xs.getLast h, List.getLast?_eq_some_getLast h, (List.dropLast_concat_getLast h).symm, ?_⟩
  have : 0 < xs.length := List.length_pos_iff.mpr h
  rw [List.getElem?_eq_getElem (by omega), List.getLast_eq_getElem]

theorem Cells.prefix {B : Block} {k : Nat} {xs ys : List V} (h : Cells c B k (xs ++ ys)) : Cells c B k xs := by
  intro i x hi
  exact h i x (by rw [List.getElem?_append_left (getElem?_lt hi)]; exact hi)

theorem Cells.dropLast {B : Block} {k : Nat} {xs : List V} (h : Cells c B k xs) : Cells c B k xs.dropLast := by
  by_cases e : xs = []
  · subst e; exact h
  · obtain ⟨x, _, e', _⟩ := last_split xs e
    rw [e'] at h; exact h.prefix

theorem pop_ok (hc : c.Ok) {n : Nat} {h : Heap} {v : Vec} {xs : List V} (r : VRep c n h v xs) :
    ∃ v', Vec.pop c v h = .ok ((xs.getLast?, v'), h) ∧ VRep c n h v' xs.dropLast ∧ v'.ptr = v.ptr ∧ v'.cap = v.cap := by
  unfold Vec.pop
  by_cases e : xs = []
  · subst e
    rw [if_pos (show v.len = 0 from r.len)]
    exact ⟨v, rfl, r, rfl, rfl⟩
  · have hp : 0 < xs.length := List.length_pos_iff.mpr e
    rw [if_neg (by rw [r.len]; omega)]
    obtain ⟨x, e1, _, e3⟩ := last_split xs e
    obtain ⟨B, hB, hl, hs, hx⟩ := r.blk
    have rd := read_ok hc (k := 0) (i := xs.length - 1) hB hl (by
      rw [hs, Nat.zero_add]; exact Nat.mul_le_mul_right _ (by have := r.le; omega)) hx e3
    refine ⟨{ v with len := v.len - 1 }, ?_, ⟨r.off, by simp [r.len], by simp; have := r.le; omega, r.pos, r.bound, B, hB, hl, hs, hx.dropLast⟩, rfl, rfl⟩
    refine (bind_ok (a := x) (h' := h) ?_).trans (by rw [e1]; rfl)
    show read c ⟨v.ptr.blk, v.ptr.off + (v.len - 1) * c.size⟩ h = _
    rw [r.off, r.len, Nat.zero_add]
    rw [Nat.zero_add] at rd
    exact rd

theorem free_ok {h : Heap} {b : Nat} {B : Block} (hB : h[b]? = some B) (hl : B.live = true) :
    free ⟨b, 0⟩ h = .ok ((), h.set b { B with live := false }) := by
  unfold free
  show (match h[b]? with | some b => _ | none => _) = _
  rw [hB]; simp [hl]

theorem live_free {h : Heap} {b : Nat} {B : Block} (hB : h[b]? = some B) {a : Nat} (l : Live (h.set b { B with live := false }) a) :
    Live h a ∧ a ≠ b := by
  obtain ⟨A, hA, la⟩ := l
  by_cases e : a = b
  · subst e; rw [get_set hB] at hA; cases hA; cases la
  · rw [get_set_ne e] at hA; exact ⟨⟨A, hA, la⟩, e⟩

theorem popLoop_ok (hc : c.Ok) {n : Nat} {h : Heap} : ∀ (k : Nat) {v : Vec} {xs : List V}, VRep c n h v xs → k = xs.length →
    ∃ v', popLoop c k v h = .ok ((xs.reverse, v'), h) ∧ v'.ptr = v.ptr := by
  intro k
  induction k with
  | zero =>
    intro v xs r e
    have : xs = [] := List.length_eq_zero_iff.mp e.symm
    subst this
    exact ⟨v, rfl, rfl⟩
  | succ k ih =>
    intro v xs r e
    obtain ⟨v1, e1, r1, p1, _⟩ := pop_ok hc r
    have hne : xs ≠ [] := by rintro rfl; cases e
    obtain ⟨x, g1, g2, _⟩ := last_split xs hne
    obtain ⟨v2, e2, p2⟩ := ih r1 (by simp; omega)
    refine ⟨v2, ?_, p2.trans p1⟩
    unfold popLoop
    refine (bind_ok e1).trans ?_
    rw [g1]
    refine (bind_ok e2).trans ?_
    show Res.ok ((x :: xs.dropLast.reverse, v2), h) = _
    conv => rhs; rw [g2]
    simp

theorem drop_ok (hc : c.Ok) {n : Nat} {h : Heap} {v : Vec} {xs : List V} (r : VRep c n h v xs) :
    ∃ h', Vec.drop c v h = .ok (xs.reverse, h') ∧ Keep v.ptr.blk h h' ∧ h'.length = h.length ∧ ∀ a, Live h' a → Live h a ∧ a ≠ v.ptr.blk := by
  obtain ⟨v', e, p⟩ := popLoop_ok hc v.len r r.len
  obtain ⟨B, hB, hl, _, _⟩ := r.blk
  refine ⟨h.set v.ptr.blk { B with live := false }, ?_, Keep.set _ _ _, by simp, fun a l => live_free hB l⟩
  unfold Vec.drop
  rw [bind_ok e]
  refine (bind_ok (a := ()) (h' := h.set v.ptr.blk { B with live := false }) ?_).trans rfl
  show free v'.ptr h = _
  have : v'.ptr = ⟨v.ptr.blk, 0⟩ := by rw [p, ← r.off]
  rw [this]
  exact free_ok hB hl

end Smack.RustVec
