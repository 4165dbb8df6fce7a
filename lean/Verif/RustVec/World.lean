/- Auxiliary lemmas: all objects of a program. -/
import Verif.RustVec.Ops

namespace Smack.RustVec

variable {V : Type} {g : Cfg} {c : Codec V}

def Obj.blk : Obj → Option Nat
  | .gone => none
  | .vec v => some v.ptr.blk
  | .iter it => some it.buf.blk

variable (c) in
inductive Rel (n : Nat) (h : Heap) : Obj → SObj V → Prop
  | gone : Rel n h .gone .gone
  | vec {v r xs} : VRep c n h v xs → r ≤ v.cap → Rel n h (.vec v) (.vec r xs)
  | iter {it xs} : IRep c h it xs → Rel n h (.iter it) (.iter xs)

variable (c) in
structure WInv (n : Nat) (h : Heap) (w : List Obj) (sw : List (SObj V)) : Prop where
  len : w.length = sw.length
  rel : ∀ (i : Nat) (o : Obj) (t : SObj V), w[i]? = some o → sw[i]? = some t → Rel c n h o t
  sep : ∀ (i j : Nat) (o p : Obj) (b : Nat), w[i]? = some o → w[j]? = some p → o.blk = some b → p.blk = some b → i = j

/-- Every live block belongs to an object. -/
def Owned (h : Heap) (w : List Obj) : Prop := ∀ a, Live h a → ∃ (i : Nat) (o : Obj), w[i]? = some o ∧ o.blk = some a

theorem Rel.frame {n : Nat} {h h' : Heap} {o : Obj} {t : SObj V} (r : Rel c n h o t) (e : ∀ b, o.blk = some b → h'[b]? = h[b]?) :
    Rel c n h' o t := by
  cases r with
  | gone => exact .gone
  | vec r l => exact .vec (r.frame (e _ rfl)) l
  | iter r => exact .iter (r.frame (e _ rfl))

theorem Rel.lt {n : Nat} {h : Heap} {o : Obj} {t : SObj V} (r : Rel c n h o t) {b : Nat} (e : o.blk = some b) : b < h.length := by
  cases r with
  | gone => cases e
  | vec r _ => cases e; exact r.lt
  | iter r =>
    cases e
    obtain ⟨B, _, hB, _⟩ := r.blk
    exact getElem?_lt hB

variable {n : Nat} {h h' : Heap} {w : List Obj} {sw : List (SObj V)}

theorem WInv.other (I : WInv c n h w sw) {i : Nat} {o : Obj} (hi : w[i]? = some o) : ∃ t, sw[i]? = some t ∧ Rel c n h o t := by
  have := getElem?_lt hi
  rw [I.len] at this
  exact ⟨_, List.getElem?_eq_getElem this, I.rel i _ _ hi (List.getElem?_eq_getElem this)⟩

theorem WInv.getVec (I : WInv c n h w sw) {i r : Nat} {xs : List V} (hi : sw[i]? = some (.vec r xs)) :
    ∃ v, w[i]? = some (.vec v) ∧ VRep c n h v xs ∧ r ≤ v.cap := by
  have := getElem?_lt hi
  rw [← I.len] at this
  have hw := List.getElem?_eq_getElem this
  have := I.rel i _ _ hw hi
  generalize w[i] = o at hw this
  cases this with
  | vec r l => exact ⟨_, hw, r, l⟩

theorem WInv.getIter (I : WInv c n h w sw) {i : Nat} {xs : List V} (hi : sw[i]? = some (.iter xs)) :
    ∃ it, w[i]? = some (.iter it) ∧ IRep c h it xs := by
  have := getElem?_lt hi
  rw [← I.len] at this
  have hw := List.getElem?_eq_getElem this
  have := I.rel i _ _ hw hi
  generalize w[i] = o at hw this
  cases this with
  | iter r => exact ⟨_, hw, r⟩

theorem WInv.set (I : WInv c n h w sw) {i b : Nat} {o o' : Obj} {t' : SObj V} (hi : w[i]? = some o) (hb : o.blk = some b) (k : Keep b h h')
    (r : Rel c n h' o' t') (own : ∀ b', o'.blk = some b' → b' = b ∨ h.length ≤ b') : WInv c n h' (w.set i o') (sw.set i t') := by
  refine ⟨by simp [I.len], ?_, ?_⟩
  · intro j p t hp ht
    by_cases e : j = i
    · subst e
      rw [get_set hi] at hp
      obtain ⟨t0, ht0, _⟩ := I.other hi
      rw [get_set ht0] at ht
      cases hp; cases ht
      exact r
    · rw [get_set_ne e] at hp ht
      have rp := I.rel j p t hp ht
      refine rp.frame fun a ha => k.same a (rp.lt ha) ?_
      rintro rfl
      exact e (I.sep j i p o a hp hi ha hb)
  · intro j l p q a hp hq ha hl
    have old : ∀ {j : Nat} {p : Obj}, j ≠ i → w[j]? = some p → p.blk = some a → o'.blk = some a → False := by
      intro j p hne hp ha ho
      obtain ⟨t, ht, rp⟩ := I.other hp
      rcases own a ho with h1 | h1
      · subst h1; exact hne (I.sep j i p o a hp hi ha hb)
      · have := rp.lt ha; omega
    by_cases e1 : j = i <;> by_cases e2 : l = i
    · omega
    · subst e1
      rw [get_set hi] at hp; cases hp
      rw [get_set_ne e2] at hq
      exact (old e2 hq hl ha).elim
    · subst e2
      rw [get_set hi] at hq; cases hq
      rw [get_set_ne e1] at hp
      exact (old e1 hp ha hl).elim
    · rw [get_set_ne e1] at hp
      rw [get_set_ne e2] at hq
      exact I.sep j l p q a hp hq ha hl

theorem WInv.add (I : WInv c n h w sw) {b : Nat} {o : Obj} {t : SObj V} (k : ∀ a, a < h.length → h'[a]? = h[a]?)
    (r : Rel c n h' o t) (hb : o.blk = some b) (own : h.length ≤ b) : WInv c n h' (w ++ [o]) (sw ++ [t]) := by
  have split : ∀ {j : Nat} {p : Obj}, (w ++ [o])[j]? = some p → (j < w.length ∧ w[j]? = some p) ∨ (j = w.length ∧ p = o) := by
    intro j p hp
    by_cases e : j < w.length
    · rw [List.getElem?_append_left e] at hp; exact .inl ⟨e, hp⟩
    · have := getElem?_lt hp
      simp at this
      have : j = w.length := by omega
      subst this
      simp at hp
      exact .inr ⟨rfl, hp.symm⟩
  refine ⟨by simp [I.len], ?_, ?_⟩
  · intro j p t' hp ht
    rcases split hp with ⟨e, hp⟩ | ⟨e, rfl⟩
    · rw [List.getElem?_append_left (by rw [← I.len]; exact e)] at ht
      have rp := I.rel j p t' hp ht
      exact rp.frame fun a ha => k a (rp.lt ha)
    · rw [e, I.len] at ht
      simp at ht; subst ht
      exact r
  · intro j l p q a hp hq ha hl
    rcases split hp with ⟨e, hp2⟩ | ⟨e, ep⟩ <;> rcases split hq with ⟨e', hq2⟩ | ⟨e', eq⟩
    · exact I.sep j l p q a hp2 hq2 ha hl
    · rw [eq, hb] at hl; cases hl
      obtain ⟨_, _, rp⟩ := I.other hp2
      have := rp.lt ha; omega
    · rw [ep, hb] at ha; cases ha
      obtain ⟨_, _, rp⟩ := I.other hq2
      have := rp.lt hl; omega
    · omega

theorem Owned.set (O : Owned h w) {i b : Nat} {o o' : Obj} (hi : w[i]? = some o) (hb : o.blk = some b) (q : Quiet h h') (hb' : o'.blk = some b) :
    Owned h' (w.set i o') := by
  intro a la
  obtain ⟨j, p, hp, ha⟩ := O a (q a la)
  by_cases e : j = i
  · subst e
    rw [hi] at hp; cases hp
    rw [hb] at ha; cases ha
    exact ⟨j, o', get_set hi, hb'⟩
  · exact ⟨j, p, by rw [get_set_ne e]; exact hp, ha⟩

theorem Owned.free (O : Owned h w) {i b : Nat} {o : Obj} (hi : w[i]? = some o) (hb : o.blk = some b) (q : ∀ a, Live h' a → Live h a ∧ a ≠ b) :
    Owned h' (w.set i .gone) := by
  intro a la
  obtain ⟨l, hne⟩ := q a la
  obtain ⟨j, p, hp, ha⟩ := O a l
  by_cases e : j = i
  · subst e
    rw [hi] at hp; cases hp
    rw [hb] at ha; cases ha
    exact (hne rfl).elim
  · exact ⟨j, p, by rw [get_set_ne e]; exact hp, ha⟩

theorem Owned.add (O : Owned h w) {b : Nat} {o : Obj} (hb : o.blk = some b) (q : ∀ a, Live h' a → Live h a ∨ a = b) : Owned h' (w ++ [o]) := by
  intro a la
  rcases q a la with l | rfl
  · obtain ⟨j, p, hp, ha⟩ := O a l
    exact ⟨j, p, by rw [List.getElem?_append_left (getElem?_lt hp)]; exact hp, ha⟩
  · exact ⟨w.length, o, by simp, hb⟩

theorem Owned.quiet (O : Owned h w) (q : Quiet h h') : Owned h' w := fun a la => O a (q a la)

theorem keep_of {b : Nat} (l : h.length ≤ h'.length) (k : ∀ a, a < h.length → h'[a]? = h[a]?) : Keep b h h' := ⟨l, fun a ha _ => k a ha⟩

variable {grow : Bool}

/-- One operation that std does not refuse. -/
theorem step_ok (hc : c.Ok) (s : Sizes c n) (I : WInv c n h w sw) {op : Op V} (hw : Within grow n op sw) (hg : grow = true → g.copies = true)
    {t : Out V} {sw' : List (SObj V)} (e : stdStep op sw = .ok (t, sw')) :
    ∃ o w' h', step g c op w h = .ok ((o, w'), h') ∧ SameOut op o t ∧ WInv c n h' w' sw' ∧ (grow = false → Owned h w → Owned h' w') := by
  cases op with
  | new =>
    cases e
    obtain ⟨v, h1, e0, r0, c0, b0, l0, s0, v0⟩ := new_ok (g := g) s h
    refine ⟨.unit, _, h1, (bind_ok e0).trans rfl, rfl, I.add s0 (.vec r0 (by omega)) rfl (by omega), fun _ O => O.add rfl ?_⟩
    rw [b0]; exact v0
  | withCapacity cap =>
    cases e
    obtain ⟨v, h1, e0, r0, c0, b0, l0, s0, v0⟩ := withCapacity_ok (g := g) s hw.1 hw.2 h
    refine ⟨.unit, _, h1, (bind_ok e0).trans rfl, rfl, I.add s0 (.vec r0 (by omega)) rfl (by omega), fun _ O => O.add rfl ?_⟩
    rw [b0]; exact v0
  | ofList l =>
    cases e
    obtain ⟨v, h1, e0, r0, c0, b0, l0, s0, v0⟩ := ofList_ok (g := g) hc s l hw.1 (hw.2.imp hg id) h
    refine ⟨.unit, _, h1, (bind_ok e0).trans rfl, rfl, I.add s0 (.vec r0 c0) rfl b0, fun hn O => O.add rfl (v0 ?_)⟩
    rcases hw.2 with h1 | h1
    · rw [hn] at h1; cases h1
    · exact h1
  | push i x =>
    unfold stdStep at e
    dsimp only at e
    split at e
    · next r xs hi =>
      cases e
      obtain ⟨v, hv, rv, hr⟩ := I.getVec hi
      obtain ⟨h1, h2⟩ := hw r xs hi
      obtain ⟨v', h', e', d, st⟩ := push_ok (g := g) hc s rv x h1 (h2.imp hg (fun h => Nat.lt_of_lt_of_le h hr))
      refine ⟨.unit, w.set i (.vec v'), h', ?_, rfl, I.set hv rfl d.keep (.vec d.rep (Nat.le_trans hr d.cap)) ?_, fun hn O => ?_⟩
      · unfold step; simp only [hv]; exact (bind_ok e').trans rfl
      · intro b' hb; cases hb; exact d.own
      · have st := st (Nat.lt_of_lt_of_le (h2.resolve_left (by rw [hn]; decide)) hr)
        exact O.set hv rfl st.quiet (by show some v'.ptr.blk = _; rw [st.ptr])
    · cases e
  | pop i =>
    unfold stdStep at e
    dsimp only at e
    split at e
    · next r xs hi =>
      cases e
      obtain ⟨v, hv, rv, hr⟩ := I.getVec hi
      obtain ⟨v', e', r', p, cp⟩ := pop_ok hc rv
      refine ⟨.opt xs.getLast?, w.set i (.vec v'), h, ?_, rfl, I.set hv rfl (Keep.refl _ _) (.vec r' (by omega)) ?_, fun hn O => ?_⟩
      · unfold step; simp only [hv]; exact (bind_ok e').trans rfl
      · intro b' hb; cases hb; rw [p]; exact .inl rfl
      · exact O.set hv rfl (fun _ l => l) (by show some v'.ptr.blk = _; rw [p])
    · cases e
  | append i j =>
    unfold stdStep at e
    dsimp only at e
    split at e
    · next r xs q ys hi hj =>
      split at e
      · cases e
      · next hne =>
        cases e
        obtain ⟨v, hv, rv, hr⟩ := I.getVec hi
        obtain ⟨u, hu, ru, hq⟩ := I.getVec hj
        obtain ⟨h1, h2⟩ := hw r q xs ys hi hj
        have hb : u.ptr.blk ≠ v.ptr.blk := fun e => hne (I.sep i j _ _ _ hv hu rfl (by rw [← e]; rfl))
        obtain ⟨v', u', h', e', r1, r2, p2, cu, cv, ov, hl, kk, st⟩ := append_ok (g := g) hc s rv ru hb h1 (h2.imp hg (fun h => ⟨Nat.le_trans h.1 hr, h.2⟩))
        -- the two objects are updated one after the other
        have kv : ∀ {a : Nat} {p : Obj} {k : Nat}, w[k]? = some p → p.blk = some a → k ≠ i → k ≠ j → h'[a]? = h[a]? := by
          intro a p k hp ha n1 n2
          obtain ⟨_, _, rp⟩ := I.other hp
          refine kk a (rp.lt ha) ?_ ?_
          · rintro rfl; exact n1 (I.sep k i _ _ _ hp hv ha rfl)
          · rintro rfl; exact n2 (I.sep k j _ _ _ hp hu ha rfl)
        have own : ∀ {a : Nat} {p : Obj} {k : Nat}, w[k]? = some p → p.blk = some a → k ≠ i → a ≠ v'.ptr.blk := by
          intro a p k hp ha n1 ea
          obtain ⟨_, _, rp⟩ := I.other hp
          rcases ov with o | o
          · exact n1 (I.sep k i _ _ _ hp hv ha (by rw [ea, o]; rfl))
          · have := rp.lt ha; omega
        have hij : j ≠ i := Ne.symm hne
        have hu1 : (w.set i (.vec v'))[j]? = some (.vec u) := by rw [get_set_ne hij]; exact hu
        have cases3 : ∀ {k : Nat} {p : Obj}, ((w.set i (.vec v')).set j (.vec u'))[k]? = some p →
            (k = i ∧ p = .vec v') ∨ (k = j ∧ p = .vec u') ∨ (k ≠ i ∧ k ≠ j ∧ w[k]? = some p) := by
          intro k p hp
          by_cases e2 : k = j
          · subst e2; rw [get_set hu1] at hp; cases hp; exact .inr (.inl ⟨rfl, rfl⟩)
          · rw [get_set_ne e2] at hp
            by_cases e1 : k = i
            · subst e1; rw [get_set hv] at hp; cases hp; exact .inl ⟨rfl, rfl⟩
            · rw [get_set_ne e1] at hp; exact .inr (.inr ⟨e1, e2, hp⟩)
        have hj1 : (sw.set i (.vec r (xs ++ ys)))[j]? = some (.vec q ys) := by rw [get_set_ne hij]; exact hj
        refine ⟨.unit, (w.set i (.vec v')).set j (.vec u'), h', ?_, rfl, ⟨by simp [I.len], ?_, ?_⟩, fun hn O => ?_⟩
        · unfold step; simp only [hv, hu]; exact (bind_ok e').trans rfl
        · intro k p t hp ht
          rcases cases3 hp with ⟨rfl, rfl⟩ | ⟨rfl, rfl⟩ | ⟨n1, n2, hp⟩
          · rw [get_set_ne hne, get_set hi] at ht; cases ht
            exact .vec r1 (by omega)
          · rw [get_set hj1] at ht; cases ht
            exact .vec r2 (by omega)
          · rw [get_set_ne n2, get_set_ne n1] at ht
            exact (I.rel k p t hp ht).frame fun a ha => kv hp ha n1 n2
        · intro k l p p' a hp hp' ha ha'
          have hub : u'.ptr.blk = u.ptr.blk := by rw [p2]
          have hx : ∀ {x y z : Nat}, some x = some z → some y = some z → x = y := by
            intro x y z e1 e2; cases e1; cases e2; rfl
          rcases cases3 hp with ⟨rfl, rfl⟩ | ⟨rfl, rfl⟩ | ⟨n1, n2, hp2⟩ <;> rcases cases3 hp' with ⟨rfl, rfl⟩ | ⟨rfl, rfl⟩ | ⟨m1, m2, hp3⟩
          · rfl
          · exact (own hu rfl hij (by rw [← hub]; exact hx ha' ha)).elim
          · cases ha; exact (own hp3 ha' m1 rfl).elim
          · exact (own hu rfl hij (by rw [← hub]; exact hx ha ha')).elim
          · rfl
          · cases ha; rw [hub] at ha'; exact (m2 (I.sep l k _ _ _ hp3 hu ha' rfl)).elim
          · cases ha'; exact (own hp2 ha n1 rfl).elim
          · cases ha'; rw [hub] at ha; exact (n2 (I.sep k l _ _ _ hp2 hu ha rfl)).elim
          · exact I.sep k l p p' a hp2 hp3 ha ha'
        · have h3 := h2.resolve_left (by rw [hn]; decide)
          obtain ⟨pv, _, qt⟩ := st ⟨Nat.le_trans h3.1 hr, h3.2⟩
          have O1 := O.set (o' := .vec v') hv rfl qt (by show some v'.ptr.blk = _; rw [pv])
          exact O1.set hu1 rfl (fun _ l => l) (by show some u'.ptr.blk = _; rw [p2])
    · cases e
  | insert i k x =>
    unfold stdStep at e
    dsimp only at e
    split at e
    · next r xs hi =>
      split at e
      · next hk =>
        cases e
        obtain ⟨v, hv, rv, hr⟩ := I.getVec hi
        obtain ⟨h1, h2⟩ := hw r xs hi
        obtain ⟨v', h', e', d, st⟩ := insert_ok (g := g) hc s rv x hk h1 (h2.imp hg (fun h => Nat.lt_of_lt_of_le h hr))
        refine ⟨.unit, w.set i (.vec v'), h', ?_, rfl, I.set hv rfl d.keep (.vec d.rep (Nat.le_trans hr d.cap)) ?_, fun hn O => ?_⟩
        · unfold step; simp only [hv]; exact (bind_ok e').trans rfl
        · intro b' hb; cases hb; exact d.own
        · have st := st (Nat.lt_of_lt_of_le (h2.resolve_left (by rw [hn]; decide)) hr)
          exact O.set hv rfl st.quiet (by show some v'.ptr.blk = _; rw [st.ptr])
      · cases e
    · cases e
  | remove i k =>
    unfold stdStep at e
    dsimp only at e
    split at e
    · next r xs hi =>
      split at e
      · next x hk =>
        cases e
        obtain ⟨v, hv, rv, hr⟩ := I.getVec hi
        obtain ⟨v', h', e', d, st⟩ := remove_ok hc rv hk
        refine ⟨.val x, w.set i (.vec v'), h', ?_, rfl, I.set hv rfl d.keep (.vec d.rep (Nat.le_trans hr d.cap)) ?_, fun hn O => ?_⟩
        · unfold step; simp only [hv]; exact (bind_ok e').trans rfl
        · intro b' hb; cases hb; exact d.own
        · exact O.set hv rfl st.quiet (by show some v'.ptr.blk = _; rw [st.ptr])
      · cases e
    · cases e
  | len i =>
    unfold stdStep at e
    dsimp only at e
    split at e
    · next r xs hi =>
      cases e
      obtain ⟨v, hv, rv, hr⟩ := I.getVec hi
      refine ⟨.num v.len, w, h, ?_, ?_, I, fun _ O => O⟩
      · unfold step; simp only [hv]; rfl
      · show Out.num _ = Out.num _; rw [rv.len]
    · cases e
  | slice i =>
    unfold stdStep at e
    dsimp only at e
    split at e
    · next r xs hi =>
      cases e
      obtain ⟨v, hv, rv, hr⟩ := I.getVec hi
      refine ⟨.seq xs, w, h, ?_, rfl, I, fun _ O => O⟩
      unfold step; simp only [hv]; exact (bind_ok (slice_ok hc rv)).trans rfl
    · cases e
  | set i k x =>
    unfold stdStep at e
    dsimp only at e
    split at e
    · next r xs hi =>
      split at e
      · next hk =>
        cases e
        obtain ⟨v, hv, rv, hr⟩ := I.getVec hi
        obtain ⟨h', e', d, st⟩ := set_ok hc rv hk x
        have := I.set hv rfl d.keep (o' := .vec v) (.vec d.rep hr) (fun b' hb => by cases hb; exact .inl rfl)
        rw [set_same hv] at this
        refine ⟨.unit, w, h', ?_, rfl, this, fun _ O => O.quiet st.quiet⟩
        unfold step; simp only [hv]; exact (bind_ok e').trans rfl
      · cases e
    · cases e
  | drop i =>
    unfold stdStep at e
    dsimp only at e
    split at e
    · next r xs hi =>
      cases e
      obtain ⟨v, hv, rv, hr⟩ := I.getVec hi
      obtain ⟨h', e', k, l, q⟩ := drop_ok hc rv
      refine ⟨.seq xs.reverse, w.set i .gone, h', ?_, ⟨xs, rfl, rfl⟩, I.set hv rfl k .gone (fun b hb => by cases hb), fun _ O => O.free hv rfl q⟩
      unfold step; simp only [hv]; exact (bind_ok e').trans rfl
    · cases e
  | intoIter i =>
    unfold stdStep at e
    dsimp only at e
    split at e
    · next r xs hi =>
      cases e
      obtain ⟨v, hv, rv, hr⟩ := I.getVec hi
      obtain ⟨r', b'⟩ := intoIter_ok rv
      refine ⟨.unit, w.set i (.iter (Vec.intoIter c v)), h, ?_, rfl, I.set hv rfl (Keep.refl _ _) (.iter r') ?_, fun _ O => O.set hv rfl (fun _ l => l) rfl⟩
      · unfold step; simp only [hv]; rfl
      · intro b hb; cases hb; exact .inl b'
    · cases e
  | next i =>
    unfold stdStep at e
    dsimp only at e
    split at e
    · next xs hi =>
      cases e
      obtain ⟨it, hv, rv⟩ := I.getIter hi
      obtain ⟨it', e', r', b'⟩ := next_ok hc rv
      refine ⟨.opt xs.head?, w.set i (.iter it'), h, ?_, rfl, I.set hv rfl (Keep.refl _ _) (.iter r') ?_,
        fun _ O => O.set hv rfl (fun _ l => l) (by show some it'.buf.blk = _; rw [b'])⟩
      · unfold step; simp only [hv]; exact (bind_ok e').trans rfl
      · intro b hb; cases hb; rw [b']; exact .inl rfl
    · cases e
  | nextBack i =>
    unfold stdStep at e
    dsimp only at e
    split at e
    · next xs hi =>
      cases e
      obtain ⟨it, hv, rv⟩ := I.getIter hi
      obtain ⟨it', e', r', b'⟩ := nextBack_ok hc rv
      refine ⟨.opt xs.getLast?, w.set i (.iter it'), h, ?_, rfl, I.set hv rfl (Keep.refl _ _) (.iter r') ?_,
        fun _ O => O.set hv rfl (fun _ l => l) (by show some it'.buf.blk = _; rw [b'])⟩
      · unfold step; simp only [hv]; exact (bind_ok e').trans rfl
      · intro b hb; cases hb; rw [b']; exact .inl rfl
    · cases e
  | sizeHint i =>
    unfold stdStep at e
    dsimp only at e
    split at e
    · next xs hi =>
      cases e
      obtain ⟨it, hv, rv⟩ := I.getIter hi
      refine ⟨.num (Iter.sizeHint c it), w, h, ?_, ?_, I, fun _ O => O⟩
      · unfold step; simp only [hv]; rfl
      · show Out.num _ = Out.num _; rw [sizeHint_ok rv]
    · cases e
  | dropIter i =>
    unfold stdStep at e
    dsimp only at e
    split at e
    · next xs hi =>
      cases e
      obtain ⟨it, hv, rv⟩ := I.getIter hi
      obtain ⟨h', e', k, l, q⟩ := dropIter_ok hc rv
      refine ⟨.seq xs, w.set i .gone, h', ?_, rfl, I.set hv rfl k .gone (fun b hb => by cases hb), fun _ O => O.free hv rfl q⟩
      unfold step; simp only [hv]; exact (bind_ok e').trans rfl
    · cases e

/-- One operation at which std panics. -/
theorem step_panic (I : WInv c n h w sw) {op : Op V} (e : stdStep op sw = .panic) : step g c op w h = .panic := by
  cases op with
  | insert i k x =>
    unfold stdStep at e
    dsimp only at e
    split at e
    · next r xs hi =>
      split at e
      · cases e
      · next hk =>
        obtain ⟨v, hv, rv, hr⟩ := I.getVec hi
        unfold step; simp only [hv]
        show M.bind _ _ _ = _
        unfold M.bind; rw [insert_panic rv x hk]
    · cases e
  | remove i k =>
    unfold stdStep at e
    dsimp only at e
    split at e
    · next r xs hi =>
      split at e
      · cases e
      · next hk =>
        obtain ⟨v, hv, rv, hr⟩ := I.getVec hi
        unfold step; simp only [hv]
        show M.bind _ _ _ = _
        unfold M.bind; rw [remove_panic rv hk]
    · cases e
  | set i k x =>
    unfold stdStep at e
    dsimp only at e
    split at e
    · next r xs hi =>
      split at e
      · cases e
      · next hk =>
        obtain ⟨v, hv, rv, hr⟩ := I.getVec hi
        unfold step; simp only [hv]
        show M.bind _ _ _ = _
        unfold M.bind; rw [set_panic rv hk]
    · cases e
  | append i j =>
    unfold stdStep at e
    dsimp only at e
    split at e
    · split at e <;> cases e
    · cases e
  | new | withCapacity _ | ofList _ => cases e
  | push | pop | len | slice | drop | intoIter | next | nextBack | sizeHint | dropIter =>
    unfold stdStep at e
    dsimp only at e
    split at e <;> cases e

theorem run_ok (hc : c.Ok) (s : Sizes c n) (hg : grow = true → g.copies = true) {ops : List (Op V)} {ts : List (Out V)} {sw' : List (SObj V)}
    (R : StdRun ops sw ts sw') : ∀ {h : Heap} {w : List Obj}, WInv c n h w sw → AllWithin grow n ops sw →
    ∃ os w' h', run g c ops w h = .ok ((os, w'), h') ∧ SameOuts ops os ts ∧ WInv c n h' w' sw' ∧ (grow = false → Owned h w → Owned h' w') := by
  induction R with
  | nil => intro h w I _; exact ⟨[], w, h, rfl, .nil, I, fun _ O => O⟩
  | cons e R ih =>
    intro h w I A
    cases A with
    | cons A1 A2 =>
      obtain ⟨o, w1, h1, e1, s1, I1, O1⟩ := step_ok hc s I A1 hg e
      obtain ⟨os, w2, h2, e2, s2, I2, O2⟩ := ih I1 (A2 _ _ e)
      refine ⟨o :: os, w2, h2, ?_, .cons s1 s2, I2, fun hn O => O2 hn (O1 hn O)⟩
      unfold run
      exact (bind_ok e1).trans ((bind_ok e2).trans rfl)

end Smack.RustVec
