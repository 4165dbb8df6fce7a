/-
Transformations of executions: another interpretation, another initial state; the leak counter.
-/
import Verif.Alloc.Inv

namespace Smack.Alloc

theorem alloc_congr {c : Cfg} {I I' : Interp} {n p : Int} {s s' : St} (h : allocRel c I n p s s') (ht : I'.top = I.top)
    (hs : 0 < n → I'.size p = I.size p) (hb : ∀ q, inRange p n q → I'.base q = I.base q) : allocRel c I' n p s s' := by
  obtain ⟨m, sf⟩ := c
  cases m <;> cases sf <;> simp only [allocRel, allocImpls, allocImplsSafe, allocReuse, allocReuseSafe, allocNoReuse,
    allocNoReuseSafe] at h ⊢
  · rw [ht]; exact h
  · refine ⟨h.1, ?_⟩
    obtain ⟨_, h⟩ := h
    split at h
    · rename_i hn
      rw [if_pos hn, ht, hs hn]
      obtain ⟨h1, h2, h3, h4, h5, h6⟩ := h
      exact ⟨h1, h2, h3, h4, fun q hq => (hb q hq).trans (h5 q hq), h6⟩
    · rename_i hn; rw [if_neg hn]; exact h
  · rw [ht]; exact h
  · rw [ht]
    obtain ⟨h0, h1, h2, h3, h4, h5, h6, h7, h8, h9, h10⟩ := h
    exact ⟨h0, h1, h2, h3, h4, h5, h6, h7, h8, fun q hq => (hb q hq).trans (h9 q hq), h10⟩
  · rw [ht]; exact h
  · rw [ht]
    obtain ⟨h0, h1, h2, h3, h4, h5⟩ := h
    exact ⟨h0, h1, h2, fun hn => (hs hn).trans (h3 hn), fun hn q hq => (hb q hq).trans (h4 hn q hq), h5⟩

/-- An execution depends on the interpretation only through the blocks it creates. -/
theorem run_congr {c : Cfg} {I I' : Interp} {s0 s : St} {evs : List Ev} (hr : Run c I s0 evs s) (ht : I'.top = I.top)
    (hsz : ∀ b ∈ ever evs, I'.size b.start = I.size b.start)
    (hb : ∀ b ∈ ever evs, ∀ q, inRange b.start b.size q → I'.base q = I.base q)
    (hpos : ∀ b ∈ ever evs, 0 < b.size) (hl : LegalFrees evs) : Run c I' s0 evs s := by
  induction hr with
  | nil => exact .nil
  | @snoc evs s e s' hr hst ih =>
    have hsub : ∀ b ∈ ever evs, b ∈ ever (evs ++ [e]) := fun b hb => by rw [ever_snoc]; simp [hb]
    refine .snoc (ih (fun b h => hsz b (hsub b h)) (fun b h => hb b (hsub b h)) (fun b h => hpos b (hsub b h))
      (legal_snoc hl).1) ?_
    have hnew : ∀ b, created e = some b → b ∈ ever (evs ++ [e]) := by
      intro b hc; rw [ever_snoc, hc]; simp
    cases e with
    | galloc a n =>
      have hst : gallocRel c I a n s s' := hst
      have hm := hnew ⟨a, n, .global⟩ rfl
      obtain ⟨h1, h2, h3, h4⟩ := hst
      refine ⟨h1, ?_, fun q hq => (hb _ hm q hq).trans (h3 q hq), h4⟩
      have := hsz _ hm
      cases hmod : c.model <;> simp only [hmod] at h2 ⊢
      · exact ⟨this.trans h2.1, h2.2⟩
      · exact h2
      · exact ⟨this.trans h2.1, h2.2⟩
    | stack n p =>
      refine alloc_congr (show allocRel c I n p s s' from hst) ht (fun hn => ?_) (fun q hq => ?_)
      · exact hsz ⟨p, n, .stack⟩ (hnew _ (by simp [created, hn]))
      · have hn : 0 < n := by unfold inRange at hq; omega
        exact hb ⟨p, n, .stack⟩ (hnew _ (by simp [created, hn])) q hq
    | malloc n p =>
      have hst : mallocRel c I n p s s' := hst
      show mallocRel c I' n p s s'
      unfold mallocRel at hst ⊢
      have hs : 0 < n → I'.size p = I.size p := fun hn =>
        hsz ⟨p, n, .heap⟩ (hnew _ (by simp [created, hn]))
      have hb' : ∀ q, inRange p n q → I'.base q = I.base q := fun q hq => by
        have hn : 0 < n := by unfold inRange at hq; omega
        exact hb ⟨p, n, .heap⟩ (hnew _ (by simp [created, hn])) q hq
      split at hst
      · rename_i hh; rw [if_pos hh]; exact alloc_congr hst ht hs hb'
      · rename_i hh; rw [if_neg hh]; exact alloc_congr hst ht hs hb'
    | free p =>
      obtain ⟨hok, hst⟩ : freeOk c I s p ∧ freeRel c p s s' := hst
      refine ⟨?_, hst⟩
      have hbase : p ≠ 0 → I'.base p = I.base p := by
        intro hp
        rcases (legal_snoc hl).2 p rfl with h | ⟨b, hbm, hbp⟩
        · exact absurd h hp
        · have hm := hsub b (live_sub_ever evs b hbm)
          have := hpos b hm
          exact hb b hm p (by unfold inRange; omega)
      obtain ⟨m, sf⟩ := c
      cases m <;> cases sf <;> simp only [freeOk] at hok ⊢
      · exact fun hp => by rw [hbase hp]; exact hok hp
      · rcases hok with h | h
        · exact .inl h
        · exact .inr (by rw [hbase (by omega)]; exact h)
      · rcases hok with h | h
        · exact .inl h
        · exact .inr (by rw [hbase (by omega)]; exact h)
    | leave p => exact hst

theorem alloc_sub {c : Cfg} (hc : c.safety = true) {I : Interp} {n p : Int} {s s' t : St} (h : allocRel c I n p s s')
    (h1 : t.size = s.size) (h2 : t.curr = s.curr) (h3 : t.counter = s.counter)
    (h4 : c.model = .reuse → ∀ q, t.alloc q = true → s.alloc q = true) :
    ∃ t', allocRel c I n p t t' ∧ t'.size = s'.size ∧ t'.curr = s'.curr ∧ t'.counter = s'.counter ∧
      (∀ q, t.alloc q = true → t'.alloc q = true) ∧ (0 < n → t'.alloc p = true) ∧
      (c.model = .reuse → ∀ q, t'.alloc q = true → s'.alloc q = true) := by
  obtain ⟨m, sf⟩ := c
  subst hc
  cases m
  · simp only [allocRel, allocImplsSafe] at h ⊢
    obtain ⟨h0, h⟩ := h
    by_cases hn : 0 < n
    · rw [if_pos hn] at h
      obtain ⟨g1, g2, g3, g4, g5, g6, g7, g8⟩ := h
      refine ⟨{ s' with alloc := fun q => if q = p then true else t.alloc q }, ⟨h0, ?_⟩, rfl, rfl, rfl, ?_, by simp, by simp⟩
      · rw [if_pos hn]
        exact ⟨by rw [h2]; exact g1, g2, g3, g4, g5, rfl, by rw [h1]; exact g7, by rw [h3]; exact g8⟩
      · intro q hq; simp only; split <;> simp [hq]
    · rw [if_neg hn] at h
      subst h
      exact ⟨t, ⟨h0, by rw [if_neg hn]⟩, h1, h2, h3, fun q hq => hq, fun hn' => absurd hn' hn, by simp⟩
  · simp only [allocRel, allocReuseSafe] at h ⊢
    obtain ⟨g0, g1, g2, g3, g4, g5, g6, g7, g8, g9, g10, g11⟩ := h
    refine ⟨{ s' with alloc := fun q => if q = p then true else t.alloc q }, ⟨g0, g1, g2, ?_, ?_, by simp, g6, ?_, ?_, g9, ?_, ?_⟩,
      rfl, rfl, rfl, ?_, by simp, ?_⟩
    · cases ht : t.alloc p with
      | false => rfl
      | true => rw [h4 rfl p ht] at g3; cases g3
    · exact fun q hq => g4 q (h4 rfl q hq)
    · exact fun q hq => by rw [h1]; exact g7 q hq
    · exact fun q hq => by simp [hq]
    · rw [h2]; exact g10
    · rw [h3]; exact g11
    · intro q hq; simp only; split <;> simp [hq]
    · intro _ q hq
      simp only at hq
      split at hq
      · rename_i he; rw [he]; exact g5
      · rename_i he; rw [g8 q he]; exact h4 rfl q hq
  · simp only [allocRel, allocNoReuseSafe] at h ⊢
    obtain ⟨g0, g1, g2, g3, g4, g5, g6, g7, g8, g9, g10⟩ := h
    refine ⟨{ s' with alloc := fun q => if q = p ∧ 0 < n then true else t.alloc q },
      ⟨g0, by rw [h2]; exact g1, g2, g3, g4, ?_, by rw [h2]; exact g6, ?_, ?_, by rw [h1]; exact g9, by rw [h3]; exact g10⟩,
      rfl, rfl, rfl, ?_, ?_, by simp⟩
    · intro hn; simp [hn]
    · intro hn; simp [hn]
    · intro q hq; simp [hq]
    · intro q hq; simp only; split <;> simp [hq]
    · intro hn; simp [hn]

/-- Every execution with legal frees can be repeated from a state in which nothing is allocated. -/
theorem rerun_empty {c : Cfg} (hc : c.safety = true) {I : Interp} {s0 s : St} {evs : List Ev} (hr : Run c I s0 evs s)
    (hl : LegalFrees evs) (hnn : c.model = .reuse → NoNullFree evs) :
    ∃ t, Run c I { s0 with alloc := fun _ => false } evs t ∧ t.size = s.size ∧ t.curr = s.curr ∧ t.counter = s.counter ∧
      (∀ b ∈ live evs, t.alloc b.start = true) ∧ (c.model = .reuse → ∀ q, t.alloc q = true → s.alloc q = true) := by
  induction hr with
  | nil => exact ⟨_, .nil, rfl, rfl, rfl, by simp, by simp⟩
  | @snoc evs s e s' hr hst ih =>
    obtain ⟨t, hrt, t1, t2, t3, t4, t5⟩ := ih (legal_snoc hl).1 (fun hm => (nonull_snoc (hnn hm)).1)
    cases e with
    | galloc a n =>
      have hst : gallocRel c I a n s s' := hst
      obtain ⟨g1, g2, g3, g4, g5, g6, g7⟩ := hst
      refine ⟨{ s' with alloc := fun q => if q = a then true else t.alloc q }, .snoc hrt ?_, rfl, rfl, rfl, ?_, ?_⟩
      · refine ⟨g1, ?_, g3, by simp, fun q hq => by simp [hq], by rw [t2]; exact g6, by rw [t3]; exact g7⟩
        rw [t1]; exact g2
      · intro b hb
        rw [live_snoc, update] at hb
        rcases List.mem_cons.1 hb with rfl | hb
        · simp
        · simp [t4 b hb]
      · intro hm q hq
        simp only at hq
        split at hq
        · rename_i he; rw [he]; exact g4
        · rename_i he; rw [g5 q he]; exact t5 hm q hq
    | stack n p =>
      obtain ⟨t', a1, a2, a3, a4, a5, a6, a7⟩ := alloc_sub hc (show allocRel c I n p s s' from hst) t1 t2 t3 t5
      refine ⟨t', .snoc hrt a1, a2, a3, a4, ?_, a7⟩
      intro b hb
      rw [live_snoc, update] at hb
      split at hb
      · rename_i hn
        rcases List.mem_cons.1 hb with rfl | hb
        · exact a6 hn
        · exact a5 _ (t4 b hb)
      · exact a5 _ (t4 b hb)
    | malloc n p =>
      have hst : mallocRel c I n p s s' := hst
      have key : ∃ t', mallocRel c I n p t t' ∧ t'.size = s'.size ∧ t'.curr = s'.curr ∧ t'.counter = s'.counter ∧
          (∀ q, t.alloc q = true → t'.alloc q = true) ∧ (0 < n → t'.alloc p = true) ∧
          (c.model = .reuse → ∀ q, t'.alloc q = true → s'.alloc q = true) := by
        unfold mallocRel at hst ⊢
        split at hst
        · rename_i hh
          obtain ⟨t', ht'⟩ := alloc_sub hc (t := { t with counter := t.counter + 1 }) hst t1 t2 (by simp [t3]) t5
          exact ⟨t', by rw [if_pos hh]; exact ht'⟩
        · rename_i hh
          obtain ⟨t', ht'⟩ := alloc_sub hc hst t1 t2 t3 t5
          exact ⟨t', by rw [if_neg hh]; exact ht'⟩
      obtain ⟨t', a1, a2, a3, a4, a5, a6, a7⟩ := key
      refine ⟨t', .snoc hrt a1, a2, a3, a4, ?_, a7⟩
      intro b hb
      rw [live_snoc, update] at hb
      split at hb
      · rename_i hn
        rcases List.mem_cons.1 hb with rfl | hb
        · exact a6 hn
        · exact a5 _ (t4 b hb)
      · exact a5 _ (t4 b hb)
    | free p =>
      obtain ⟨hok, hst⟩ : freeOk c I s p ∧ freeRel c p s s' := hst
      have hal : p ≠ 0 → t.alloc p = true := by
        intro hp
        rcases (legal_snoc hl).2 p rfl with h | ⟨b, hb, hbp⟩
        · exact absurd h hp
        · rw [← hbp]; exact t4 b hb
      have hnn' : c.model = .reuse → p ≠ 0 := fun hm he => (nonull_snoc (hnn hm)).2 (by rw [he])
      have hok' : freeOk c I t p := by
        obtain ⟨m, sf⟩ := c
        subst hc
        cases m <;> simp only [freeOk] at hok ⊢
        · exact fun hp => ⟨(hok hp).1, hal hp, (hok hp).2.2⟩
        · rcases hok with h | h
          · exact .inl h
          · exact .inr ⟨h.1, h.2.1, hal (by omega)⟩
        · rcases hok with h | h
          · exact .inl h
          · exact .inr ⟨h.1, h.2.1, hal (by omega)⟩
      refine ⟨{ s' with alloc := fun q => if q = p ∧ p ≠ 0 then false else t.alloc q }, .snoc hrt ⟨hok', ?_⟩, rfl, rfl, rfl, ?_, ?_⟩
      · obtain ⟨m, sf⟩ := c
        subst hc
        cases m <;> simp only [freeRel] at hst ⊢
        · by_cases hp : p = 0
          · simp [hp] at hst ⊢
            subst hst
            cases t; simp_all
          · simp [hp] at hst ⊢
            subst hst
            cases t; simp_all
        · obtain ⟨f1, f2, f3, f4, f5, f6⟩ := hst
          have hp := hnn' rfl
          exact ⟨fun _ => by simp [hp], fun _ q hq => by simp [hq], fun h => by rw [t3]; exact f3 h,
            fun h => absurd h hp, by rw [t1]; exact f5, by rw [t2]; exact f6⟩
        · obtain ⟨f1, f2, f3, f4, f5, f6⟩ := hst
          exact ⟨fun hp => by simp [hp], fun _ q hq => by simp [hq], fun h => by rw [t3]; exact f3 h,
            fun h => by rw [t3]; exact f4 h, by rw [t1]; exact f5, by rw [t2]; exact f6⟩
      · intro b hb
        rw [live_snoc, update, List.mem_filter] at hb
        have : b.start ≠ p := by simpa using hb.2
        simp [this, t4 b hb.1]
      · intro hm q hq
        have hp := hnn' hm
        simp only at hq
        split at hq
        · cases hq
        · rename_i hh
          have hqp : q ≠ p := fun he => hh ⟨he, hp⟩
          obtain ⟨m, sf⟩ := c
          subst hc; subst hm
          simp only [freeRel] at hst
          rw [hst.2.1 hp q hqp]
          exact t5 rfl q hq
    | leave p =>
      have hst : s' = s := hst
      subst hst
      refine ⟨t, .snoc hrt rfl, t1, t2, t3, ?_, t5⟩
      intro b hb
      rw [live_snoc, update, List.mem_filter] at hb
      exact t4 b hb.1

/-- Number of live heap blocks. -/
def heapCount (bs : List Block) : Nat := (bs.filter (fun b => decide (b.kind = .heap))).length

theorem filter_one {α : Type} [DecidableEq α] (f : α → Bool) (x : α) : ∀ (l : List α), x ∈ l → l.Pairwise (· ≠ ·) →
    (∀ y ∈ l, f y = false ↔ y = x) → (l.filter f).length + 1 = l.length := by
  intro l
  induction l with
  | nil => simp
  | cons a l ih =>
    intro hx hpw hf
    rw [List.pairwise_cons] at hpw
    rcases List.mem_cons.1 hx with rfl | hx
    · have hfa : f x = false := (hf x (by simp)).2 rfl
      have : ∀ y ∈ l, f y = true := by
        intro y hy
        cases h : f y with
        | true => rfl
        | false => exact absurd ((hf y (by simp [hy])).1 h).symm (hpw.1 y hy)
      rw [List.filter_cons, if_neg (by simp [hfa]), List.filter_eq_self.2 this]; simp
    · have hne : a ≠ x := hpw.1 x hx
      have hfa : f a = true := by
        cases h : f a with
        | true => rfl
        | false => exact absurd ((hf a (by simp)).1 h) hne
      rw [List.filter_cons, if_pos hfa]
      have := ih hx hpw.2 (fun y hy => hf y (by simp [hy]))
      simp only [List.length_cons]; omega

theorem counter_run {c : Cfg} (hc : c.safety = true) {I : Interp} {s0 s : St} {evs : List Ev} (h0 : Init c s0)
    (hr : Run c I s0 evs s) (hok : HistOk c evs) (hl : LegalHeapFrees evs) : s.counter = heapCount (live evs) := by
  induction hr with
  | nil => simp [heapCount, h0.2 hc]
  | @snoc evs s e s' hr hst ih =>
    have hi := ih hok.snoc.1 (legalHeap_snoc hl).1
    have inv := inv_run h0 hr hok.snoc.1
    rw [live_snoc]
    cases e with
    | galloc a n =>
      have hst : gallocRel c I a n s s' := hst
      rw [hst.2.2.2.2.2.2, hi]
      simp [update, heapCount]
    | stack n p =>
      rw [(alloc_common (show allocRel c I n p s s' from hst)).2.1, hi]
      simp only [update]; split <;> simp [heapCount]
    | malloc n p =>
      obtain ⟨k, hk, hkv⟩ := malloc_alloc (show mallocRel c I n p s s' from hst)
      obtain ⟨hn0, hcnt, _⟩ := alloc_common hk
      rw [hcnt]
      simp only
      rw [hkv, hc, Bool.true_and]
      simp only [update]
      by_cases hn : 0 < n
      · rw [if_pos hn, if_pos (by simp; omega), hi]
        simp [heapCount]
      · rw [if_neg hn, if_neg (by simp; omega), hi]
    | free p =>
      obtain ⟨_, hst⟩ : freeOk c I s p ∧ freeRel c p s s' := hst
      have hcnt : s'.counter = if p = 0 then s.counter else s.counter - 1 := by
        obtain ⟨m, sf⟩ := c
        subst hc
        cases m <;> simp only [freeRel] at hst
        · by_cases hp : p = 0 <;> simp [hp] at hst ⊢ <;> simp [hst]
        · by_cases hp : p = 0
          · rw [if_pos hp]; exact hst.2.2.2.1 hp
          · rw [if_neg hp]; exact hst.2.2.1 hp
        · by_cases hp : p = 0
          · rw [if_pos hp]; exact hst.2.2.2.1 hp
          · rw [if_neg hp]; exact hst.2.2.1 hp
      rw [hcnt, hi, update]
      rcases (legalHeap_snoc hl).2 p rfl with hp | ⟨b, hb, hbp, hbk⟩
      · rw [if_pos hp]
        have : (live evs).filter (fun b => decide (b.start ≠ p)) = live evs := by
          rw [List.filter_eq_self]
          intro b hb
          have := start_ne_zero inv b hb
          simp [hp, this]
        rw [this]
      · have hp : p ≠ 0 := by rw [← hbp]; exact start_ne_zero inv b hb
        rw [if_neg hp]
        unfold heapCount
        rw [List.filter_filter]
        have key : ((live evs).filter (fun x => decide (x.kind = .heap) && decide (x.start ≠ p))) =
            ((live evs).filter (fun x => decide (x.kind = .heap))).filter (fun x => decide (x.start ≠ p)) := by
          rw [List.filter_filter]; congr 1; funext x; rw [Bool.and_comm]
        rw [key]
        have h1 := filter_one (fun x : Block => decide (x.start ≠ p)) b
          ((live evs).filter (fun x => decide (x.kind = .heap))) (by simp [hb, hbk])
          ?_ ?_
        · omega
        · have hpw := inv.pw.filter (fun x => decide (x.kind = .heap))
          have : ∀ x ∈ (live evs).filter (fun x => decide (x.kind = .heap)), 0 < x.size := by
            intro x hx
            exact inv.pos x (live_sub_ever evs x (List.mem_filter.1 hx).1)
          refine hpw.imp_of_mem ?_
          intro x y hx hy hd he
          subst he
          have := this x hx
          unfold Disjoint at hd
          omega
        · intro y hy
          have hy' := (List.mem_filter.1 hy).1
          simp only [ne_eq, decide_not, Bool.not_eq_false', decide_eq_true_eq]
          constructor
          · intro hys
            by_cases he : y = b
            · exact he
            · exfalso
              have hpy := inv.pos y (live_sub_ever evs y hy')
              have hpb := inv.pos b (live_sub_ever evs b hb)
              have hd : Disjoint y b ∨ Disjoint b y := by
                have h2 := List.pairwise_iff_getElem.1 inv.pw
                obtain ⟨i, hi1, hi2⟩ := List.mem_iff_getElem.1 hy'
                obtain ⟨j, hj1, hj2⟩ := List.mem_iff_getElem.1 hb
                rcases Nat.lt_trichotomy i j with h | h | h
                · left; have := h2 i j hi1 hj1 h; rwa [hi2, hj2] at this
                · subst h; exact absurd (hi2.symm.trans hj2) he
                · right; have := h2 j i hj1 hi1 h; rwa [hi2, hj2] at this
              unfold Disjoint at hd
              omega
          · rintro rfl; exact hbp
    | leave p =>
      have hst : s' = s := hst
      subst hst
      rw [hi, update]
      unfold heapCount
      rw [List.filter_filter]
      congr 2
      apply List.filter_congr
      intro b _
      by_cases hb : b.kind = .heap <;> simp [hb]

end Smack.Alloc
