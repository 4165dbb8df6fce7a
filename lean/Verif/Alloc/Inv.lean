/-
Invariants of executions of the memory models.
-/
import Verif.Alloc.Lemmas

namespace Smack.Alloc

def isGlobal (b : Block) : Bool := decide (b.kind = .global)

structure Inv (c : Cfg) (I : Interp) (evs : List Ev) (s : St) : Prop where
  pos : ∀ b ∈ ever evs, 0 < b.size
  glob : ∀ b ∈ ever evs, b.kind = .global → b.start + b.size < 0
  nonglob : ∀ b ∈ ever evs, b.kind ≠ .global → 0 < b.start ∧ b.start + b.size < I.top
  noReuse : c.model ≠ .reuse → 1024 ≤ s.curr ∧ ∀ b ∈ ever evs, b.kind ≠ .global → b.start + b.size ≤ s.curr ∧ 1024 ≤ b.start
  reuse : c.model = .reuse → ∀ b ∈ live evs, s.alloc b.start = true ∧ s.size b.start = b.size
  pw : (live evs).Pairwise Disjoint
  everPw : c.model ≠ .reuse → ((ever evs).filter (fun b => !isGlobal b)).Pairwise Disjoint

/-- The hypotheses on the history under which the invariant holds. -/
structure HistOk (c : Cfg) (evs : List Ev) : Prop where
  globals : GlobalsOk evs
  nonull : c.model = .reuse → c.safety = true → NoNullFree evs

theorem HistOk.snoc {c : Cfg} {evs : List Ev} {e : Ev} (h : HistOk c (evs ++ [e])) :
    HistOk c evs ∧ (c.model = .reuse → c.safety = true → e ≠ .free 0) :=
  ⟨⟨(globals_snoc h.globals).1, fun h1 h2 => (nonull_snoc (h.nonull h1 h2)).1⟩, fun h1 h2 => (nonull_snoc (h.nonull h1 h2)).2⟩

/-- Allocation of a stack or heap block. -/
theorem inv_alloc {c : Cfg} {I : Interp} {evs : List Ev} {s s1 s' : St} {e : Ev} {n p : Int} {k : Kind}
    (hk : k ≠ .global) (hu : update (live evs) e = if 0 < n then ⟨p, n, k⟩ :: live evs else live evs)
    (hc : created e = if 0 < n then some ⟨p, n, k⟩ else none)
    (h1 : s1.alloc = s.alloc) (h2 : s1.size = s.size) (h3 : s1.curr = s.curr)
    (hi : Inv c I evs s) (h : allocRel c I n p s1 s') : Inv c I (evs ++ [e]) s' := by
  obtain ⟨hn0, _, hnr, hr⟩ := alloc_common h
  have hsub := live_sub_ever evs
  by_cases hn : 0 < n
  · rw [if_pos hn] at hu hc
    have hmem : ∀ b, b ∈ ever (evs ++ [e]) ↔ b ∈ ever evs ∨ b = ⟨p, n, k⟩ := by
      intro b; rw [ever_snoc, hc]; simp
    have hnew : 0 < p ∧ p + n < I.top := by
      by_cases hm : c.model = .reuse
      · exact (hr hm).1 hn
      · have h4 := (hnr hm).1 hn
        have h5 := (hi.noReuse hm).1
        omega
    refine ⟨?_, ?_, ?_, ?_, ?_, ?_, ?_⟩
    · intro b hb
      rcases (hmem b).1 hb with hb | rfl
      · exact hi.pos b hb
      · exact hn
    · intro b hb hg
      rcases (hmem b).1 hb with hb | rfl
      · exact hi.glob b hb hg
      · exact absurd hg hk
    · intro b hb hg
      rcases (hmem b).1 hb with hb | rfl
      · exact hi.nonglob b hb hg
      · exact hnew
    · intro hm
      have h4 := (hnr hm).1 hn
      have h5 := hi.noReuse hm
      refine ⟨by omega, fun b hb hg => ?_⟩
      rcases (hmem b).1 hb with hb | rfl
      · have := h5.2 b hb hg; omega
      · simp only; omega
    · intro hm b hb
      obtain ⟨_, _, hf, _, ha, hsz, _, hs', ha'⟩ := hr hm
      rw [live_snoc, hu] at hb
      rcases List.mem_cons.1 hb with rfl | hb
      · exact ⟨ha, hsz⟩
      · have h4 := hi.reuse hm b hb
        have hne : b.start ≠ p := by
          intro he; rw [he] at h4; rw [h1] at hf; simp [hf] at h4
        rw [ha' _ hne, hs' _ hne, h1, h2]
        exact h4
    · rw [live_snoc, hu, List.pairwise_cons]
      refine ⟨fun b hb => ?_, hi.pw⟩
      unfold Disjoint
      simp only
      by_cases hg : b.kind = .global
      · have := hi.glob b (hsub b hb) hg
        right; omega
      · by_cases hm : c.model = .reuse
        · obtain ⟨_, _, hf, hsep, _⟩ := hr hm
          have h4 := hi.reuse hm b hb
          rw [h1, h2] at hsep
          have := hsep b.start h4.1
          rw [h4.2] at this
          omega
        · have h4 := (hnr hm).1 hn
          have h5 := (hi.noReuse hm).2 b (hsub b hb) hg
          right; omega
    · intro hm
      rw [ever_snoc, hc, List.filter_append, List.pairwise_append]
      refine ⟨hi.everPw hm, ?_, ?_⟩
      · have : isGlobal ⟨p, n, k⟩ = false := by simp [isGlobal, hk]
        simp [this]
      · intro b hb b' hb'
        simp only [List.mem_filter, isGlobal, Bool.not_eq_true', decide_eq_false_iff_not] at hb
        simp only [Option.toList_some, List.mem_filter, List.mem_singleton] at hb'
        obtain ⟨rfl, _⟩ := hb'
        have h4 := (hnr hm).1 hn
        have h5 := (hi.noReuse hm).2 b hb.1 hb.2
        unfold Disjoint
        simp only
        left; omega
  · rw [if_neg hn] at hu hc
    have hn' : n = 0 := by omega
    have hev : ever (evs ++ [e]) = ever evs := by rw [ever_snoc, hc]; simp
    have hlv : live (evs ++ [e]) = live evs := by rw [live_snoc, hu]
    refine ⟨by rw [hev]; exact hi.pos, by rw [hev]; exact hi.glob, by rw [hev]; exact hi.nonglob, ?_, ?_,
      by rw [hlv]; exact hi.pw, by rw [hev]; exact hi.everPw⟩
    · intro hm
      have h4 := (hnr hm).2.1 hn'
      rw [hev, h4, h3]
      exact hi.noReuse hm
    · intro hm b hb
      rw [hlv] at hb
      obtain ⟨_, _, hf, _, _, _, _, hs', ha'⟩ := hr hm
      have h4 := hi.reuse hm b hb
      have hne : b.start ≠ p := by
        intro he; rw [he] at h4; rw [h1] at hf; simp [hf] at h4
      rw [ha' _ hne, hs' _ hne, h1, h2]
      exact h4

theorem inv_sub {c : Cfg} {I : Interp} {evs : List Ev} {s s' : St} {e : Ev} {f : Block → Bool}
    (hu : update (live evs) e = (live evs).filter f) (hc : created e = none)
    (hcurr : c.model ≠ .reuse → s'.curr = s.curr)
    (hr : c.model = .reuse → ∀ b ∈ live evs, f b = true → s'.alloc b.start = s.alloc b.start ∧ s'.size b.start = s.size b.start)
    (hi : Inv c I evs s) : Inv c I (evs ++ [e]) s' := by
  have hev : ever (evs ++ [e]) = ever evs := by rw [ever_snoc, hc]; simp
  refine ⟨by rw [hev]; exact hi.pos, by rw [hev]; exact hi.glob, by rw [hev]; exact hi.nonglob, ?_, ?_, ?_,
    by rw [hev]; exact hi.everPw⟩
  · intro hm; rw [hev, hcurr hm]; exact hi.noReuse hm
  · intro hm b hb
    rw [live_snoc, hu, List.mem_filter] at hb
    have := hr hm b hb.1 hb.2
    rw [this.1, this.2]
    exact hi.reuse hm b hb.1
  · rw [live_snoc, hu]; exact hi.pw.filter f

theorem inv_run {c : Cfg} {I : Interp} {s0 s : St} {evs : List Ev} (h0 : Init c s0) (hr : Run c I s0 evs s)
    (hok : HistOk c evs) : Inv c I evs s := by
  induction hr with
  | nil =>
    refine ⟨by simp, by simp, by simp, ?_, by simp, by simp, by simp⟩
    intro hm; rw [h0.1 hm]; simp
  | @snoc evs s e s' hr hst ih =>
    have hi := ih hok.snoc.1
    cases e with
    | galloc a n =>
      obtain ⟨hn, han, hdis⟩ := (globals_snoc hok.globals).2 a n rfl
      have hst : gallocRel c I a n s s' := hst
      obtain ⟨hsf, hsz, hb, ha, haf, hcu, hco⟩ := hst
      have hmem : ∀ b, b ∈ ever (evs ++ [.galloc a n]) ↔ b ∈ ever evs ∨ b = ⟨a, n, .global⟩ := by
        intro b; rw [ever_snoc]; simp [created]
      have hdis' : ∀ b ∈ ever evs, Disjoint b ⟨a, n, .global⟩ := by
        intro b hb
        by_cases hg : b.kind = .global
        · exact hdis b hb hg
        · have := hi.nonglob b hb hg
          unfold Disjoint; simp only; right; omega
      refine ⟨?_, ?_, ?_, ?_, ?_, ?_, ?_⟩
      · intro b hb
        rcases (hmem b).1 hb with hb | rfl
        · exact hi.pos b hb
        · exact hn
      · intro b hb hg
        rcases (hmem b).1 hb with hb | rfl
        · exact hi.glob b hb hg
        · exact han
      · intro b hb hg
        rcases (hmem b).1 hb with hb | rfl
        · exact hi.nonglob b hb hg
        · exact absurd rfl hg
      · intro hm
        rw [hcu]
        refine ⟨(hi.noReuse hm).1, fun b hb hg => ?_⟩
        rcases (hmem b).1 hb with hb | rfl
        · exact (hi.noReuse hm).2 b hb hg
        · exact absurd rfl hg
      · intro hm b hb
        rw [hm] at hsz
        rw [live_snoc, update] at hb
        rcases List.mem_cons.1 hb with rfl | hb
        · exact ⟨ha, hsz.1⟩
        · have hne : b.start ≠ a := by
            have h1 := hdis' b (live_sub_ever evs b hb)
            have h2 := hi.pos b (live_sub_ever evs b hb)
            unfold Disjoint at h1; simp only at h1
            omega
          rw [haf _ hne, hsz.2 _ hne]
          exact hi.reuse hm b hb
      · rw [live_snoc, update, List.pairwise_cons]
        refine ⟨fun b hb => ?_, hi.pw⟩
        have := hdis' b (live_sub_ever evs b hb)
        unfold Disjoint at *; exact this.symm
      · intro hm
        rw [ever_snoc]
        have : isGlobal ⟨a, n, .global⟩ = true := by simp [isGlobal]
        simp [created, this]
        simpa using hi.everPw hm
    | stack n p =>
      exact inv_alloc (k := .stack) (s1 := s) (by decide) rfl rfl rfl rfl rfl hi hst
    | malloc n p =>
      obtain ⟨k, hk, _⟩ := malloc_alloc (show mallocRel c I n p s s' from hst)
      exact inv_alloc (k := .heap) (s := s) (s1 := { s with counter := k }) (by decide) rfl rfl rfl rfl rfl hi hk
    | free p =>
      obtain ⟨_, hst⟩ : freeOk c I s p ∧ freeRel c p s s' := hst
      have hnn := hok.snoc.2
      refine inv_sub (f := fun b => decide (b.start ≠ p)) rfl rfl ?_ ?_ hi
      · intro hm
        obtain ⟨m, sf⟩ := c
        cases m <;> cases sf <;> simp only [freeRel] at hst
        · subst hst; rfl
        · split at hst <;> subst hst <;> rfl
        · exact hst.2.2.2.1
        · exact hst.2.2.2.2.2
        · subst hst; rfl
        · exact hst.2.2.2.2.2
      · intro hm b hb hf
        obtain ⟨m, sf⟩ := c
        subst hm
        have hf : b.start ≠ p := by simpa using hf
        cases sf <;> simp only [freeRel] at hst
        · exact ⟨hst.2.1 _ hf, by rw [hst.2.2.1]⟩
        · have hp : p ≠ 0 := by
            intro he; exact hnn rfl rfl (by rw [he])
          exact ⟨hst.2.1 hp _ hf, by rw [hst.2.2.2.2.1]⟩
    | leave p =>
      have hst : s' = s := hst
      subst hst
      exact inv_sub (f := fun b => !decide (b.start = p ∧ b.kind = .stack)) rfl rfl (fun _ => rfl) (fun _ _ _ _ => ⟨rfl, rfl⟩) hi

/-- What memory safety mode knows about live blocks. -/
structure InvS (c : Cfg) (I : Interp) (evs : List Ev) (s : St) : Prop where
  alloc : ∀ b ∈ live evs, s.alloc b.start = true
  size : ∀ b ∈ live evs, sizeOf c I s b.start = b.size
  base : ∀ b ∈ ever evs, ∀ q, inRange b.start b.size q → I.base q = b.start

/-- Null is freed only in the model with implementations. -/
def NullOk (c : Cfg) (evs : List Ev) : Prop := c.model ≠ .impls → NoNullFree evs

theorem NullOk.snoc {c : Cfg} {evs : List Ev} {e : Ev} (h : NullOk c (evs ++ [e])) :
    NullOk c evs ∧ (c.model ≠ .impls → e ≠ .free 0) :=
  ⟨fun hm => (nonull_snoc (h hm)).1, fun hm => (nonull_snoc (h hm)).2⟩

theorem NullOk.hist {c : Cfg} {evs : List Ev} (h : NullOk c evs) (hg : GlobalsOk evs) : HistOk c evs :=
  ⟨hg, fun hm _ => h (by rw [hm]; decide)⟩

theorem sizeOf_eq {c : Cfg} {I : Interp} {s s' : St} (h : s'.size = s.size) (q : Int) : sizeOf c I s' q = sizeOf c I s q := by
  unfold sizeOf; cases c.model <;> simp [h]

theorem sizeOf_nr {c : Cfg} {I : Interp} {s s' : St} (h : c.model ≠ .reuse) (q : Int) : sizeOf c I s' q = sizeOf c I s q := by
  unfold sizeOf; cases hm : c.model <;> simp_all

theorem invS_alloc {c : Cfg} (hc : c.safety = true) {I : Interp} {evs : List Ev} {s s1 s' : St} {e : Ev} {n p : Int} {k : Kind}
    (hu : update (live evs) e = if 0 < n then ⟨p, n, k⟩ :: live evs else live evs)
    (hcr : created e = if 0 < n then some ⟨p, n, k⟩ else none)
    (h1 : s1.alloc = s.alloc) (h2 : s1.size = s.size)
    (hpos : ∀ b ∈ live evs, 0 < b.size) (hpw : (live (evs ++ [e])).Pairwise Disjoint)
    (hi : InvS c I evs s) (h : allocRel c I n p s1 s') : InvS c I (evs ++ [e]) s' := by
  obtain ⟨hn0, _, hnr, hr⟩ := alloc_common h
  obtain ⟨hnew, hold, hzero⟩ := alloc_safe hc h
  by_cases hn : 0 < n
  · rw [if_pos hn] at hu hcr
    obtain ⟨ha, hs, hb⟩ := hnew hn
    rw [live_snoc, hu, List.pairwise_cons] at hpw
    have hne : ∀ b ∈ live evs, b.start ≠ p := by
      intro b hb'
      have h3 := hpw.1 b hb'
      have h4 := hpos b hb'
      unfold Disjoint at h3; simp only at h3
      omega
    refine ⟨?_, ?_, ?_⟩
    · intro b hb'
      rw [live_snoc, hu] at hb'
      rcases List.mem_cons.1 hb' with rfl | hb'
      · exact ha
      · rw [(hold _ (hne b hb')).1, h1]; exact hi.alloc b hb'
    · intro b hb'
      rw [live_snoc, hu] at hb'
      rcases List.mem_cons.1 hb' with rfl | hb'
      · exact hs
      · rw [(hold _ (hne b hb')).2, sizeOf_eq h2]; exact hi.size b hb'
    · intro b hb'
      rw [ever_snoc, hcr] at hb'
      simp only [Option.toList_some, List.mem_append, List.mem_singleton] at hb'
      rcases hb' with hb' | rfl
      · exact hi.base b hb'
      · exact hb
  · rw [if_neg hn] at hu hcr
    have hn' : n = 0 := by omega
    have hlv : live (evs ++ [e]) = live evs := by rw [live_snoc, hu]
    have hev : ever (evs ++ [e]) = ever evs := by rw [ever_snoc, hcr]; simp
    have key : ∀ b ∈ live evs, s'.alloc b.start = s.alloc b.start ∧ sizeOf c I s' b.start = sizeOf c I s b.start := by
      intro b hb
      by_cases hp : b.start = p
      · by_cases hm : c.model = .reuse
        · have h3 := (hr hm).2.2.1
          have h4 := hi.alloc b hb
          rw [hp, ← h1, h3] at h4; cases h4
        · exact ⟨by rw [hp, hzero hn' hm, h1], sizeOf_nr hm _⟩
      · have h3 := hold _ hp
        exact ⟨by rw [h3.1, h1], by rw [h3.2, sizeOf_eq h2]⟩
    refine ⟨?_, ?_, by rw [hev]; exact hi.base⟩
    · intro b hb; rw [hlv] at hb; rw [(key b hb).1]; exact hi.alloc b hb
    · intro b hb; rw [hlv] at hb; rw [(key b hb).2]; exact hi.size b hb

/-- The effect of an accepted `free` with memory safety. -/
theorem free_effect {c : Cfg} (hc : c.safety = true) {I : Interp} {p : Int} {s s' : St}
    (hnn : c.model ≠ .impls → p ≠ 0) (h : freeRel c p s s') :
    (∀ q, q ≠ p → s'.alloc q = s.alloc q) ∧ (p ≠ 0 → s'.alloc p = false) ∧ (p = 0 → s'.alloc = s.alloc) ∧
    (∀ q, sizeOf c I s' q = sizeOf c I s q) ∧ s'.size = s.size := by
  obtain ⟨m, sf⟩ := c
  subst hc
  cases m <;> simp only [freeRel] at h
  · split at h
    · subst h
      refine ⟨fun q hq => by simp [hq], fun _ => by simp, fun hp => by contradiction, fun q => rfl, rfl⟩
    · subst h
      rename_i hp
      exact ⟨fun _ _ => rfl, fun h => absurd h hp, fun _ => rfl, fun _ => rfl, rfl⟩
  · have hp := hnn (by decide)
    exact ⟨h.2.1 hp, h.1, fun he => absurd he hp, sizeOf_eq h.2.2.2.2.1, h.2.2.2.2.1⟩
  · have hp := hnn (by decide)
    exact ⟨h.2.1 hp, h.1, fun he => absurd he hp, sizeOf_eq h.2.2.2.2.1, h.2.2.2.2.1⟩

theorem invS_run {c : Cfg} (hc : c.safety = true) {I : Interp} {s0 s : St} {evs : List Ev} (h0 : Init c s0)
    (hr : Run c I s0 evs s) (hg : GlobalsOk evs) (hn : NullOk c evs) : InvS c I evs s := by
  induction hr with
  | nil => exact ⟨by simp, by simp, by simp⟩
  | @snoc evs s e s' hr hst ih =>
    have hi := ih (globals_snoc hg).1 hn.snoc.1
    have inv := inv_run h0 hr (hn.snoc.1.hist (globals_snoc hg).1)
    have inv' := inv_run h0 (Run.snoc hr hst) (hn.hist hg)
    have hpos : ∀ b ∈ live evs, 0 < b.size := fun b hb => inv.pos b (live_sub_ever evs b hb)
    cases e with
    | galloc a n =>
      obtain ⟨hn, han, _⟩ := (globals_snoc hg).2 a n rfl
      have hst : gallocRel c I a n s s' := hst
      obtain ⟨hsf, hsz, hb, ha, haf, hcu, hco⟩ := hst
      have hpw := inv'.pw
      rw [live_snoc, update, List.pairwise_cons] at hpw
      have hne : ∀ b ∈ live evs, b.start ≠ a := by
        intro b hb'
        have h3 := hpw.1 b hb'
        have h4 := hpos b hb'
        unfold Disjoint at h3; simp only at h3
        omega
      have hso : sizeOf c I s' a = n ∧ ∀ q, q ≠ a → sizeOf c I s' q = sizeOf c I s q := by
        cases hm : c.model <;> simp only [hm] at hsz <;> simp only [sizeOf, hm]
        · exact ⟨hsz.1, fun _ _ => trivial⟩
        · exact hsz
        · exact ⟨hsz.1, fun _ _ => trivial⟩
      refine ⟨?_, ?_, ?_⟩
      · intro b hb'
        rw [live_snoc, update] at hb'
        rcases List.mem_cons.1 hb' with rfl | hb'
        · exact ha
        · rw [haf _ (hne b hb')]; exact hi.alloc b hb'
      · intro b hb'
        rw [live_snoc, update] at hb'
        rcases List.mem_cons.1 hb' with rfl | hb'
        · exact hso.1
        · rw [hso.2 _ (hne b hb')]; exact hi.size b hb'
      · intro b hb'
        rw [ever_snoc] at hb'
        simp only [created, Option.toList_some, List.mem_append, List.mem_singleton] at hb'
        rcases hb' with hb' | rfl
        · exact hi.base b hb'
        · exact hb
    | stack n p => exact invS_alloc (k := .stack) (s1 := s) hc rfl rfl rfl rfl hpos inv'.pw hi hst
    | malloc n p =>
      obtain ⟨k, hk, _⟩ := malloc_alloc (show mallocRel c I n p s s' from hst)
      exact invS_alloc (k := .heap) (s := s) (s1 := { s with counter := k }) hc rfl rfl rfl rfl hpos inv'.pw hi hk
    | free p =>
      obtain ⟨_, hst⟩ : freeOk c I s p ∧ freeRel c p s s' := hst
      have hnn : c.model ≠ .impls → p ≠ 0 := fun hm he => hn.snoc.2 hm (by rw [he])
      obtain ⟨f1, f2, f3, f4, _⟩ := free_effect (I := I) hc hnn hst
      refine ⟨?_, ?_, ?_⟩
      · intro b hb
        rw [live_snoc, update, List.mem_filter] at hb
        rw [f1 _ (by simpa using hb.2)]
        exact hi.alloc b hb.1
      · intro b hb
        rw [live_snoc, update, List.mem_filter] at hb
        rw [f4]
        exact hi.size b hb.1
      · rw [ever_snoc]; simpa [created] using hi.base
    | leave p =>
      have hst : s' = s := hst
      subst hst
      refine ⟨?_, ?_, ?_⟩
      · intro b hb
        rw [live_snoc, update, List.mem_filter] at hb
        exact hi.alloc b hb.1
      · intro b hb
        rw [live_snoc, update, List.mem_filter] at hb
        exact hi.size b hb.1
      · rw [ever_snoc]; simpa [created] using hi.base

/-- Nothing is allocated at the start. -/
def Empty (s : St) : Prop := ∀ q, s.alloc q = false

/-- When nothing was allocated at the start, `$Alloc` holds at starts of live blocks only (and, in the REUSE model, at null
after an allocation of 0 bytes). -/
def InvE (c : Cfg) (evs : List Ev) (s : St) : Prop :=
  ∀ q, s.alloc q = true → (∃ b ∈ live evs, b.start = q) ∨ (c.model = .reuse ∧ q = 0 ∧ s.size 0 = 0)

theorem invE_alloc {c : Cfg} (hc : c.safety = true) {I : Interp} {evs : List Ev} {s s1 s' : St} {e : Ev} {n p : Int} {k : Kind}
    (hu : update (live evs) e = if 0 < n then ⟨p, n, k⟩ :: live evs else live evs)
    (h1 : s1.alloc = s.alloc) (h2 : s1.size = s.size)
    (hi : InvE c evs s) (h : allocRel c I n p s1 s') : InvE c (evs ++ [e]) s' := by
  obtain ⟨hn0, _, hnr, hr⟩ := alloc_common h
  obtain ⟨hnew, hold, hzero⟩ := alloc_safe hc h
  intro q hq
  have hlv : ∀ b ∈ live evs, b ∈ live (evs ++ [e]) := by
    intro b hb; rw [live_snoc, hu]; split
    · exact List.mem_cons_of_mem _ hb
    · exact hb
  by_cases hqp : q = p
  · subst hqp
    by_cases hn : 0 < n
    · left; exact ⟨⟨q, n, k⟩, by rw [live_snoc, hu, if_pos hn]; simp, rfl⟩
    · have hn' : n = 0 := by omega
      by_cases hm : c.model = .reuse
      · obtain ⟨_, hp0, _, _, _, hsz, _⟩ := hr hm
        right
        refine ⟨hm, hp0 hn', ?_⟩
        rw [hp0 hn'] at hsz; omega
      · rw [hzero hn' hm, h1] at hq
        rcases hi q hq with ⟨b, hb, hbq⟩ | ⟨hm', _⟩
        · exact .inl ⟨b, hlv b hb, hbq⟩
        · exact absurd hm' hm
  · rw [(hold q hqp).1, h1] at hq
    rcases hi q hq with ⟨b, hb, hbq⟩ | ⟨hm, hq0, hs0⟩
    · exact .inl ⟨b, hlv b hb, hbq⟩
    · right
      refine ⟨hm, hq0, ?_⟩
      have := (hr hm).2.2.2.2.2.2.2.1 q hqp
      rw [hq0] at this
      rw [this, h2]; exact hs0

theorem start_ne_zero {c : Cfg} {I : Interp} {evs : List Ev} {s : St} (inv : Inv c I evs s) (b : Block) (hb : b ∈ live evs) :
    b.start ≠ 0 := by
  have hb' := live_sub_ever evs b hb
  by_cases hg : b.kind = .global
  · have h1 := inv.glob b hb' hg
    have h2 := inv.pos b hb'
    omega
  · have h1 := inv.nonglob b hb' hg
    omega

theorem invE_run {c : Cfg} (hc : c.safety = true) {I : Interp} {s0 s : St} {evs : List Ev} (h0 : Init c s0) (he : Empty s0)
    (hr : Run c I s0 evs s) (hn : NullOk c evs) (hl : NoLeave evs) (hg : GlobalsOk evs) : InvE c evs s := by
  induction hr with
  | nil => intro q hq; rw [he q] at hq; cases hq
  | @snoc evs s e s' hr hst ih =>
    have hi := ih hn.snoc.1 (noleave_snoc hl).1 (globals_snoc hg).1
    have inv := inv_run h0 hr (hn.snoc.1.hist (globals_snoc hg).1)
    cases e with
    | galloc a n =>
      obtain ⟨hn, han, _⟩ := (globals_snoc hg).2 a n rfl
      have hst : gallocRel c I a n s s' := hst
      obtain ⟨hsf, hsz, hb, ha, haf, hcu, hco⟩ := hst
      intro q hq
      by_cases hqa : q = a
      · left; exact ⟨⟨a, n, .global⟩, by rw [live_snoc]; simp [update], hqa.symm⟩
      · rw [haf q hqa] at hq
        rcases hi q hq with ⟨b, hb, hbq⟩ | ⟨hm, hq0, hs0⟩
        · exact .inl ⟨b, by rw [live_snoc]; simp [update, hb], hbq⟩
        · right
          refine ⟨hm, hq0, ?_⟩
          rw [hm] at hsz
          rw [hsz.2 0 (by omega)]; exact hs0
    | stack n p => exact invE_alloc (k := .stack) (s1 := s) hc rfl rfl rfl hi hst
    | malloc n p =>
      obtain ⟨k, hk, _⟩ := malloc_alloc (show mallocRel c I n p s s' from hst)
      exact invE_alloc (k := .heap) (s := s) (s1 := { s with counter := k }) hc rfl rfl rfl hi hk
    | free p =>
      obtain ⟨_, hst⟩ : freeOk c I s p ∧ freeRel c p s s' := hst
      have hnn : c.model ≠ .impls → p ≠ 0 := fun hm he => hn.snoc.2 hm (by rw [he])
      obtain ⟨f1, f2, f3, f4, f5⟩ := free_effect (I := I) hc hnn hst
      intro q hq
      by_cases hqp : q = p
      · by_cases hp : p = 0
        · rw [f3 hp] at hq
          rcases hi q hq with ⟨b, hb, hbq⟩ | ⟨hm, hq0, hs0⟩
          · exfalso
            exact absurd (hbq.trans (hqp.trans hp)) (start_ne_zero inv b hb)
          · right; exact ⟨hm, hq0, by rw [f5]; exact hs0⟩
        · rw [hqp, f2 hp] at hq; cases hq
      · rw [f1 q hqp] at hq
        rcases hi q hq with ⟨b, hb, hbq⟩ | ⟨hm, hq0, hs0⟩
        · left
          refine ⟨b, ?_, hbq⟩
          rw [live_snoc, update, List.mem_filter]
          exact ⟨hb, by simp [hbq, hqp]⟩
        · right; exact ⟨hm, hq0, by rw [f5]; exact hs0⟩
    | leave p => exact absurd rfl ((noleave_snoc hl).2 p)

end Smack.Alloc
