/-
C18, C19, C20, C21: the memory models of `__SMACK_decls`.
-/
import Verif.Alloc.Runs

namespace Smack.Alloc

/-! ## Concrete executions used as witnesses -/

/-- Two blocks of 8 bytes at 1024 and 1032. -/
def I0 : Interp where
  base := fun q => if 1024 ≤ q ∧ q < 1032 then 1024 else if 1032 ≤ q ∧ q < 1040 then 1032 else q
  size := fun _ => 8
  top := 2 ^ 63 - 1

def st0 : St := ⟨fun _ => false, fun _ => 0, 1024, 0⟩

/-- After `malloc(8)` returned 1024. -/
def st1 : St := ⟨fun q => if q = 1024 then true else false, fun q => if q = 1024 then 8 else 0, 1032, 1⟩

theorem init0 (c : Cfg) : Init c st0 := ⟨fun _ => rfl, fun _ => rfl⟩

theorem run_malloc_impls : Run ⟨.impls, true⟩ I0 st0 [.malloc 8 1024] { st1 with size := fun _ => 0 } := by
  refine Run.snoc (evs := []) .nil ?_
  show mallocRel _ _ _ _ _ _
  refine ⟨by decide, ?_⟩
  rw [if_pos (by decide)]
  refine ⟨rfl, by decide, by decide, rfl, ?_, rfl, rfl, rfl⟩
  intro q hq
  unfold inRange at hq
  simp only [I0]
  rw [if_pos (by omega)]

/-! ## C18 -/

/-- C18: in every execution of every memory model the live blocks are pairwise disjoint, and stack and heap blocks are
non-null and below `$MALLOC_TOP`. For the REUSE model with memory safety, executions with `free(NULL)` are excluded
(see `c18_reuse_null_free_fails`). -/
theorem c18_live_disjoint_partial (c : Cfg) (I : Interp) (s0 s : St) (evs : List Ev) (h0 : Init c s0)
    (hr : Run c I s0 evs s) (hg : GlobalsOk evs)
    (hnn : c = ⟨.reuse, true⟩ → NoNullFree evs) :
    (live evs).Pairwise Disjoint ∧
    ∀ b ∈ live evs, 0 < b.size ∧ (b.kind ≠ .global → 0 < b.start ∧ b.start + b.size < I.top) := by
  have inv := inv_run h0 hr ⟨hg, fun h1 h2 => hnn (by cases c; simp_all)⟩
  refine ⟨inv.pw, fun b hb => ?_⟩
  have hb' := live_sub_ever evs b hb
  exact ⟨inv.pos b hb', fun hk => inv.nonglob b hb' hk⟩

/-- C18: in the two no-reuse models the blocks that were *ever* handed out for stack and heap storage are pairwise
disjoint, so no byte is handed out again after `free`. -/
theorem c18_never_reused (c : Cfg) (hm : c.model ≠ .reuse) (I : Interp) (s0 s : St) (evs : List Ev) (h0 : Init c s0)
    (hr : Run c I s0 evs s) (hg : GlobalsOk evs) :
    ((ever evs).filter (fun b => decide (b.kind ≠ .global))).Pairwise Disjoint := by
  have inv := inv_run h0 hr ⟨hg, fun h1 => absurd h1 hm⟩
  have h := inv.everPw hm
  have he : (fun b : Block => !isGlobal b) = (fun b => decide (b.kind ≠ .global)) := by
    funext b; simp [isGlobal]
  rwa [he] at h

example : Run ⟨.impls, true⟩ I0 st0 [.malloc 8 1024] { st1 with size := fun _ => 0 } ∧
    live [.malloc 8 1024] = [⟨1024, 8, .heap⟩] ∧ GlobalsOk [.malloc 8 1024] := by
  refine ⟨run_malloc_impls, by decide, ?_, ?_⟩
  · have : List.filter (fun b : Block => decide (b.kind = .global)) (ever [.malloc 8 1024]) = [] := by decide
    rw [this]; exact .nil
  · have : ever [.malloc 8 1024] = [⟨1024, 8, .heap⟩] := by decide
    rw [this]; simp

/-- C18 fails in the REUSE model with memory safety: the contract of `free` havocs `$Alloc` when its argument is null, so the
same block can be handed out twice while it is live. -/
theorem c18_reuse_null_free_fails : ∃ (I : Interp) (s0 s : St) (evs : List Ev), Init ⟨.reuse, true⟩ s0 ∧
    Run ⟨.reuse, true⟩ I s0 evs s ∧ LegalHeapFrees evs ∧ GlobalsOk evs ∧ ¬ (live evs).Pairwise Disjoint := by
  have hbase : ∀ q, inRange 1024 8 q → I0.base q = 1024 := by
    intro q hq
    unfold inRange at hq
    simp only [I0]
    rw [if_pos (by omega)]
  refine ⟨I0, st0, { st1 with curr := 1024, counter := 2 }, [.malloc 8 1024, .free 0, .malloc 8 1024], init0 _, ?_, ?_, ?_, ?_⟩
  · refine Run.snoc (evs := [.malloc 8 1024, .free 0]) (s := { st1 with alloc := fun _ => false, curr := 1024 })
      (Run.snoc (evs := [.malloc 8 1024]) (s := { st1 with curr := 1024 }) (Run.snoc (evs := []) .nil ?_) ?_) ?_
    · show allocReuseSafe _ _ _ _ _
      refine ⟨by decide, fun _ => by decide, by decide, rfl, ?_, rfl, rfl, ?_, ?_, hbase, rfl, rfl⟩
      · intro q hq; simp [st0] at hq
      · intro q hq; simp [st1, st0, hq]
      · intro q hq; simp [st1, st0, hq]
    · exact ⟨.inl rfl, by simp, by simp, by simp, fun _ => rfl, rfl, rfl⟩
    · show allocReuseSafe _ _ _ _ _
      refine ⟨by decide, fun _ => by decide, by decide, rfl, ?_, rfl, rfl, ?_, ?_, hbase, rfl, rfl⟩
      · intro q hq; simp at hq
      · intro q hq; simp
      · intro q hq; simp [st1, hq]
  · intro pre p post h
    rcases pre with _ | ⟨x, _ | ⟨y, _ | ⟨z, pre⟩⟩⟩ <;> simp at h
    left; exact h.2.1.symm
  · refine ⟨?_, ?_⟩
    · have : List.filter (fun b : Block => decide (b.kind = .global)) (ever [.malloc 8 1024, .free 0, .malloc 8 1024]) = [] := by
        decide
      rw [this]; exact .nil
    · have : ever [.malloc 8 1024, .free 0, .malloc 8 1024] = [⟨1024, 8, .heap⟩, ⟨1024, 8, .heap⟩] := by decide
      rw [this]; simp
  · have : live [.malloc 8 1024, .free 0, .malloc 8 1024] = [⟨1024, 8, .heap⟩, ⟨1024, 8, .heap⟩] := by decide
    rw [this]
    simp [Disjoint]

/-! ## C19 -/

/-- The interpretation changed on `[p, p+n)` so that a block of `n` bytes can start at `p`. -/
def patch (I : Interp) (n p : Int) : Interp where
  base := fun q => if p ≤ q ∧ q < p + n then p else I.base q
  size := fun q => if q = p then n else I.size q
  top := I.top

/-- C19 for the two no-reuse models: whatever happened before (without invalid frees), a request of `n` bytes that fits
between the current address and `$MALLOC_TOP` can be served: the same execution exists under an interpretation of
the uninterpreted functions that allows the allocation. -/
theorem c19_malloc_possible (c : Cfg) (hm : c.model ≠ .reuse) (I : Interp) (s0 s : St) (evs : List Ev) (h0 : Init c s0)
    (hr : Run c I s0 evs s) (hg : GlobalsOk evs) (hl : LegalFrees evs) (n : Int) (hn : 0 ≤ n) (hfit : s.curr + n < I.top) :
    ∃ (I' : Interp) (p : Int) (s' : St), I'.top = I.top ∧ Run c I' s0 evs s ∧ Step c I' (.malloc n p) s s' := by
  have inv := inv_run h0 hr ⟨hg, fun h1 => absurd h1 hm⟩
  obtain ⟨hc1, hc2⟩ := inv.noReuse hm
  have hend : ∀ b ∈ ever evs, b.start + b.size ≤ s.curr := by
    intro b hb
    by_cases hk : b.kind = .global
    · have := inv.glob b hb hk; omega
    · exact (hc2 b hb hk).1
  have hrun : Run c (patch I n s.curr) s0 evs s := by
    refine run_congr hr rfl ?_ ?_ inv.pos hl
    · intro b hb
      have h1 := hend b hb
      have h2 := inv.pos b hb
      simp only [patch]
      rw [if_neg (by omega)]
    · intro b hb q hq
      have h1 := hend b hb
      unfold inRange at hq
      simp only [patch]
      rw [if_neg (by omega)]
  have hbase : ∀ q, inRange s.curr n q → (patch I n s.curr).base q = s.curr := by
    intro q hq
    unfold inRange at hq
    simp only [patch]
    rw [if_pos hq]
  have hsize : (patch I n s.curr).size s.curr = n := by simp [patch]
  refine ⟨patch I n s.curr, if n = 0 then 0 else s.curr, ?_⟩
  obtain ⟨m, sf⟩ := c
  by_cases hz : n = 0
  · subst hz
    refine ⟨s, rfl, hrun, ?_⟩
    show mallocRel _ _ _ _ _ _
    unfold mallocRel
    rw [if_neg (by simp)]
    cases m <;> cases sf <;> simp only [allocRel, allocImpls, allocImplsSafe, allocNoReuse, allocNoReuseSafe]
    · simp
    · simp
    · exact absurd rfl hm
    · exact absurd rfl hm
    · simp [patch]; omega
    · simp [patch]; omega
  · have hpos : 0 < n := by omega
    rw [if_neg hz]
    cases sf
    · refine ⟨{ s with curr := s.curr + n }, rfl, hrun, ?_⟩
      show mallocRel _ _ _ _ _ _
      unfold mallocRel
      rw [if_neg (by simp)]
      cases m <;> simp only [allocRel, allocImpls, allocNoReuse]
      · refine ⟨hn, ?_⟩
        rw [if_pos hpos]
        simp [patch]; omega
      · exact absurd rfl hm
      · simp [patch]; omega
    · refine ⟨{ s with curr := s.curr + n, counter := s.counter + 1, alloc := fun q => if q = s.curr then true else s.alloc q },
        rfl, hrun, ?_⟩
      show mallocRel _ _ _ _ _ _
      unfold mallocRel
      rw [if_pos (by simp; omega)]
      cases m
      · show allocImplsSafe _ _ _ _ _
        refine ⟨hn, ?_⟩
        rw [if_pos hpos]
        refine ⟨rfl, ?_, ⟨?_, by simpa [patch] using hfit⟩, hsize, hbase, rfl, rfl, rfl⟩
        · show s.curr + n - n ≥ s.curr; omega
        · show s.curr + n > 0; omega
      · exact absurd rfl hm
      · show allocNoReuseSafe _ _ _ _ _
        refine ⟨hn, fun _ => ⟨by simp only; omega, rfl⟩, ⟨by simp only; omega, by simpa [patch] using hfit⟩, fun _ => hsize,
          fun _ => hbase, by simp, fun h => absurd h hz, fun h => absurd h hz, fun q hq => by simp [hq], rfl, rfl⟩

/-- C19 for the REUSE model, first part: if nothing was allocated initially and null was not freed, a request of `n > 0`
bytes can be served whenever it fits above all blocks created so far (address `top`, at least 1); a request of 0 bytes can be
served only if null is not marked as allocated. -/
theorem c19_reuse_malloc_possible_partial (I : Interp) (s0 s : St) (evs : List Ev) (h0 : Init ⟨.reuse, true⟩ s0)
    (he : Empty s0) (hr : Run ⟨.reuse, true⟩ I s0 evs s) (hg : GlobalsOk evs) (hl : LegalFrees evs) (hnn : NoNullFree evs)
    (hlv : NoLeave evs) (n : Int) (hn : 0 ≤ n) (hz : n = 0 → s.alloc 0 = false)
    (a : Int) (ha : 0 < a) (habove : ∀ b ∈ ever evs, b.start + b.size < a) (hfit : a + n < I.top) :
    ∃ (I' : Interp) (p : Int) (s' : St), I'.top = I.top ∧ Run ⟨.reuse, true⟩ I' s0 evs s ∧
      Step ⟨.reuse, true⟩ I' (.malloc n p) s s' := by
  have hno : NullOk ⟨.reuse, true⟩ evs := fun _ => hnn
  have inv := inv_run h0 hr (hno.hist hg)
  have invE := invE_run rfl h0 he hr hno hlv hg
  have hrun : Run ⟨.reuse, true⟩ (patch I n a) s0 evs s := by
    refine run_congr hr rfl ?_ ?_ inv.pos hl
    · intro b hb
      have h1 := habove b hb
      have h2 := inv.pos b hb
      simp only [patch]
      rw [if_neg (by omega)]
    · intro b hb q hq
      have h1 := habove b hb
      unfold inRange at hq
      simp only [patch]
      rw [if_neg (by omega)]
  have hsize : ∀ q, s.alloc q = true → q + s.size q < a ∧ (q = 0 ∨ ∃ b ∈ live evs, b.start = q ∧ s.size q = b.size) := by
    intro q hq
    rcases invE q hq with ⟨b, hb, hbq⟩ | ⟨_, hq0, hs0⟩
    · have h1 := inv.reuse rfl b hb
      rw [hbq] at h1
      have h2 := habove b (live_sub_ever evs b hb)
      rw [h1.2]
      exact ⟨by omega, .inr ⟨b, hb, hbq, rfl⟩⟩
    · subst hq0; exact ⟨by omega, .inl rfl⟩
  by_cases hz' : n = 0
  · subst hz'
    refine ⟨patch I 0 a, 0,
      { s with alloc := fun q => if q = 0 then true else s.alloc q, size := fun q => if q = 0 then 0 else s.size q },
      rfl, hrun, ?_⟩
    show allocReuseSafe _ _ _ _ _
    refine ⟨by omega, by simp, fun _ => rfl, hz rfl, ?_, by simp, by simp, fun q hq => by simp [hq], fun q hq => by simp [hq], ?_,
      rfl, rfl⟩
    · intro q hq
      have hq0 : q ≠ 0 := by intro h; subst h; rw [hz rfl] at hq; cases hq
      rcases (hsize q hq).2 with h | ⟨b, hb, hbq, hsz⟩
      · exact absurd h hq0
      · have hb' := live_sub_ever evs b hb
        simp only [hq0, if_false]
        by_cases hk : b.kind = .global
        · have := inv.glob b hb' hk; omega
        · have := inv.nonglob b hb' hk; omega
    · intro q hq; unfold inRange at hq; omega
  · have hne : s.alloc a = false := by
      cases h : s.alloc a with
      | false => rfl
      | true =>
        have h1 := (hsize a h)
        rcases h1.2 with h2 | ⟨b, hb, hbq, hsz⟩
        · omega
        · have h3 := inv.pos b (live_sub_ever evs b hb)
          omega
    refine ⟨patch I n a, a,
      { s with alloc := fun q => if q = a then true else s.alloc q, size := fun q => if q = a then n else s.size q,
               counter := s.counter + 1 },
      rfl, hrun, ?_⟩
    show mallocRel _ _ _ _ _ _
    unfold mallocRel
    rw [if_pos (by simp; omega)]
    show allocReuseSafe _ _ _ _ _
    refine ⟨by omega, fun _ => ⟨ha, ?_⟩, fun h => absurd h hz', hne, ?_, by simp, by simp, fun q hq => by simp [hq],
      fun q hq => by simp [hq], ?_, rfl, rfl⟩
    · simp only [patch]; omega
    · intro q hq
      have hqa : q ≠ a := by intro h; subst h; simp only at hq; rw [hne] at hq; cases hq
      have := (hsize q hq).1
      simp only [hqa, if_false]
      omega
    · intro q hq
      unfold inRange at hq
      simp only [patch]
      rw [if_pos hq]

example : ∃ s, Run ⟨.reuse, true⟩ I0 st0 [.malloc 8 1024] s ∧ ∀ b ∈ ever [.malloc 8 1024], b.start + b.size < 2000 := by
  refine ⟨{ st1 with curr := 1024 }, Run.snoc (evs := []) .nil ?_, ?_⟩
  · show allocReuseSafe _ _ _ _ _
    refine ⟨by decide, fun _ => by decide, by decide, rfl, ?_, rfl, rfl, ?_, ?_, ?_, rfl, rfl⟩
    · intro q hq; simp [st0] at hq
    · intro q hq; simp [st1, st0, hq]
    · intro q hq; simp [st1, st0, hq]
    · intro q hq
      unfold inRange at hq
      simp only [I0]
      rw [if_pos (by omega)]
  · have : ever [.malloc 8 1024] = [⟨1024, 8, .heap⟩] := by decide
    rw [this]; simp

/-- C19 fails in the REUSE model: two `malloc(0)` in a row have no execution at all, so everything after the second one is
verified vacuously. -/
theorem c19_reuse_zero_blocks_fails (sf : Bool) (I : Interp) (s0 s : St) (evs : List Ev) (p q : Int) :
    ¬ Run ⟨.reuse, sf⟩ I s0 (evs ++ [.malloc 0 p, .malloc 0 q]) s := by
  intro h
  rw [show evs ++ [Ev.malloc 0 p, Ev.malloc 0 q] = (evs ++ [Ev.malloc 0 p]) ++ [Ev.malloc 0 q] by simp] at h
  generalize hE : (evs ++ [Ev.malloc 0 p]) ++ [Ev.malloc 0 q] = E at h
  cases h with
  | nil => simp at hE
  | @snoc evs' s1 e s2 hr hst =>
    have h1 := List.append_inj' hE rfl
    obtain ⟨rfl, h2⟩ := h1
    simp only [List.cons.injEq, and_true] at h2
    subst h2
    generalize hE' : evs ++ [Ev.malloc 0 p] = E' at hr
    cases hr with
    | nil => simp at hE'
    | @snoc evs'' s3 e' s4 hr' hst' =>
      have h3 := List.append_inj' hE' rfl
      obtain ⟨rfl, h4⟩ := h3
      simp only [List.cons.injEq, and_true] at h4
      subst h4
      obtain ⟨k1, a1, _⟩ := malloc_alloc (show mallocRel _ _ _ _ _ _ from hst')
      obtain ⟨k2, a2, _⟩ := malloc_alloc (show mallocRel _ _ _ _ _ _ from hst)
      obtain ⟨_, p1, _, _, al, _⟩ := (alloc_common a1).2.2.2 rfl
      obtain ⟨_, p2, al2, _⟩ := (alloc_common a2).2.2.2 rfl
      rw [p1 rfl] at al
      rw [p2 rfl] at al2
      simp only at al2
      rw [al] at al2; cases al2

/-! ## C20 -/

/-- C20, no false alarms: in every execution (any initial `$Alloc`, any interpretation), an access of at least one byte inside
one live block passes the check. `free(NULL)` is excluded except in the default model (see `c20_null_free_fails`). -/
theorem c20_inside_passes_partial (c : Cfg) (hc : c.safety = true) (I : Interp) (s0 s : St) (evs : List Ev) (h0 : Init c s0)
    (hr : Run c I s0 evs s) (hg : GlobalsOk evs) (hn : c.model ≠ .impls → NoNullFree evs) (p n : Int) (hpos : 1 ≤ n)
    (hin : Inside (live evs) p n) : check c I s p n := by
  have inv := invS_run hc h0 hr hg hn
  obtain ⟨b, hb, h1, h2⟩ := hin
  have hbase := inv.base b (live_sub_ever evs b hb) p (by unfold inRange; omega)
  unfold check
  rw [hbase, inv.size b hb]
  exact ⟨inv.alloc b hb, h1, h2⟩

/-- C20, exactness: in every execution that starts with nothing allocated, and for every interpretation, the check of an
access of at least one byte passes exactly when the bytes lie inside one live block. -/
theorem c20_check_exact_partial (c : Cfg) (hc : c.safety = true) (I : Interp) (s0 s : St) (evs : List Ev) (h0 : Init c s0)
    (he : Empty s0) (hr : Run c I s0 evs s) (hg : GlobalsOk evs) (hn : c.model ≠ .impls → NoNullFree evs) (hl : NoLeave evs)
    (p n : Int) (hpos : 1 ≤ n) : check c I s p n ↔ Inside (live evs) p n := by
  refine ⟨fun h => ?_, c20_inside_passes_partial c hc I s0 s evs h0 hr hg hn p n hpos⟩
  have inv := invS_run hc h0 hr hg hn
  have invE := invE_run hc h0 he hr hn hl hg
  obtain ⟨h1, h2, h3⟩ := h
  rcases invE _ h1 with ⟨b, hb, hbq⟩ | ⟨hm, hq0, hs0⟩
  · refine ⟨b, hb, by omega, ?_⟩
    rw [← hbq, inv.size b hb] at h3
    exact h3
  · rw [hq0] at h2 h3
    unfold sizeOf at h3
    rw [hm] at h3
    simp only at h3
    omega

/-- C20, every bad access is reported: a history with legal frees that has an execution also has one that starts with nothing
allocated, in which (by `c20_check_exact_partial`) the check fails for every access not inside one live block. -/
theorem c20_bad_access_reported (c : Cfg) (hc : c.safety = true) (I : Interp) (s0 s : St) (evs : List Ev) (h0 : Init c s0)
    (hr : Run c I s0 evs s) (hg : GlobalsOk evs) (hn : c.model ≠ .impls → NoNullFree evs) (hl : NoLeave evs)
    (hlf : LegalFrees evs) (p n : Int) (hpos : 1 ≤ n) (hbad : ¬ Inside (live evs) p n) :
    ∃ s0' s', Init c s0' ∧ Run c I s0' evs s' ∧ ¬ check c I s' p n := by
  obtain ⟨t, hrt, _⟩ := rerun_empty hc hr hlf (fun hm => hn (by rw [hm]; decide))
  have h0' : Init c { s0 with alloc := fun _ => false } := h0
  exact ⟨_, t, h0', hrt, fun h => hbad ((c20_check_exact_partial c hc I _ t evs h0' (fun _ => rfl) hrt hg hn hl p n hpos).1 h)⟩

example : Run ⟨.impls, true⟩ I0 st0 [.malloc 8 1024] { st1 with size := fun _ => 0 } ∧
    Inside (live [.malloc 8 1024]) 1028 4 ∧ ¬ Inside (live [.malloc 8 1024]) 1028 5 ∧ NoLeave [.malloc 8 1024] ∧
    LegalFrees [.malloc 8 1024] := by
  have : live [.malloc 8 1024] = [⟨1024, 8, .heap⟩] := by decide
  refine ⟨run_malloc_impls, ?_, ?_, ?_, ?_⟩
  · rw [this]; simp [Inside]
  · rw [this]; simp [Inside]
  · intro p; simp
  · intro pre p post h
    rcases pre with _ | ⟨x, pre⟩ <;> simp at h

/-- C20 fails after `free(NULL)` in the REUSE and NO_REUSE models: `$Alloc` is havocked, so an access to a live block can
fail the check (a false alarm). -/
theorem c20_null_free_fails (m : Model) (hm : m ≠ .impls) : ∃ (I : Interp) (s0 s : St) (evs : List Ev),
    Init ⟨m, true⟩ s0 ∧ Empty s0 ∧ Run ⟨m, true⟩ I s0 evs s ∧ LegalHeapFrees evs ∧ Inside (live evs) 1024 8 ∧
    ¬ check ⟨m, true⟩ I s 1024 8 := by
  have hbase : ∀ q, inRange 1024 8 q → I0.base q = 1024 := by
    intro q hq
    unfold inRange at hq
    simp only [I0]
    rw [if_pos (by omega)]
  have hlive : live [.malloc 8 1024, .free 0] = [⟨1024, 8, .heap⟩] := by decide
  have hleg : LegalHeapFrees [.malloc 8 1024, .free 0] := by
    intro pre p post h
    rcases pre with _ | ⟨x, _ | ⟨y, pre⟩⟩ <;> simp at h
    left; exact h.2.1.symm
  cases m with
  | impls => exact absurd rfl hm
  | reuse =>
    refine ⟨I0, st0, { st1 with alloc := fun _ => false, curr := 1024 }, [.malloc 8 1024, .free 0], init0 _, fun _ => rfl, ?_, hleg,
      by rw [hlive]; simp [Inside], by simp [check]⟩
    refine Run.snoc (evs := [.malloc 8 1024]) (s := { st1 with curr := 1024 }) (Run.snoc (evs := []) .nil ?_) ?_
    · show allocReuseSafe _ _ _ _ _
      refine ⟨by decide, fun _ => by decide, by decide, rfl, ?_, rfl, rfl, ?_, ?_, hbase, rfl, rfl⟩
      · intro q hq; simp [st0] at hq
      · intro q hq; simp [st1, st0, hq]
      · intro q hq; simp [st1, st0, hq]
    · exact ⟨.inl rfl, by simp, by simp, by simp, fun _ => rfl, rfl, rfl⟩
  | noReuse =>
    refine ⟨I0, st0, { st1 with alloc := fun _ => false, size := fun _ => 0 }, [.malloc 8 1024, .free 0], init0 _, fun _ => rfl, ?_,
      hleg, by rw [hlive]; simp [Inside], by simp [check]⟩
    refine Run.snoc (evs := [.malloc 8 1024]) (s := { st1 with size := fun _ => 0 }) (Run.snoc (evs := []) .nil ?_) ?_
    · show allocNoReuseSafe _ _ _ _ _
      refine ⟨by decide, fun _ => by decide, by decide, fun _ => rfl, fun _ => hbase, fun _ => rfl, by simp, by simp, ?_, rfl, rfl⟩
      intro q hq; simp [st1, st0, hq]
    · exact ⟨.inl rfl, by simp, by simp, by simp, fun _ => rfl, rfl, rfl⟩

/-- C20 fails for storage of functions that have returned: no code is generated at the return, so an access through a
dangling pointer to a local variable passes the check in every execution. -/
theorem c20_use_after_return_fails (c : Cfg) (hc : c.safety = true) (I : Interp) (s0 s : St) (n p : Int) (hn : 1 ≤ n)
    (h0 : Init c s0) (hr : Run c I s0 [.stack n p] s) :
    Run c I s0 [.stack n p, .leave p] s ∧ ¬ Inside (live [.stack n p, .leave p]) p n ∧ check c I s p n := by
  refine ⟨Run.snoc (evs := [.stack n p]) hr rfl, ?_, ?_⟩
  · have : live [.stack n p, .leave p] = [] := by simp [live, update, show 0 < n by omega]
    rw [this]; simp [Inside]
  · refine c20_inside_passes_partial c hc I s0 s [.stack n p] h0 hr ?_ ?_ p n hn ?_
    · have : ever [.stack n p] = [⟨p, n, .stack⟩] := by simp [ever, created, show 0 < n by omega]
      unfold GlobalsOk
      rw [this]; simp
    · intro _; simp [NoNullFree]
    · have : live [.stack n p] = [⟨p, n, .stack⟩] := by simp [live, update, show 0 < n by omega]
      rw [this]; simp [Inside]

/-- C20 fails for lengths whose integer representation is negative (possible for `memcpy` and `memset` lengths in the integer
encodings): the check passes for every pointer into a live block, although the length denotes `2^64 + n` bytes. -/
theorem c20_negative_length_fails (c : Cfg) (hc : c.safety = true) (I : Interp) (s0 s : St) (evs : List Ev) (h0 : Init c s0)
    (hr : Run c I s0 evs s) (hg : GlobalsOk evs) (hn : c.model ≠ .impls → NoNullFree evs) (p n : Int) (hneg : n ≤ 0)
    (hin : Inside (live evs) p 1) : check c I s p n := by
  obtain ⟨h1, h2, h3⟩ := c20_inside_passes_partial c hc I s0 s evs h0 hr hg hn p 1 (by omega) hin
  exact ⟨h1, h2, by omega⟩

/-- C20 fails for empty accesses at the end of a block (`memcpy(p + 8, q, 0)`): a false alarm. -/
theorem c20_empty_access_fails : ∃ (I : Interp) (s0 s : St) (evs : List Ev), Init ⟨.impls, true⟩ s0 ∧
    Run ⟨.impls, true⟩ I s0 evs s ∧ Inside (live evs) 1032 0 ∧ ¬ check ⟨.impls, true⟩ I s 1032 0 := by
  refine ⟨I0, st0, _, _, init0 _, run_malloc_impls, ?_, ?_⟩
  · have : live [.malloc 8 1024] = [⟨1024, 8, .heap⟩] := by decide
    rw [this]; simp [Inside]
  · intro h
    have h := h.1
    revert h
    decide

/-! ## C21 -/

/-- C21: in every execution that starts with nothing allocated, `free(p)` is accepted exactly for null and for starts of live
blocks that are not global. (For stack blocks the C standard demands a report: `c21_stack_free_fails`.) -/
theorem c21_free_accepted_partial (c : Cfg) (hc : c.safety = true) (I : Interp) (s0 s : St) (evs : List Ev) (h0 : Init c s0)
    (he : Empty s0) (hr : Run c I s0 evs s) (hg : GlobalsOk evs) (hn : c.model ≠ .impls → NoNullFree evs) (hl : NoLeave evs)
    (p : Int) : freeOk c I s p ↔ p = 0 ∨ ∃ b ∈ live evs, b.start = p ∧ b.kind ≠ .global := by
  have inv := inv_run h0 hr (NullOk.hist hn hg)
  have invS := invS_run hc h0 hr hg hn
  have invE := invE_run hc h0 he hr hn hl hg
  have key : freeOk c I s p ↔ p = 0 ∨ (0 < p ∧ I.base p = p ∧ s.alloc p = true) := by
    obtain ⟨m, sf⟩ := c
    subst hc
    cases m <;> simp only [freeOk]
    constructor
    · intro h
      by_cases hp : p = 0
      · exact .inl hp
      · exact .inr ⟨(h hp).2.2, (h hp).1, (h hp).2.1⟩
    · rintro (h | h) hp
      · exact absurd h hp
      · exact ⟨h.2.1, h.2.2, h.1⟩
  rw [key]
  constructor
  · rintro (h | ⟨h1, h2, h3⟩)
    · exact .inl h
    · rcases invE p h3 with ⟨b, hb, hbp⟩ | ⟨_, hp0, _⟩
      · right
        refine ⟨b, hb, hbp, fun hk => ?_⟩
        have h4 := inv.glob b (live_sub_ever evs b hb) hk
        have h5 := inv.pos b (live_sub_ever evs b hb)
        omega
      · omega
  · rintro (h | ⟨b, hb, hbp, hk⟩)
    · exact .inl h
    · right
      have hb' := live_sub_ever evs b hb
      have h4 := inv.nonglob b hb' hk
      have h5 := inv.pos b hb'
      have h6 := invS.base b hb' p (by unfold inRange; omega)
      have h7 := invS.alloc b hb
      rw [hbp] at h6 h7
      exact ⟨by omega, h6, h7⟩

/-- C21: a double free is rejected (there is an execution in which it is reported). -/
theorem c21_double_free_rejected (c : Cfg) (hc : c.safety = true) (I : Interp) (s0 s : St) (evs : List Ev) (h0 : Init c s0)
    (he : Empty s0) (p : Int) (hr : Run c I s0 (evs ++ [.free p]) s) (hg : GlobalsOk (evs ++ [.free p]))
    (hn : c.model ≠ .impls → NoNullFree (evs ++ [.free p])) (hl : NoLeave (evs ++ [.free p])) (hp : p ≠ 0) :
    ¬ freeOk c I s p := by
  rw [c21_free_accepted_partial c hc I s0 s _ h0 he hr hg hn hl]
  rintro (h | ⟨b, hb, hbp, _⟩)
  · exact hp h
  · rw [live_snoc, update, List.mem_filter] at hb
    simp [hbp] at hb

/-- C21: the address of a global is rejected. -/
theorem c21_global_free_rejected (c : Cfg) (hc : c.safety = true) (I : Interp) (s0 s : St) (evs : List Ev) (h0 : Init c s0)
    (he : Empty s0) (hr : Run c I s0 evs s) (hg : GlobalsOk evs) (hn : c.model ≠ .impls → NoNullFree evs) (hl : NoLeave evs)
    (b : Block) (hb : b ∈ live evs) (hk : b.kind = .global) : ¬ freeOk c I s b.start := by
  have inv := inv_run h0 hr (NullOk.hist hn hg)
  have h4 := inv.glob b (live_sub_ever evs b hb) hk
  have h5 := inv.pos b (live_sub_ever evs b hb)
  rw [c21_free_accepted_partial c hc I s0 s _ h0 he hr hg hn hl]
  rintro (h | ⟨b', hb', hbp, hk'⟩)
  · omega
  · have h6 := inv.nonglob b' (live_sub_ever evs b' hb') hk'
    omega

/-- C21: if every `free` was legal C, the leak assertion holds exactly when no heap block is live. -/
theorem c21_leak_check_partial (c : Cfg) (hc : c.safety = true) (I : Interp) (s0 s : St) (evs : List Ev) (h0 : Init c s0)
    (hr : Run c I s0 evs s) (hg : GlobalsOk evs) (hn : c.model = .reuse → NoNullFree evs) (hl : LegalHeapFrees evs) :
    leakCheck s ↔ ∀ b ∈ live evs, b.kind ≠ .heap := by
  have h := counter_run hc h0 hr ⟨hg, fun h1 _ => hn h1⟩ hl
  unfold leakCheck
  rw [h]
  unfold heapCount
  constructor
  · intro h1 b hb hk
    have h2 : ((live evs).filter (fun b => decide (b.kind = .heap))).length = 0 := by omega
    rw [List.length_eq_zero_iff, List.filter_eq_nil_iff] at h2
    exact h2 b hb (by simp [hk])
  · intro h1
    have : (live evs).filter (fun b => decide (b.kind = .heap)) = [] := by
      rw [List.filter_eq_nil_iff]; intro b hb; simp [h1 b hb]
    rw [this]; rfl

example : LegalHeapFrees [.malloc 8 1024, .free 1024] ∧
    (∃ s, Run ⟨.impls, true⟩ I0 st0 [.malloc 8 1024, .free 1024] s) := by
  constructor
  · intro pre p post h
    rcases pre with _ | ⟨x, _ | ⟨y, pre⟩⟩ <;> simp at h
    right
    obtain ⟨rfl, rfl, _⟩ := h
    refine ⟨⟨1024, 8, .heap⟩, ?_, rfl, rfl⟩
    decide
  · refine ⟨{ st0 with curr := 1032, alloc := fun q => if q = 1024 then false else if q = 1024 then true else false },
      Run.snoc (evs := [.malloc 8 1024]) run_malloc_impls ⟨?_, ?_⟩⟩
    · intro _; decide
    · unfold freeRel
      simp only
      rw [if_pos (by decide)]
      rfl

/-- C21 fails for stack storage: in every execution `free` of an `alloca` block is accepted... -/
theorem c21_stack_free_fails (c : Cfg) (hc : c.safety = true) (I : Interp) (s0 s : St) (evs : List Ev) (h0 : Init c s0)
    (hr : Run c I s0 evs s) (hg : GlobalsOk evs) (hn : c.model ≠ .impls → NoNullFree evs)
    (b : Block) (hb : b ∈ live evs) (hk : b.kind = .stack) : freeOk c I s b.start := by
  have inv := inv_run h0 hr (NullOk.hist hn hg)
  have invS := invS_run hc h0 hr hg hn
  have hb' := live_sub_ever evs b hb
  have h4 := inv.nonglob b hb' (by rw [hk]; decide)
  have h5 := inv.pos b hb'
  have h6 := invS.base b hb' b.start (by unfold inRange; omega)
  have h7 := invS.alloc b hb
  obtain ⟨m, sf⟩ := c
  subst hc
  cases m <;> simp only [freeOk]
  · exact fun _ => ⟨h6, h7, by omega⟩
  · exact .inr ⟨by omega, h6, h7⟩
  · exact .inr ⟨by omega, h6, h7⟩

/-- ... and it hides a leak: `malloc`, `alloca`, `free` of the stack block, and the leak assertion holds although the heap
block is still live. -/
theorem c21_leak_hidden_fails : ∃ (I : Interp) (s0 s : St) (evs : List Ev), Init ⟨.impls, true⟩ s0 ∧ Empty s0 ∧
    Run ⟨.impls, true⟩ I s0 evs s ∧ leakCheck s ∧ ∃ b ∈ live evs, b.kind = .heap := by
  refine ⟨I0, st0, ⟨fun q => if q = 1032 then false else if q = 1032 then true else if q = 1024 then true else false,
    fun _ => 0, 1040, 0⟩, [.malloc 8 1024, .stack 8 1032, .free 1032], init0 _, fun _ => rfl, ?_, rfl, ⟨1024, 8, .heap⟩, ?_, rfl⟩
  · refine Run.snoc (evs := [.malloc 8 1024, .stack 8 1032])
      (s := ⟨fun q => if q = 1032 then true else if q = 1024 then true else false, fun _ => 0, 1040, 1⟩)
      (Run.snoc (evs := [.malloc 8 1024]) run_malloc_impls ?_) ⟨?_, ?_⟩
    · show allocImplsSafe _ _ _ _ _
      refine ⟨by decide, ?_⟩
      rw [if_pos (by decide)]
      refine ⟨rfl, by decide, by decide, rfl, ?_, rfl, rfl, rfl⟩
      intro q hq
      unfold inRange at hq
      simp only [I0]
      rw [if_neg (by omega), if_pos (by omega)]
    · intro _; decide
    · unfold freeRel
      simp only
      rw [if_pos (by decide)]
      rfl
  · decide

/-- C21 fails for `free(malloc(0))` in the default model: the result of `malloc(0)` is unconstrained, so the free can be
rejected. -/
theorem c21_malloc_zero_fails : ∃ (I : Interp) (s0 s : St) (p : Int), Init ⟨.impls, true⟩ s0 ∧ Empty s0 ∧
    Run ⟨.impls, true⟩ I s0 [.malloc 0 p] s ∧ ¬ freeOk ⟨.impls, true⟩ I s p := by
  refine ⟨I0, st0, st0, 5, init0 _, fun _ => rfl, Run.snoc (evs := []) .nil ?_, ?_⟩
  · show allocImplsSafe _ _ _ _ _
    refine ⟨by decide, ?_⟩
    rw [if_neg (show ¬ (0 : Int) < 0 by decide)]
  · intro h
    have := (h (by decide)).2.1
    simp [st0] at this

end Smack.Alloc
