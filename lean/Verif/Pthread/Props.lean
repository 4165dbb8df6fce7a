import Verif.Pthread.Spec

/-
C52, C53.
-/

namespace Smack.Pthread

variable {T : Type} [DecidableEq T]

/-! ### C52: mutual exclusion -/

/-- The thread claims the lock. -/
def Claims (s : St T) (t : T) : Prop := inside t s.evs = true ∨ s.pc t = .lkRet ∨ s.pc t = .unRelease

/-- Is the thread inside `pthread_mutex_unlock`? -/
def unPc : PC → Bool
  | .unAssertInit | .unAssertOwn | .unCheckInit | .unCheckOwn | .unRelease => true
  | _ => false

structure Inv (tid : T → Int) (s : St T) : Prop where
  claim : ∀ t, Claims s t → s.lock = tid t
  out : ∀ t, unPc (s.pc t) = true → inside t s.evs = false

theorem inv_init (tid : T → Int) : Inv tid (initSt (T := T)) where
  claim := by
    rintro t (h | h | h)
    · cases h
    · cases h
    · cases h
  out := fun t h => rfl

/-- Either the library's own checks are active, or the program is disciplined. -/
def Checked (cfg : Cfg) : Prop := cfg.type = .errorcheck ∨ cfg.asserts = true

theorem inside_lock (t u : T) (es : List (Ev T)) : inside t (.callLock u :: es) = inside t es := rfl
theorem inside_unret (t u : T) (c : Nat) (es : List (Ev T)) : inside t (.retUnlock u c :: es) = inside t es := rfl
theorem inside_ds (t u : T) (es : List (Ev T)) : inside t (.callDestroy u :: es) = inside t es := rfl
theorem inside_dsret (t u : T) (es : List (Ev T)) : inside t (.retDestroy u :: es) = inside t es := rfl
theorem inside_err (t u : T) {c : Nat} (hc : c ≠ 0) (es : List (Ev T)) : inside t (.retLock u c :: es) = inside t es := by
  rw [inside, if_neg (fun h => hc h.2)]
theorem inside_acq (t u : T) (es : List (Ev T)) (h : inside t (.retLock u 0 :: es) = true) : u = t ∨ inside t es = true := by
  rw [inside] at h
  by_cases hu : u = t
  · exact Or.inl hu
  · rw [if_neg (fun h => hu h.1)] at h; exact Or.inr h
theorem inside_un (t u : T) (es : List (Ev T)) (h : inside t (.callUnlock u :: es) = true) : u ≠ t ∧ inside t es = true := by
  rw [inside] at h
  by_cases hu : u = t
  · rw [if_pos hu] at h; cases h
  · rw [if_neg hu] at h; exact ⟨hu, h⟩
theorem inside_un_self (t : T) (es : List (Ev T)) : inside t (.callUnlock t :: es) = false := by
  rw [inside, if_pos rfl]

/-- Moving the program counter of `t`. -/
theorem inv_move {tid : T → Int} {s : St T} (hi : Inv tid s) (t : T) (p : PC)
    (hc : p = .lkRet ∨ p = .unRelease → s.lock = tid t) (ho : unPc p = true → inside t s.evs = false) :
    Inv tid (setPc s t p) where
  claim := by
    intro u hu
    show s.lock = tid u
    by_cases hut : u = t
    · subst hut
      rcases hu with h | h | h
      · exact hi.claim u (Or.inl h)
      · exact hc (Or.inl (by simpa [setPc] using h))
      · exact hc (Or.inr (by simpa [setPc] using h))
    · refine hi.claim u ?_
      rcases hu with h | h | h
      · exact Or.inl h
      · exact Or.inr (Or.inl (by simpa [setPc, hut] using h))
      · exact Or.inr (Or.inr (by simpa [setPc, hut] using h))
  out := by
    intro u hu
    show inside u s.evs = false
    by_cases hut : u = t
    · subst hut
      exact ho (by simpa [setPc] using hu)
    · exact hi.out u (by simpa [setPc, hut] using hu)

/-- An event that changes nobody's status. -/
theorem inv_emit {tid : T → Int} {s : St T} (hi : Inv tid s) (e : Ev T)
    (he : ∀ u, inside u (e :: s.evs) = inside u s.evs) : Inv tid (emit s e) where
  claim := by
    intro u hu
    refine hi.claim u ?_
    rcases hu with h | h | h
    · exact Or.inl (by rw [← he u]; exact h)
    · exact Or.inr (Or.inl h)
    · exact Or.inr (Or.inr h)
  out := fun u hu => by show inside u (e :: s.evs) = false; rw [he u]; exact hi.out u hu

/-- Calling unlock. -/
theorem inv_callUnlock {tid : T → Int} {s : St T} (hi : Inv tid s) (t : T) : Inv tid (emit s (.callUnlock t)) where
  claim := by
    intro u hu
    refine hi.claim u ?_
    rcases hu with h | h | h
    · exact Or.inl (inside_un _ _ _ h).2
    · exact Or.inr (Or.inl h)
    · exact Or.inr (Or.inr h)
  out := by
    intro u hu
    show inside u (.callUnlock t :: s.evs) = false
    cases h : inside u (.callUnlock t :: s.evs) with
    | false => rfl
    | true =>
      have := (inside_un _ _ _ h).2
      rw [hi.out u hu] at this; cases this

theorem inv_failed {tid : T → Int} {s : St T} (hi : Inv tid s) : Inv tid { s with failed := true } :=
  ⟨hi.claim, hi.out⟩

theorem inv_step {cfg : Cfg} {tid : T → Int} (hinj : ∀ t u, tid t = tid u → t = u) (h0 : ∀ t, tid t ≠ 0)
    {s s' : St T} {t : T} {a : Act} (hi : Inv tid s) (hs : step cfg tid s t a = some s')
    (hd : Checked cfg ∨ Disciplined s'.evs) : Inv tid s' := by
  rw [step.eq_def] at hs
  split at hs
  · cases hs
  · split at hs
    case h_1 hpc => -- user code
      split at hs
      · cases hs; exact hi
      · -- lock
        have hl := inv_emit hi (.callLock t) (fun u => inside_lock u t s.evs)
        have hm : ∀ p, p ≠ .lkRet → unPc p = false → Inv tid (setPc (emit s (.callLock t)) t p) := by
          intro p h1 h2
          refine inv_move hl t p ?_ ?_
          · rintro (h | h)
            · exact absurd h h1
            · rw [h] at h2; cases h2
          · intro h; rw [h2] at h; cases h
        dsimp only at hs
        split at hs
        · cases hs
          cases cfg.asserts <;> exact hm _ (by decide) rfl
        · cases hs; exact hm _ (by decide) rfl
        · split at hs
          · cases hs; exact inv_failed hl
          · cases hs; exact hm _ (by decide) rfl
      · -- unlock
        have hl := inv_callUnlock hi t
        have ho : inside t (emit s (.callUnlock t)).evs = false := inside_un_self t s.evs
        have hm : ∀ p, p ≠ .lkRet → p ≠ .unRelease → Inv tid (setPc (emit s (.callUnlock t)) t p) := by
          intro p h1 h2
          refine inv_move hl t p ?_ (fun _ => ho)
          rintro (h | h)
          · exact absurd h h1
          · exact absurd h h2
        have hrel : cfg.type ≠ .errorcheck → cfg.asserts = false → Disciplined (emit s (.callUnlock t)).evs ∨ Checked cfg →
            Inv tid (setPc (emit s (.callUnlock t)) t .unRelease) := by
          rintro h1 h2 (h3 | h3)
          · refine inv_move hl t _ (fun _ => ?_) (fun _ => ho)
            exact hi.claim t (Or.inl h3.1)
          · rcases h3 with h3 | h3
            · exact absurd h3 h1
            · rw [h2] at h3; cases h3
        dsimp only at hs
        split at hs
        · rename_i htype
          cases hs
          cases has : cfg.asserts with
          | true => exact hm _ (by decide) (by decide)
          | false =>
            refine hrel (by rw [htype]; decide) has ?_
            rcases hd with hd | hd
            · exact Or.inr hd
            · exact Or.inl hd
        · cases hs; exact hm _ (by decide) (by decide)
        · rename_i htype
          split at hs
          · cases hs; exact inv_failed hl
          · rename_i has
            cases hs
            refine hrel (by rw [htype]; decide) (by simpa using has) ?_
            rcases hd with hd | hd
            · exact Or.inr hd
            · exact Or.inl hd
      · -- destroy
        cases hs
        have hl := inv_emit hi (.callDestroy t) (fun u => inside_ds u t s.evs)
        refine inv_move hl t _ ?_ ?_
        · cases cfg.asserts <;> (rintro (h | h) <;> cases h)
        · cases cfg.asserts <;> (intro h; cases h)
    case h_2 hpc =>
      split at hs
      · cases hs; exact inv_move hi t _ (by rintro (h | h) <;> cases h) (by intro h; cases h)
      · cases hs; exact inv_failed hi
    case h_3 hpc =>
      split at hs
      · cases hs; exact inv_move hi t _ (by rintro (h | h) <;> cases h) (by intro h; cases h)
      · cases hs; exact inv_failed hi
    case h_4 hpc =>
      split at hs
      · cases hs
        refine inv_emit (inv_move hi t _ (by rintro (h | h) <;> cases h) (by intro h; cases h)) _ (fun u => inside_err u t (by decide) _)
      · cases hs; exact inv_move hi t _ (by rintro (h | h) <;> cases h) (by intro h; cases h)
    case h_5 hpc =>
      split at hs
      · cases hs
        refine inv_emit (inv_move hi t _ (by rintro (h | h) <;> cases h) (by intro h; cases h)) _ (fun u => inside_err u t (by decide) _)
      · cases hs; exact inv_move hi t _ (by rintro (h | h) <;> cases h) (by intro h; cases h)
    case h_6 hpc => -- acquire
      split at hs
      · rename_i hfree
        cases hs
        have hnone : ∀ u, ¬Claims s u := by
          intro u hu
          have := hi.claim u hu
          rw [hfree] at this
          exact h0 u this.symm
        constructor
        · intro u hu
          show tid t = tid u
          by_cases hut : u = t
          · rw [hut]
          · exfalso
            refine hnone u ?_
            rcases hu with h | h | h
            · exact Or.inl h
            · exact Or.inr (Or.inl (by simpa [setPc, hut] using h))
            · exact Or.inr (Or.inr (by simpa [setPc, hut] using h))
        · intro u hu
          show inside u s.evs = false
          cases h : inside u s.evs with
          | false => rfl
          | true => exact absurd (Or.inl h) (hnone u)
      · cases hs
    case h_7 hpc => -- return 0
      cases hs
      have hlock : s.lock = tid t := hi.claim t (Or.inr (Or.inl hpc))
      have hm := inv_move hi t .user (by rintro (h | h) <;> cases h) (by intro h; cases h)
      constructor
      · intro u hu
        show s.lock = tid u
        rcases hu with h | h | h
        · rcases inside_acq u t s.evs h with h | h
          · rw [← h]; exact hlock
          · exact hi.claim u (Or.inl h)
        · exact hm.claim u (Or.inr (Or.inl h))
        · exact hm.claim u (Or.inr (Or.inr h))
      · intro u hu
        have hu' : unPc ((setPc s t .user).pc u) = true := hu
        have hut : u ≠ t := by
          intro h
          subst h
          simp [setPc, unPc] at hu'
        show inside u (.retLock t 0 :: s.evs) = false
        cases h : inside u (.retLock t 0 :: s.evs) with
        | false => rfl
        | true =>
          rcases inside_acq u t s.evs h with h | h
          · exact absurd h.symm hut
          · have := hm.out u hu'
            have h2 : inside u s.evs = false := this
            rw [h2] at h; cases h
    case h_8 hpc =>
      split at hs
      · cases hs; exact inv_move hi t _ (by rintro (h | h) <;> cases h) (fun _ => hi.out t (by rw [hpc]; rfl))
      · cases hs; exact inv_failed hi
    case h_9 hpc =>
      split at hs
      · rename_i hown
        cases hs; exact inv_move hi t _ (fun _ => hown) (fun _ => hi.out t (by rw [hpc]; rfl))
      · cases hs; exact inv_failed hi
    case h_10 hpc =>
      split at hs
      · cases hs
        refine inv_emit (inv_move hi t _ (by rintro (h | h) <;> cases h) (by intro h; cases h)) _ (fun u => inside_unret u t _ _)
      · cases hs; exact inv_move hi t _ (by rintro (h | h) <;> cases h) (fun _ => hi.out t (by rw [hpc]; rfl))
    case h_11 hpc =>
      split at hs
      · cases hs
        refine inv_emit (inv_move hi t _ (by rintro (h | h) <;> cases h) (by intro h; cases h)) _ (fun u => inside_unret u t _ _)
      · rename_i hown
        cases hs
        exact inv_move hi t _ (fun _ => Decidable.of_not_not hown) (fun _ => hi.out t (by rw [hpc]; rfl))
    case h_12 hpc => -- release
      cases hs
      have hlock : s.lock = tid t := hi.claim t (Or.inr (Or.inr hpc))
      have hout := hi.out t (by rw [hpc]; rfl)
      have honly : ∀ u, Claims s u → u = t := by
        intro u hu
        exact hinj u t (by rw [← hi.claim u hu, hlock])
      constructor
      · intro u hu
        exfalso
        by_cases hut : u = t
        · subst hut
          rcases hu with h | h | h
          · have h : inside u s.evs = true := h
            rw [hout] at h; cases h
          · simp [emit, setPc] at h
          · simp [emit, setPc] at h
        · refine hut (honly u ?_)
          rcases hu with h | h | h
          · exact Or.inl h
          · exact Or.inr (Or.inl (by simpa [emit, setPc, hut] using h))
          · exact Or.inr (Or.inr (by simpa [emit, setPc, hut] using h))
      · intro u hu
        show inside u s.evs = false
        by_cases hut : u = t
        · subst hut; exact hout
        · exact hi.out u (by simpa [emit, setPc, hut] using hu)
    case h_13 hpc =>
      split at hs
      · cases hs; exact inv_move hi t _ (by rintro (h | h) <;> cases h) (by intro h; cases h)
      · cases hs; exact inv_failed hi
    case h_14 hpc =>
      split at hs
      · cases hs; exact inv_move hi t _ (by rintro (h | h) <;> cases h) (by intro h; cases h)
      · cases hs; exact inv_failed hi
    case h_15 hpc =>
      cases hs
      have h1 : Inv tid { s with init := UNINITIALIZED } := ⟨hi.claim, hi.out⟩
      exact inv_emit (inv_move h1 t .user (by rintro (h | h) <;> cases h) (by intro h; cases h)) _ (fun u => inside_dsret u t _)

/-- Events are only added. -/
theorem step_evs {cfg : Cfg} {tid : T → Int} {s s' : St T} {t : T} {a : Act} (hs : step cfg tid s t a = some s') :
    s'.evs = s.evs ∨ ∃ e, s'.evs = e :: s.evs := by
  rw [step.eq_def] at hs
  dsimp only at hs
  repeat' split at hs
  all_goals first
    | (cases hs; done)
    | (cases hs; exact Or.inl rfl)
    | (cases hs; exact Or.inr ⟨_, rfl⟩)

theorem disciplined_tail (e : Ev T) (es : List (Ev T)) (h : Disciplined (e :: es)) : Disciplined es := by
  cases e <;> first | exact h | exact h.2

theorem run_disciplined {cfg : Cfg} {tid : T → Int} (l : List (T × Act)) {s s' : St T} (hr : run cfg tid s l = some s')
    (hd : Disciplined s'.evs) : Disciplined s.evs := by
  induction l generalizing s with
  | nil => cases hr; exact hd
  | cons x l ih =>
    obtain ⟨t, a⟩ := x
    rw [run] at hr
    cases hs : step cfg tid s t a with
    | none => rw [hs] at hr; cases hr
    | some s1 =>
      rw [hs] at hr
      have := ih hr
      rcases step_evs hs with h | ⟨e, h⟩
      · rw [← h]; exact this
      · rw [h] at this; exact disciplined_tail e _ this

theorem inv_run {cfg : Cfg} {tid : T → Int} (hinj : ∀ t u, tid t = tid u → t = u) (h0 : ∀ t, tid t ≠ 0)
    (l : List (T × Act)) {s s' : St T} (hi : Inv tid s) (hr : run cfg tid s l = some s')
    (hd : Checked cfg ∨ Disciplined s'.evs) : Inv tid s' := by
  induction l generalizing s with
  | nil => cases hr; exact hi
  | cons x l ih =>
    obtain ⟨t, a⟩ := x
    rw [run] at hr
    cases hs : step cfg tid s t a with
    | none => rw [hs] at hr; cases hr
    | some s1 =>
      rw [hs] at hr
      refine ih (inv_step hinj h0 hi hs ?_) hr
      rcases hd with hd | hd
      · exact Or.inl hd
      · exact Or.inr (run_disciplined l hr hd)

/-- C52 for thread ids that are distinct and not 0: in every schedule of any number of threads, at most one thread is
between a successful `pthread_mutex_lock` and its next `pthread_mutex_unlock`, if the library's assertions are on, or
the mutex is of type ERRORCHECK, or the program only unlocks what it holds. Missing: thread id 0 and, without
assertions, undisciplined programs; both are false (`c52_tid_zero_fails`, `c52_no_asserts_fails`). -/
theorem c52_exclusion_partial (cfg : Cfg) (tid : T → Int) (hinj : ∀ t u, tid t = tid u → t = u) (h0 : ∀ t, tid t ≠ 0)
    (sched : List (T × Act)) (s : St T) (hr : run cfg tid initSt sched = some s)
    (hd : cfg.type = .errorcheck ∨ cfg.asserts = true ∨ Disciplined s.evs) (t u : T)
    (ht : inside t s.evs = true) (hu : inside u s.evs = true) : t = u := by
  have hi := inv_run hinj h0 sched (inv_init tid) hr (by
    rcases hd with h | h | h
    · exact Or.inl (Or.inl h)
    · exact Or.inl (Or.inr h)
    · exact Or.inr h)
  exact hinj t u (by rw [← hi.claim t (Or.inl ht), hi.claim u (Or.inl hu)])

/-- The lock cell names the thread inside. -/
theorem c52_owner (cfg : Cfg) (tid : T → Int) (hinj : ∀ t u, tid t = tid u → t = u) (h0 : ∀ t, tid t ≠ 0)
    (sched : List (T × Act)) (s : St T) (hr : run cfg tid initSt sched = some s)
    (hd : cfg.type = .errorcheck ∨ cfg.asserts = true ∨ Disciplined s.evs) (t : T)
    (ht : inside t s.evs = true) : s.lock = tid t :=
  (inv_run hinj h0 sched (inv_init tid) hr (by
    rcases hd with h | h | h
    · exact Or.inl (Or.inl h)
    · exact Or.inl (Or.inr h)
    · exact Or.inr h)).claim t (Or.inl ht)

/-- Two threads with ids 1 and 2 (`false`, `true`). -/
def exTid (t : Bool) : Int := if t then 2 else 1

/-- A schedule in which thread 1 locks and unlocks, and thread 2 locks after that. -/
def exSched : List (Bool × Act) :=
  [(false, .lock), (true, .lock), (true, .compute), (false, .compute), (false, .compute), (false, .compute), (false, .compute),
   (false, .unlock), (false, .compute), (false, .compute), (false, .compute), (true, .compute), (true, .compute), (true, .compute)]

example : (run ⟨true, .normal⟩ exTid initSt exSched).map (fun s => (inside false s.evs, inside true s.evs, s.failed)) =
    some (false, true, false) := by decide

example : (run ⟨true, .normal⟩ exTid initSt (exSched.take 7)).map (fun s => (inside false s.evs, inside true s.evs, s.failed)) =
    some (true, false, false) := by decide

/-- C52 fails for thread id 0, which equals `UNLOCKED`: a thread with that id does not exclude others. -/
theorem c52_tid_zero_fails : ∃ (sched : List (Bool × Act)) (s : St Bool),
    run ⟨false, .normal⟩ (fun t => if t then 1 else 0) initSt sched = some s ∧
    inside false s.evs = true ∧ inside true s.evs = true ∧ s.failed = false :=
  ⟨[(false, .lock), (false, .compute), (false, .compute), (true, .lock), (true, .compute), (true, .compute)], _, rfl,
    by decide, by decide, rfl⟩

/-- C52 fails without the library's assertions (SV-COMP mode): a thread that does not hold a normal mutex can open it. -/
theorem c52_no_asserts_fails : ∃ (sched : List (Bool × Act)) (s : St Bool),
    run ⟨false, .normal⟩ exTid initSt sched = some s ∧
    inside false s.evs = true ∧ inside true s.evs = true ∧ s.failed = false :=
  ⟨[(false, .lock), (false, .compute), (false, .compute), (true, .unlock), (true, .compute),
    (true, .lock), (true, .compute), (true, .compute)], _, rfl, by decide, by decide, rfl⟩

/-- Locking returns 0 only after the cell was free; the error codes of an ERRORCHECK mutex: 35 for the owner, and the
owner's unlock succeeds. -/
theorem c52_errorcheck_codes (tid : T → Int) (s : St T) (t : T) (a : Act) (hf : s.failed = false) :
    (s.pc t = .lkCheckOwn → s.lock = tid t →
      ∃ s', step ⟨true, .errorcheck⟩ tid s t a = some s' ∧ s'.evs = .retLock t 35 :: s.evs ∧ s'.lock = s.lock) ∧
    (s.pc t = .unCheckOwn → s.lock ≠ tid t →
      ∃ s', step ⟨true, .errorcheck⟩ tid s t a = some s' ∧ s'.evs = .retUnlock t 1 :: s.evs ∧ s'.lock = s.lock) ∧
    (s.pc t = .lkAcquire → s.lock ≠ 0 → step ⟨true, .errorcheck⟩ tid s t a = none) := by
  refine ⟨?_, ?_, ?_⟩
  · intro h1 h2
    refine ⟨emit (setPc s t .user) (.retLock t 35), ?_, rfl, rfl⟩
    simp only [step, hf, h1, Bool.false_eq_true, if_false]
    rw [if_pos h2]
  · intro h1 h2
    refine ⟨emit (setPc s t .user) (.retUnlock t 1), ?_, rfl, rfl⟩
    simp only [step, hf, h1, Bool.false_eq_true, if_false]
    rw [if_pos h2]
  · intro h1 h2
    simp only [step, hf, h1, Bool.false_eq_true, if_false]
    have h2 : ¬s.lock = UNLOCKED := h2
    rw [if_neg h2]

/-- Unlocking opens the mutex, and a waiting thread can take an open mutex and nothing else. -/
theorem c52_handover (cfg : Cfg) (tid : T → Int) (s : St T) (t u : T) (a b : Act) (hf : s.failed = false)
    (ht : s.pc t = .unRelease) (hu : s.pc u = .lkAcquire) :
    ∃ s1 s2 s3, step cfg tid s t a = some s1 ∧ s1.evs = .retUnlock t 0 :: s.evs ∧
      step cfg tid s1 u b = some s2 ∧ step cfg tid s2 u b = some s3 ∧ s3.evs = .retLock u 0 :: s1.evs ∧ s3.lock = tid u := by
  have hut : u ≠ t := by rintro rfl; rw [ht] at hu; cases hu
  have h1 : step cfg tid s t a = some (emit (setPc { s with lock := UNLOCKED } t .user) (.retUnlock t 0)) := by
    simp only [step, hf, ht, Bool.false_eq_true, if_false]
  refine ⟨_,
    setPc { (emit (setPc { s with lock := UNLOCKED } t .user) (.retUnlock t 0)) with lock := tid u } u .lkRet,
    emit (setPc (setPc { (emit (setPc { s with lock := UNLOCKED } t .user) (.retUnlock t 0)) with lock := tid u } u .lkRet)
      u .user) (.retLock u 0), h1, rfl, ?_, ?_, rfl, rfl⟩
  · simp [step, setPc, emit, hf, hut, hu]
  · simp [step, setPc, emit, hf]

/-- With the assertions on, unlocking or re-locking a normal mutex wrongly is reported. -/
theorem c52_misuse_reported (tid : T → Int) (s : St T) (t : T) (a : Act) (hf : s.failed = false) :
    (s.pc t = .lkAssertOwn → s.lock = tid t → ∃ s', step ⟨true, .normal⟩ tid s t a = some s' ∧ s'.failed = true) ∧
    (s.pc t = .unAssertOwn → s.lock ≠ tid t → ∃ s', step ⟨true, .normal⟩ tid s t a = some s' ∧ s'.failed = true) := by
  constructor
  · intro h1 h2
    refine ⟨{ s with failed := true }, ?_, rfl⟩
    simp only [step, hf, h1, Bool.false_eq_true, if_false]
    rw [if_neg (fun h => h h2)]
  · intro h1 h2
    refine ⟨{ s with failed := true }, ?_, rfl⟩
    simp only [step, hf, h1, Bool.false_eq_true, if_false]
    rw [if_neg h2]

end Smack.Pthread
