import Verif.Pthread.Spec

/-
C53: pthread_join waits for the end of the thread and delivers its value.
-/

namespace Smack.Pthread

variable {T : Type} [DecidableEq T]

/-- Every join so far was correct, and no thread stores an exit value after its routine ended. -/
def Good (tid : T → Int) (ret0 : Int → Int) : List (JEv T) → Prop
  | [] => True
  | .joined _ th v :: es =>
    (∃ u, tid u = th ∧ Ended u es ∧ v = (lastExit u es).getD (ret0 th)) ∧ Good tid ret0 es
  | .exited u _ :: es => ¬Ended u es ∧ Good tid ret0 es
  | _ :: es => Good tid ret0 es

structure JInv (tid : T → Int) (ret0 : Int → Int) (s : JSt T) : Prop where
  stop : ∀ i, s.status i = .stopped → ∃ u, tid u = i ∧ s.pc u = .finished ∧ Ended u s.evs
  atStop : ∀ u, s.pc u = .wrapStop → Ended u s.evs
  ret : ∀ u, s.ret (tid u) = (lastExit u s.evs).getD (ret0 (tid u))
  jr : ∀ t th, s.pc t = .joinRead th → s.status th = .stopped
  good : Good tid ret0 s.evs
  dead : ∀ u, Ended u s.evs → s.pc u = .wrapStop ∨ s.pc u = .finished

theorem jinv_init (main : T) (tid : T → Int) (ret0 : Int → Int) : JInv tid ret0 (jinit main ret0) where
  stop := by intro i h; cases h
  atStop := by
    intro u h
    have h : (if u = main then JPC.body else JPC.absent) = .wrapStop := h
    split at h <;> cases h
  ret := fun u => rfl
  jr := by
    intro t th h
    have h : (if t = main then JPC.body else JPC.absent) = .joinRead th := h
    split at h <;> cases h
  good := trivial
  dead := by rintro u ⟨w, h⟩; cases h

omit [DecidableEq T] in
theorem ended_cons (u : T) (e : JEv T) (es : List (JEv T)) (h : Ended u es) : Ended u (e :: es) :=
  h.elim fun w hw => ⟨w, List.mem_cons_of_mem _ hw⟩

/-- Moving a thread that is not finished and whose new place needs nothing. -/
theorem jinv_move {tid : T → Int} {ret0 : Int → Int} {s : JSt T} (hi : JInv tid ret0 s) (t : T) (p : JPC T)
    (hlive : s.pc t ≠ .finished ∧ s.pc t ≠ .wrapStop) (hp : p ≠ .wrapStop)
    (hj : ∀ th, p = .joinRead th → s.status th = .stopped) : JInv tid ret0 (jset s t p) where
  stop := by
    intro i h
    obtain ⟨u, hu, hpc, he⟩ := hi.stop i h
    refine ⟨u, hu, ?_, he⟩
    have : u ≠ t := by rintro rfl; exact hlive.1 hpc
    simp [jset, this, hpc]
  atStop := by
    intro u h
    by_cases hut : u = t
    · simp [jset, hut] at h; exact absurd h hp
    · exact hi.atStop u (by simpa [jset, hut] using h)
  ret := hi.ret
  jr := by
    intro u th h
    by_cases hut : u = t
    · exact hj th (by simpa [jset, hut] using h)
    · exact hi.jr u th (by simpa [jset, hut] using h)
  good := hi.good
  dead := by
    intro u h
    have hd := hi.dead u h
    have : u ≠ t := by
      rintro rfl
      rcases hd with h | h
      · exact hlive.2 h
      · exact hlive.1 h
    simpa [jset, this] using hd

/-- An event that is neither the end of a routine, an exit, nor a join. -/
theorem jinv_emit {tid : T → Int} {ret0 : Int → Int} {s : JSt T} (hi : JInv tid ret0 s) (e : JEv T)
    (h1 : ∀ u, lastExit u (e :: s.evs) = lastExit u s.evs) (h2 : ∀ u w, e ≠ .routineEnd u w)
    (h3 : Good tid ret0 (e :: s.evs)) : JInv tid ret0 (jemit s e) where
  stop := by
    intro i h
    obtain ⟨u, hu, hpc, he⟩ := hi.stop i h
    exact ⟨u, hu, hpc, ended_cons u e _ he⟩
  atStop := fun u h => ended_cons u e _ (hi.atStop u h)
  ret := fun u => by
    show s.ret (tid u) = (lastExit u (e :: s.evs)).getD _
    rw [h1 u]; exact hi.ret u
  jr := hi.jr
  good := h3
  dead := by
    rintro u ⟨w, h⟩
    rcases List.mem_cons.mp h with h | h
    · exact absurd h.symm (h2 u w)
    · exact hi.dead u ⟨w, h⟩

theorem lastExit_routineEnd (u t : T) (v : Int) (es : List (JEv T)) : lastExit u (.routineEnd t v :: es) = lastExit u es := rfl

theorem jinv_step {asserts : Bool} {main : T} {tid : T → Int} {ret0 : Int → Int}
    (hinj : ∀ t u, tid t = tid u → t = u) {s s' : JSt T} {t : T} {a : JAct T} (hi : JInv tid ret0 s)
    (hs : jstep asserts main tid s t a = some s') : JInv tid ret0 s' := by
  rw [jstep.eq_def] at hs
  split at hs
  · cases hs
  · -- changing the status of `t`, which is alive, to something that is not `stopped`
    have hstat : ∀ x, x ≠ Status.stopped → s.pc t ≠ .finished → JInv tid ret0 (setStatus s (tid t) x) := by
      intro x hx hl
      have hsame : ∀ i, s.status i = .stopped → i ≠ tid t := by
        rintro i h rfl
        obtain ⟨u, hu, hpc, _⟩ := hi.stop _ h
        exact hl (by rw [← hinj u t hu]; exact hpc)
      refine ⟨?_, hi.atStop, hi.ret, ?_, hi.good, hi.dead⟩
      · intro i h
        have h : (if i = tid t then x else s.status i) = .stopped := h
        split at h
        · exact absurd h hx
        · exact hi.stop i h
      · intro u th h
        have h := hi.jr u th h
        show (if th = tid t then x else s.status th) = .stopped
        rw [if_neg (hsame th h)]; exact h
    split at hs
    case h_1 => cases hs
    case h_2 hpc =>
      split at hs
      · cases hs; exact jinv_move hi t _ (by rw [hpc]; exact ⟨nofun, nofun⟩) nofun nofun
      · cases hs
    case h_3 hpc =>
      cases hs
      exact jinv_move (hstat .waiting nofun (by rw [hpc]; nofun)) t .wrapRunning (by show s.pc t ≠ _ ∧ s.pc t ≠ _; rw [hpc]; exact ⟨nofun, nofun⟩) nofun nofun
    case h_4 hpc =>
      cases hs
      exact jinv_move (hstat .running nofun (by rw [hpc]; nofun)) t .body (by show s.pc t ≠ _ ∧ s.pc t ≠ _; rw [hpc]; exact ⟨nofun, nofun⟩) nofun nofun
    case h_5 hpc =>
      have hl : s.pc t ≠ .finished ∧ s.pc t ≠ .wrapStop := by rw [hpc]; exact ⟨nofun, nofun⟩
      split at hs
      · cases hs
        exact jinv_emit hi _ (fun _ => rfl) nofun hi.good
      · rename_i c
        split at hs
        · rename_i hc
          cases hs
          have h1 := jinv_move hi c .wrapStart (by rw [hc]; exact ⟨nofun, nofun⟩) nofun nofun
          refine jinv_move h1 t _ ?_ nofun nofun
          have htc : t ≠ c := by rintro rfl; rw [hpc] at hc; cases hc
          simpa [jset, htc] using hl
        · cases hs
      · cases hs
        exact jinv_move hi t _ hl (by cases asserts <;> nofun) (by cases asserts <;> nofun)
      · rename_i v
        cases hs
        have hp : (if t = main then JPC.finished else JPC.wrapStop : JPC T) = .finished ∨
            (if t = main then JPC.finished else JPC.wrapStop : JPC T) = .wrapStop := by split <;> simp
        refine ⟨?_, ?_, ?_, ?_, hi.good, ?_⟩
        · intro i h
          obtain ⟨u, hu, hpc', he⟩ := hi.stop i h
          have : u ≠ t := by rintro rfl; exact hl.1 hpc'
          exact ⟨u, hu, by simp [jset, jemit, this, hpc'], ended_cons u _ _ he⟩
        · intro u h
          by_cases hut : u = t
          · rw [hut]; exact ⟨v, List.mem_cons_self⟩
          · exact ended_cons u _ _ (hi.atStop u (by simpa [jset, jemit, hut] using h))
        · intro u
          show s.ret (tid u) = (lastExit u (_ :: s.evs)).getD _
          rw [lastExit_routineEnd]; exact hi.ret u
        · intro u th h
          by_cases hut : u = t
          · simp only [jset, jemit, hut, if_true] at h
            rcases hp with hp | hp <;> rw [hp] at h <;> cases h
          · exact hi.jr u th (by simpa [jset, jemit, hut] using h)
        · rintro u ⟨w, h⟩
          by_cases hut : u = t
          · simp only [jset, jemit, hut, if_true]
            exact hp.symm
          · rcases List.mem_cons.mp h with h | h
            · injection h with h; exact absurd h hut
            · simpa [jset, jemit, hut] using hi.dead u ⟨w, h⟩
      · split at hs
        · cases hs; exact jinv_emit hi _ (fun _ => rfl) nofun hi.good
        · cases hs; exact jinv_move hi t _ hl nofun nofun
    case h_6 c hpc =>
      cases hs
      have h1 : JInv tid ret0 { s with slot := fun u => if u = c then some (tid c) else s.slot u } :=
        ⟨hi.stop, hi.atStop, hi.ret, hi.jr, hi.good, hi.dead⟩
      exact jinv_move h1 t _ (by show s.pc t ≠ _ ∧ s.pc t ≠ _; rw [hpc]; exact ⟨nofun, nofun⟩) nofun nofun
    case h_7 v hpc =>
      split at hs
      · cases hs; exact jinv_move hi t _ (by rw [hpc]; exact ⟨nofun, nofun⟩) nofun nofun
      · cases hs; exact ⟨hi.stop, hi.atStop, hi.ret, hi.jr, hi.good, hi.dead⟩
    case h_8 v hpc =>
      cases hs
      have hl : s.pc t ≠ .finished ∧ s.pc t ≠ .wrapStop := by rw [hpc]; exact ⟨nofun, nofun⟩
      have hne : ¬Ended t s.evs := by
        intro h
        rcases hi.dead t h with h | h
        · exact hl.2 h
        · exact hl.1 h
      have h1 : JInv tid ret0 (jemit { s with ret := fun i => if i = tid t then v else s.ret i } (.exited t v)) := by
        refine ⟨?_, fun u h => ended_cons u _ _ (hi.atStop u h), ?_, hi.jr, ⟨hne, hi.good⟩, ?_⟩
        · intro i h
          obtain ⟨u, hu, hpc', he⟩ := hi.stop i h
          exact ⟨u, hu, hpc', ended_cons u _ _ he⟩
        · intro u
          show (if tid u = tid t then v else s.ret (tid u)) = (lastExit u (.exited t v :: s.evs)).getD _
          rw [lastExit]
          by_cases hut : t = u
          · rw [if_pos hut, if_pos (by rw [hut])]; rfl
          · rw [if_neg hut, if_neg (fun h => hut (hinj u t h).symm)]; exact hi.ret u
        · rintro u ⟨w, h⟩
          rcases List.mem_cons.mp h with h | h
          · cases h
          · exact hi.dead u ⟨w, h⟩
      exact jinv_move h1 t _ hl nofun nofun
    case h_9 th hpc =>
      split at hs
      · rename_i hstop
        cases hs
        refine jinv_move hi t _ (by rw [hpc]; exact ⟨nofun, nofun⟩) nofun ?_
        intro th' h
        cases h; exact hstop
      · cases hs
    case h_10 th hpc =>
      cases hs
      have hstop := hi.jr t th hpc
      obtain ⟨u, hu, hpcu, he⟩ := hi.stop th hstop
      have h1 : JInv tid ret0 (jemit s (.joined t th (s.ret th))) := by
        refine jinv_emit hi _ (fun _ => rfl) nofun ⟨⟨u, hu, he, ?_⟩, hi.good⟩
        rw [← hu]; exact hi.ret u
      exact jinv_move h1 t _ (by show s.pc t ≠ _ ∧ s.pc t ≠ _; rw [hpc]; exact ⟨nofun, nofun⟩) nofun nofun
    case h_11 hpc =>
      cases hs
      have he := hi.atStop t hpc
      refine ⟨?_, ?_, hi.ret, ?_, hi.good, ?_⟩
      · intro i h
        by_cases hit : i = tid t
        · exact ⟨t, hit.symm, by simp [jset], he⟩
        · have h : (if i = tid t then Status.stopped else s.status i) = .stopped := h
          rw [if_neg hit] at h
          obtain ⟨u, hu, hpc', he⟩ := hi.stop i h
          refine ⟨u, hu, ?_, he⟩
          have : u ≠ t := by rintro rfl; exact hit hu.symm
          simpa [jset, setStatus, this] using hpc'
      · intro u h
        by_cases hut : u = t
        · rw [hut]; exact he
        · exact hi.atStop u (by simpa [jset, setStatus, hut] using h)
      · intro u th h
        have hs : s.status th = .stopped := by
          by_cases hut : u = t
          · simp [jset, hut] at h
          · exact hi.jr u th (by simpa [jset, setStatus, hut] using h)
        show (if th = tid t then Status.stopped else s.status th) = .stopped
        split
        · rfl
        · exact hs
      · intro u h
        by_cases hut : u = t
        · simp [jset, hut]
        · have := hi.dead u h
          simpa [jset, setStatus, hut] using this
    case h_12 => cases hs

theorem jinv_run {asserts : Bool} {main : T} {tid : T → Int} {ret0 : Int → Int}
    (hinj : ∀ t u, tid t = tid u → t = u) (l : List (T × JAct T)) {s s' : JSt T} (hi : JInv tid ret0 s)
    (hr : jrun asserts main tid s l = some s') : JInv tid ret0 s' := by
  induction l generalizing s with
  | nil => cases hr; exact hi
  | cons x l ih =>
    obtain ⟨t, a⟩ := x
    rw [jrun] at hr
    cases hs : jstep asserts main tid s t a with
    | none => rw [hs] at hr; cases hr
    | some s1 =>
      rw [hs] at hr
      exact ih (jinv_step hinj hi hs) hr

theorem good_at {tid : T → Int} {ret0 : Int → Int} (newer : List (JEv T)) {t : T} {th v : Int} {older : List (JEv T)}
    (h : Good tid ret0 (newer ++ .joined t th v :: older)) :
    ∃ u, tid u = th ∧ Ended u older ∧ v = (lastExit u older).getD (ret0 th) ∧
      lastExit u (newer ++ .joined t th v :: older) = lastExit u older := by
  induction newer with
  | nil =>
    obtain ⟨⟨u, h1, h2, h3⟩, _⟩ := h
    exact ⟨u, h1, h2, h3, rfl⟩
  | cons e newer ih =>
    cases e with
    | exited w x =>
      obtain ⟨h1, h2⟩ := h
      obtain ⟨u, hu, he, hv, hl⟩ := ih h2
      refine ⟨u, hu, he, hv, ?_⟩
      have : w ≠ u := by
        rintro rfl
        obtain ⟨z, hz⟩ := he
        exact h1 ⟨z, List.mem_append_right _ (List.mem_cons_of_mem _ hz)⟩
      show (if w = u then some x else lastExit u (newer ++ _)) = _
      rw [if_neg this]; exact hl
    | joined a b c => exact ih h.2
    | routineEnd a b => exact ih h
    | deadlk a b => exact ih h
    | computed a => exact ih h

/-- C53 for values passed to `pthread_exit`: in every schedule with distinct thread ids, when `pthread_join(th, &r)`
returns 0, the start routine of the thread with that id has returned before, and `r` is the value of that thread's last
`pthread_exit` of the whole execution, or the initial content of the cell if there is none. Missing: the value of
`return v` in the start routine (`c53_return_value_fails`). -/
theorem c53_join_partial (asserts : Bool) (main : T) (tid : T → Int) (ret0 : Int → Int)
    (hinj : ∀ t u, tid t = tid u → t = u) (sched : List (T × JAct T)) (s : JSt T)
    (hr : jrun asserts main tid (jinit main ret0) sched = some s)
    (newer older : List (JEv T)) (t : T) (th v : Int) (he : s.evs = newer ++ .joined t th v :: older) :
    ∃ u, tid u = th ∧ Ended u older ∧ v = (lastExit u s.evs).getD (ret0 th) := by
  have hg := (jinv_run hinj sched (jinv_init main tid ret0) hr).good
  rw [he] at hg
  obtain ⟨u, h1, h2, h3, h4⟩ := good_at newer hg
  exact ⟨u, h1, h2, by rw [he, h4]; exact h3⟩

/-- Joining oneself returns 35 and does not wait. -/
theorem c53_join_self (asserts : Bool) (main : T) (tid : T → Int) (s : JSt T) (t : T) (hf : s.failed = false)
    (hb : s.pc t = .body) :
    ∃ s', jstep asserts main tid s t (.join (tid t)) = some s' ∧ s'.evs = .deadlk t (tid t) :: s.evs ∧ s'.pc t = .body := by
  refine ⟨jemit s (.deadlk t (tid t)), ?_, rfl, hb⟩
  simp only [jstep, hf, hb, Bool.false_eq_true, if_false, if_true]

/-- Joining a thread that has not stopped blocks. -/
theorem c53_join_blocks (asserts : Bool) (main : T) (tid : T → Int) (s : JSt T) (t : T) (th : Int) (a : JAct T)
    (hb : s.pc t = .joinWait th) (hn : s.status th ≠ .stopped) : jstep asserts main tid s t a = none := by
  rw [jstep.eq_def]
  split
  · rfl
  · simp only [hb, if_neg hn]

/-- Thread ids 1 (main) and 2. -/
def exJTid (t : Bool) : Int := if t then 2 else 1

/-- Main creates thread 2, which exits with 7 and returns; main joins it. -/
def exJoin : List (Bool × JAct Bool) :=
  [(false, .create true), (false, .compute), (true, .compute), (true, .compute), (true, .compute), (false, .join 2),
   (true, .exit 7), (true, .compute), (true, .compute), (true, .return_ 0), (true, .compute), (false, .compute), (false, .compute)]

def joinValues : List (JEv T) → List Int
  | [] => []
  | .joined _ _ v :: es => v :: joinValues es
  | _ :: es => joinValues es

example : (jrun true false exJTid (jinit false (fun _ => 99)) exJoin).map (fun s => joinValues s.evs) = some [7] := by decide

/-- C53 fails for a start routine that returns its value: `pthread_join` delivers the old content of the cell. -/
theorem c53_return_value_fails (v old : Int) : ∃ (sched : List (Bool × JAct Bool)) (s : JSt Bool),
    jrun true false exJTid (jinit false (fun _ => old)) sched = some s ∧
    JEv.routineEnd true v ∈ s.evs ∧ joinValues s.evs = [old] ∧ s.failed = false :=
  ⟨[(false, .create true), (false, .compute), (true, .compute), (true, .compute), (true, .compute), (false, .join 2),
    (true, .return_ v), (true, .compute), (false, .compute), (false, .compute)], _, rfl,
    List.mem_cons_of_mem _ List.mem_cons_self, rfl, rfl⟩

/-- `pthread_exit` returns to its caller: the thread's code goes on after it. -/
theorem c53_exit_returns_fails (v : Int) : ∃ (sched : List (Bool × JAct Bool)) (s : JSt Bool),
    jrun true false exJTid (jinit false (fun _ => 0)) sched = some s ∧
    s.evs = [JEv.computed true, JEv.exited true v] :=
  ⟨[(false, .create true), (false, .compute), (true, .compute), (true, .compute), (true, .compute),
    (true, .exit v), (true, .compute), (true, .compute), (true, .compute)], _, rfl, rfl⟩

/-- `pthread_exit` in the main thread fails the library's assertion, since main's status is never set. -/
theorem c53_main_exit_fails (main : T) (tid : T → Int) (ret0 : Int → Int) (v : Int) :
    ∃ s : JSt T, jrun true main tid (jinit main ret0) [(main, .exit v), (main, .compute)] = some s ∧ s.failed = true := by
  refine ⟨{ (jset (jinit main ret0) main (.exitAssert v)) with failed := true }, ?_, rfl⟩
  have h1 : jstep true main tid (jinit main ret0) main (.exit v) = some (jset (jinit main ret0) main (.exitAssert v)) := by
    simp [jstep, jinit]
  have h2 : jstep true main tid (jset (jinit main ret0) main (.exitAssert v)) main .compute =
      some { (jset (jinit main ret0) main (.exitAssert v)) with failed := true } := by
    simp [jstep, jset, jinit]
  rw [jrun, h1]
  simp only [jrun, h2]

end Smack.Pthread
