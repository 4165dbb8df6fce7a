/-
C92: the exit status of a run.

Full statement: the exit status tells the verdict of the verifier; runs that do not come to a verdict have a status that
no verdict has. What holds: the statuses 0 and 2 to 126 stem from the verifier's output unless the command line is
wrong or SIGTERM arrives, and a command that fails never leads to the status 0. What does not hold is shown by the
theorems `_fails`.
-/
import Verif.Run.Status
import Verif.Driver.Props

namespace Smack.Run
open Smack.Driver

/-- The language is one of those offered. -/
def LangOk (a : Args) : Prop := ∀ t, a.language = some t → ∃ s ∈ offered, s.toList = t

theorem main_run (w : World) (fs : Files) (a : Args) (hl : LangOk a) :
    main w fs (.run a) = ((body w { args := a, files := fs }).status, removeTemps (body w { args := a, files := fs }).state) := by
  unfold main
  refine if_pos ?_
  cases h : a.language with
  | none => rfl
  | some t =>
    obtain ⟨s, hs, e⟩ := hl t h
    rw [← e]
    show (frontendNames.map Prod.fst).contains s.toList = true
    clear e h
    revert s
    decide

/-- All outcomes of `main`. -/
theorem main_outcome (w : World) (fs : Files) (a : Args) (hl : LangOk a) (hn : a.noVerify = false) (hv : a.verifier ≠ .svcomp) :
    ∃ e, Outcome w a e (main w fs (.run a)).2 ∧ (e = .exit (main w fs (.run a)).1 ∨ (e = .raised ∧ (main w fs (.run a)).1 = 1)) := by
  rw [main_run w fs a hl]
  have := body_outcome w a fs hn hv
  revert this
  cases body w { args := a, files := fs } with
  | ok _ s => exact False.elim
  | stop e s =>
    intro h
    refine ⟨e, h, ?_⟩
    cases e with
    | exit n => exact Or.inl rfl
    | raised => exact Or.inr ⟨rfl, rfl⟩

/-- A status other than 1 and 127 comes from the verifier's output, unless SIGTERM arrived: the verifier was the last
command, everything before it had succeeded, the status is the code of the result, and the result is printed. -/
theorem c92_verdict (w : World) (fs : Files) (a : Args) (hl : LangOk a) (hn : a.noVerify = false) (hv : a.verifier ≠ .svcomp)
    (hsig : ∀ k, w.signal k ≠ some .term) (h1 : (main w fs (.run a)).1 ≠ 1) (h127 : (main w fs (.run a)).1 ≠ 127) :
    ∃ out r, Concluded w a (main w fs (.run a)).2 out ∧
      (∃ files, verificationResult files (readAs a.verifier) out = some r) ∧ (main w fs (.run a)).1 = r.code ∧
      ∃ u, (main w fs (.run a)).2.said.getLast? = some (r.message u) := by
  have hra : readAs a.verifier = a.verifier.reader := by cases a.verifier <;> rfl
  rw [hra]
  obtain ⟨e, ho, he⟩ := main_outcome w fs a hl hn hv
  rcases he with he | ⟨_, he⟩
  · rcases ho with ((⟨_, k, _, hk⟩ | ⟨_, h | h⟩) | ⟨_, h, _⟩) | ⟨_, out, r, hc, hr, hcode, hm⟩
    · exact absurd hk (hsig k)
    · rw [he] at h; cases h
    · rw [he] at h; exact absurd (Stop.exit.inj h) h1
    · rw [he] at h; exact absurd (Stop.exit.inj h) h127
    · rw [he] at hcode
      exact ⟨out, r, hc, hr, (Stop.exit.inj hcode), hm⟩
  · exact absurd he h1

/-- Status 0: the verifier ended within the time limit and reported success. -/
theorem c92_zero (w : World) (fs : Files) (a : Args) (hl : LangOk a) (hn : a.noVerify = false) (hv : a.verifier ≠ .svcomp)
    (hsig : ∀ k, w.signal k ≠ some .term) (h0 : (main w fs (.run a)).1 = 0) :
    ∃ out, Concluded w a (main w fs (.run a)).2 out ∧ SaysSuccess out ∧ ¬SaysTimeout out ∧
      (a.transformOut = none → a.timeLimit ≠ 0 → ∀ e, (main w fs (.run a)).2.log.getLast? = some e → e.2.slow = false ∧ e.2.out = out) := by
  obtain ⟨out, r, hc, ⟨files, hr⟩, hcode, _⟩ := c92_verdict w fs a hl hn hv hsig (by rw [h0]; decide) (by rw [h0]; decide)
  rw [h0] at hcode
  have hrv := ((c49_no_errors_message r none).1).1 hcode.symm
  rw [hrv, c49_verified_exact] at hr
  refine ⟨out, hc, hr.2, hr.1, fun ht hlim e he => ?_⟩
  obtain ⟨pre, c, p, rest, hlog, _, _, _, ⟨raw, hs1, hs2, ho, _⟩, _⟩ := hc
  rw [hlog, List.getLast?_append, List.getLast?_singleton] at he
  cases he
  cases hsl : p.slow with
  | true =>
    obtain ⟨x, hx, _⟩ := hs1 hlim hsl
    exfalso
    refine hr.1 (Or.inr (Or.inr (Or.inl ⟨p.out ++ '\n' :: x ++ " ".toList, ".".toList, ?_⟩)))
    rw [ho ht, hx]
    simp
  | false => exact ⟨rfl, ((ho ht).trans (hs2 (Or.inr hsl))).symm⟩

/-- Statuses 2 to 6 and 126 are those of the reported error and of the time-out. -/
theorem c92_error (w : World) (fs : Files) (a : Args) (hl : LangOk a) (hn : a.noVerify = false) (hv : a.verifier ≠ .svcomp)
    (hsig : ∀ k, w.signal k ≠ some .term) :
    (1 < (main w fs (.run a)).1 → (main w fs (.run a)).1 < 126 →
      ∃ out, Concluded w a (main w fs (.run a)).2 out ∧ SaysFailure out ∧ ¬SaysTimeout out ∧ ¬SaysSuccess out) ∧
    ((main w fs (.run a)).1 = 126 → ∃ out, Concluded w a (main w fs (.run a)).2 out ∧ SaysTimeout out) := by
  constructor
  · intro h1 h2
    obtain ⟨out, r, hc, ⟨files, hr⟩, hcode, _⟩ := c92_verdict w fs a hl hn hv hsig (by omega) (by omega)
    refine ⟨out, hc, c49_error_only_on_failure files _ out r hr ?_⟩
    rw [hcode] at h1 h2
    cases r <;> first | rfl | (exact absurd h1 (by decide)) | (exact absurd h2 (by decide))
  · intro h
    obtain ⟨out, r, hc, ⟨files, hr⟩, hcode, _⟩ := c92_verdict w fs a hl hn hv hsig (by rw [h]; decide) (by rw [h]; decide)
    refine ⟨out, hc, (c49_timeout_exact files (readAs a.verifier) out).1 ?_⟩
    rw [hr]
    rw [h] at hcode
    cases r <;> first | rfl | (exact absurd hcode (by decide))

/-- Competition mode: status 0 means that Corral reported success, or was stopped after exhausting a recursion bound of at
least 13 (the second case is `c50_timeout_fails`). -/
theorem c92_svcomp (w : World) (fs : Files) (a : Args) (hl : LangOk a) (hn : a.noVerify = false) (hv : a.verifier = .svcomp)
    (hsig : ∀ k, w.signal k ≠ some .term) (h0 : (main w fs (.run a)).1 = 0) :
    ∃ out, Concluded w { a with transformOut := none, timeLimit := 880, modular := false } (main w fs (.run a)).2 out ∧
      ((¬SaysTimeout out ∧ SaysSuccess out) ∨ (SaysTimeout out ∧ ReachedBound 13 out)) := by
  have ho := sv_outcome w a fs hn hv
  rw [main_run w fs a hl] at h0 ⊢
  revert h0
  revert ho
  cases body w { args := a, files := fs } with
  | ok _ s => exact fun h => h.elim
  | stop e s =>
    rintro (((⟨_, k, _, hk⟩ | ⟨_, h | h⟩) | ⟨_, h, _⟩) | ⟨_, out, r, hc, ⟨files, hr⟩, hcode, _⟩) h0
    · exact absurd hk (hsig k)
    · rw [h] at h0; exact absurd (show (1:Nat) = 0 from h0) (by decide)
    · rw [h] at h0; exact absurd (show (1:Nat) = 0 from h0) (by decide)
    · rw [h] at h0; exact absurd (show (127:Nat) = 0 from h0) (by decide)
    · rw [hcode] at h0
      have hrv := ((c49_no_errors_message r none).1).1 h0
      rw [hrv] at hr
      exact ⟨out, hc, (c50_verdict_exact files out).1 hr⟩

/-- A verifier that is killed because of the time limit: the status is 126. -/
theorem c92_slow (w : World) (fs : Files) (a : Args) (hl : LangOk a) (hn : a.noVerify = false) (hv : a.verifier ≠ .svcomp)
    (ht : a.transformOut = none)
    (h1 : (main w fs (.run a)).1 ≠ 1) (h127 : (main w fs (.run a)).1 ≠ 127) (hsig : ∀ k, w.signal k ≠ some .term)
    (e : List Word × Proc) (he : (main w fs (.run a)).2.log.getLast? = some e) (hs : e.2.slow = true) (hlim : a.timeLimit ≠ 0) :
    (main w fs (.run a)).1 = 126 := by
  obtain ⟨out, r, hc, ⟨files, hr⟩, hcode, _⟩ := c92_verdict w fs a hl hn hv hsig h1 h127
  obtain ⟨pre, c, p, rest, hlog, _, _, _, ⟨raw, hs1, hs2, ho, _⟩, _⟩ := hc
  rw [hlog, List.getLast?_append, List.getLast?_singleton] at he
  cases he
  obtain ⟨x, hx, _⟩ := hs1 hlim hs
  have : SaysTimeout out := Or.inr (Or.inr (Or.inl ⟨p.out ++ '\n' :: x ++ " ".toList, ".".toList, by rw [ho ht, hx]; simp⟩))
  rw [(c49_timeout_exact files _ out).2 this] at hr
  cases hr
  exact hcode

/-- A command that cannot be started, or ends with an error within its time, ends the run with status 1 (verifiers other
than symbooglix). -/
theorem c92_failed_command (w : World) (fs : Files) (a : Args) (hl : LangOk a) (hn : a.noVerify = false)
    (hv : a.verifier = .boogie ∨ a.verifier = .corral) (hsig : ∀ k, w.signal k ≠ some .term)
    (e : List Word × Proc) (he : e ∈ (main w fs (.run a)).2.log)
    (hf : e.2.started = false ∨ (e.2.rc ≠ 0 ∧ e.2.slow = false)) : (main w fs (.run a)).1 = 1 := by
  have hv1 : a.verifier ≠ .svcomp := by rcases hv with h | h <;> rw [h] <;> decide
  have hv2 : a.verifier ≠ .symbooglix := by rcases hv with h | h <;> rw [h] <;> decide
  have hbad : ¬Succeeded e := by
    rintro ⟨h1, h2⟩
    rcases hf with h | ⟨h, _⟩
    · rw [h1] at h; cases h
    · exact h h2
  obtain ⟨x, ho, hx⟩ := main_outcome w fs a hl hn hv1
  rcases hx with hx | ⟨_, hx⟩
  · rcases ho with ((⟨_, k, _, hk⟩ | ⟨_, h | h⟩) | ⟨_, h, hall⟩) | ⟨_, out, r, ⟨pre, c, p, rest, hlog, hst, _, hrc, _, hpre⟩, _, hcode, _⟩
    · exact absurd hk (hsig k)
    · rw [hx] at h; cases h
    · rw [hx] at h; exact Stop.exit.inj h
    · rcases hall e he with h | ⟨_, h⟩
      · exact absurd h hbad
      · exact absurd h hv2
    · exfalso
      rw [hlog] at he
      rcases List.mem_append.1 he with he | he
      · rcases hpre e he with h | h
        · exact hbad h
        · exact hv2 h
      · rw [List.mem_singleton.1 he] at hf
        rcases hf with hf | ⟨hf1, hf2⟩
        · rw [hst] at hf; cases hf
        · rcases hrc with h | h | ⟨_, h⟩
          · exact hf1 h
          · exact hv2 h
          · rw [hf2] at h; cases h
  · exact hx

/-! ### Statuses that do not tell the verdict -/

/-- SIGTERM during the last command: the status is 0, that of a verified program, whatever has been done. -/
theorem c92_sigterm_fails (w : World) (fs : Files) (a : Args) (hl : LangOk a) (hn : a.noVerify = false) (hv : a.verifier ≠ .svcomp)
    (k : Nat) (hlog : (main w fs (.run a)).2.log.length = k + 1) (hk : w.signal k = some .term) :
    (main w fs (.run a)).1 = VRes.verified.code := by
  obtain ⟨e, ho, he⟩ := main_outcome w fs a hl hn hv
  rcases ho with ((⟨h, _⟩ | ⟨hne, _⟩) | ⟨hne, _⟩) | ⟨hne, _⟩
  · rcases he with he | ⟨he, _⟩
    · rw [h] at he; exact (Stop.exit.inj he).symm
    · rw [h] at he; cases he
  · exact absurd hk (hne k (by omega))
  · exact absurd hk (hne k (by omega))
  · have := hne k (by omega)
    rw [hk] at this
    cases this

/-- A wrong command line has the status of an invalid pointer dereference; no command has been run. -/
theorem c92_usage_fails (w : World) (fs : Files) :
    (main w fs .usage).1 = VRes.invalidDeref.code ∧ (main w fs .usage).2.log = [] ∧
    ∀ a t, a.language = some t → (∀ s ∈ offered, s.toList ≠ t) →
      (main w fs (.run a)).1 = VRes.invalidDeref.code ∧ (main w fs (.run a)).2.log = [] := by
  refine ⟨rfl, rfl, fun a t ht hs => ?_⟩
  have : (frontendNames.map Prod.fst).contains t = false := by
    cases h : (frontendNames.map Prod.fst).contains t with
    | false => rfl
    | true =>
      exfalso
      have hmem : t ∈ frontendNames.map Prod.fst := by simpa using h
      have : frontendNames.map Prod.fst = offered.map String.toList := by decide
      rw [this] at hmem
      obtain ⟨s, hm, e⟩ := List.mem_map.1 hmem
      exact hs s hm e
  unfold main
  simp only [ht, this]
  exact ⟨rfl, rfl⟩

/-- Seven of the eleven offered languages cannot be chosen: the run ends with an exception, the status is that of an
assertion failure, and the program has not been looked at. -/
theorem c92_language_fails (w : World) (fs : Files) (a : Args) (t : String)
    (ht : t ∈ ["cxx", "objc", "llvm", "boogie", "fortran", "rust", "cargo"]) (hl : a.language = some t.toList)
    (hin : a.inputs ≠ []) (hsig : ∀ k, w.signal k ≠ some .term) :
    (main w fs (.run a)).1 = VRes.assertionFailure.code := by
  have hlo : LangOk a := by
    intro t' h
    rw [hl] at h
    cases h
    refine ⟨t, ?_, rfl⟩
    clear hl
    revert t
    decide
  have hnone : language t.toList = none := by
    clear hl hlo
    have h : (["cxx", "objc", "llvm", "boogie", "fortran", "rust", "cargo"].all fun s => (language s.toList).isNone) = true := by decide +kernel
    exact Option.isNone_iff_eq_none.1 (List.all_eq_true.1 h t ht)
  rw [main_run w fs a hlo]
  have : Post (body w { args := a, files := fs }) (fun _ _ => False) (CmdEnd w) := by
    refine post_bind (post_weaken (front_arguments w a _ (front_init w a fs)) fun _ s1 h1 => ?_)
    refine post_bind (post_weaken (keeps_target (cmd_closed w a) s1 h1) fun _ s2 h2 => ?_)
    refine post_bind (m := frontend w) ?_
    unfold frontend
    refine post_bind (m := get) ?_
    show Post ((forEach (frontend1 w s2.args) s2.args.inputs >>= _ : M Unit) s2) _ _
    rw [h2.inputs]
    cases hi : a.inputs with
    | nil => exact absurd hi hin
    | cons f l =>
      refine post_bind (post_bind ?_)
      unfold frontend1 langOf
      simp only [h2.language, hl, hnone]
      exact h2.stop (Or.inl rfl)
  revert this
  cases body w { args := a, files := fs } with
  | ok _ s => exact False.elim
  | stop e s =>
    rintro (⟨_, k, _, hk⟩ | ⟨_, h | h⟩)
    · exact absurd hk (hsig k)
    · rw [h]; rfl
    · rw [h]; rfl

/-- With `--modular` and the default verifier the output of Boogie is read as if it were Corral's: the kind of the
error (statuses 2 to 6) is reported only if the text has Corral's words in it. -/
theorem c92_modular_fails (w : World) (fs : Files) (a : Args) (hl : LangOk a) (hn : a.noVerify = false) (hm : a.modular = true)
    (hv : a.verifier = .corral) (hsig : ∀ k, w.signal k ≠ some .term) (h1 : 1 < (main w fs (.run a)).1)
    (h2 : (main w fs (.run a)).1 < 126) :
    ∃ out, Concluded w a (main w fs (.run a)).2 out ∧ checker a = "boogie" ∧ Occurs "ASSERTION FAILS assert {:".toList out := by
  obtain ⟨out, r, hc, ⟨files, hr⟩, hcode, _⟩ := c92_verdict w fs a hl hn (by rw [hv]; decide) hsig (by omega) (by omega)
  refine ⟨out, hc, by unfold checker; rw [hm]; rfl, ?_⟩
  rw [hcode] at h1 h2
  have he : r.isError = true := by
    cases r <;> first | rfl | (exact absurd h1 (by decide)) | (exact absurd h2 (by decide))
  obtain ⟨f1, f2, f3⟩ := c49_error_only_on_failure files _ out r hr he
  refine Classical.byContradiction fun hno => ?_
  rw [hv] at hr
  have := (c49_corral_plain files out hno f1 f2 f3).symm.trans hr
  cases this
  exact absurd h1 (by decide)

/-! ### A small world -/

/-- A world without signals. Names of temporary files get a number; tools put the contents of their input files into
their output files. `proc` is what the commands report. -/
def toy (proc : Text → Proc) : World where
  run c fs := (proc (program c),
    if (proc (program c)).started && (proc (program c)).rc == 0 then
      fun f => if c.contains (.out f) then some (c.flatMap fun x => match x with | .inp p => (fs p).getD [] | _ => []) else fs f
    else fs)
  fresh pre ext fs := (((List.range 40).map fun n => pre ++ num n ++ ext).find? fun f => (fs f).isNone).getD []
  signal _ := none
  filter _ t := some t
  header := []
  lib s := "/lib/".toList ++ s.toList
  headers := "/include".toList
  tty := false
  trace _ := []
  json _ _ := []
  graph _ _ := []
  database _ := none
  crate _ := none
  listdir _ _ := []

/-- One source file and SMACK's library. -/
def disk : Files := fun f =>
  if f = "p.c".toList then some "procedure main()\n".toList
  else if f = "old.bpl".toList then some "procedure other()\n".toList
  else if "/lib/".toList.isPrefixOf f then some []
  else none

/-- Everything works and the verifier prints `t`. -/
def fine (t : String) : Text → Proc := fun p => ⟨true, false, 0, if p = "corral".toList || p = "boogie".toList then t.toList else []⟩

def simple : Args := { inputs := ["p.c".toList] }

example : (main (toy (fine "Program has no bugs")) disk (.run simple)).1 = 0 := by decide +kernel
example : (main (toy (fine "ASSERTION FAILS assert {:overflow} x;\ncan fail")) disk (.run simple)).1 = 5 := by decide +kernel
example : (main (toy fun p => ⟨true, p = "corral".toList, 0, []⟩) disk (.run simple)).1 = 126 := by decide +kernel
example : (main (toy (fine "?")) disk (.run simple)).1 = 127 := by decide +kernel
example : (main (toy (fine "Program has no bugs")) disk (.run { simple with verifier := .svcomp })).1 = 0 := by decide +kernel
/-- Modular verification: Boogie's report of an overflow has the status of an assertion failure. -/
example : (main (toy (fine "p.bpl(1,1): Error: This assertion might not hold.\n0 verified, 1 error")) disk
    (.run { simple with modular := true })).1 = 1 := by decide +kernel
/-- SIGTERM while the source file is compiled. -/
example : (main { toy (fine "") with signal := fun k => if k = 0 then some .term else none } disk (.run simple)).1 = 0 ∧
    (main { toy (fine "") with signal := fun k => if k = 0 then some .term else none } disk (.run simple)).2.log.length = 1 := by
  decide +kernel
example : (main (toy (fine "Program has no bugs")) disk (.run { simple with language := some "cxx".toList })).1 = 1 :=
  c92_language_fails _ _ _ "cxx" (by simp) rfl (by decide) fun _ => by simp [toy]

/-- A file that does not compile has the status of an assertion failure; the verifier has not been run. -/
theorem c92_one_fails : ∃ w fs a, LangOk a ∧ (∀ k, w.signal k = none) ∧
    (main w fs (.run a)).1 = VRes.assertionFailure.code ∧ (main w fs (.run a)).2.log.length = 1 ∧
    ∀ e ∈ (main w fs (.run a)).2.log, program e.1 = "clang-12".toList := by
  refine ⟨toy fun _ => ⟨true, false, 1, []⟩, disk, simple, fun t h => (nomatch h), fun _ => rfl, by decide +kernel, by decide +kernel, ?_⟩
  have : ((main (toy fun _ => ⟨true, false, 1, []⟩) disk (.run simple)).2.log.map fun e => program e.1) = ["clang-12".toList] := by
    decide +kernel
  intro e he
  have := this ▸ List.mem_map_of_mem (f := fun e : List Word × Proc => program e.1) he
  exact List.mem_singleton.1 this

/-- With symbooglix the driver ignores the exit status of all commands: compiler, linker and translator fail, the Boogie
file is the one of an earlier run, and the program is reported as verified. -/
theorem c92_symbooglix_fails : ∃ w fs a, LangOk a ∧ (∀ k, w.signal k = none) ∧ a.noVerify = false ∧ a.bpl = some "old.bpl".toList ∧
    (main w fs (.run a)).1 = VRes.verified.code ∧
    (∀ e ∈ (main w fs (.run a)).2.log.dropLast, e.2.rc ≠ 0) ∧ 3 < (main w fs (.run a)).2.log.length ∧
    (main w fs (.run a)).2.files "old.bpl".toList = some "procedure  other()\n".toList := by
  refine ⟨toy fun p => if p = "symbooglix".toList then ⟨true, false, 0, "NO_ERRORS_NO_TIMEOUT".toList⟩ else ⟨true, false, 1, []⟩, disk,
    { simple with verifier := .symbooglix, bpl := some "old.bpl".toList }, fun t h => (nomatch h), fun _ => rfl, rfl, rfl,
    by decide +kernel, ?_, by decide +kernel, by decide +kernel⟩
  have : ((main (toy fun p => if p = "symbooglix".toList then ⟨true, false, 0, "NO_ERRORS_NO_TIMEOUT".toList⟩ else ⟨true, false, 1, []⟩) disk
    (.run { simple with verifier := .symbooglix, bpl := some "old.bpl".toList })).2.log.dropLast.all fun e => e.2.rc != 0) = true := by
    decide +kernel
  intro e he
  exact bne_iff_ne.1 (List.all_eq_true.1 this e he)

end Smack.Run
