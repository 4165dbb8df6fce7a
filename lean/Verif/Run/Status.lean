/-
Lemmas about the exit status.
-/
import Verif.Run.Rules
import Verif.Run.Spec

namespace Smack.Run
open Smack.Driver

/-- The invariant of a run up to the verifier. -/
structure Front (w : World) (a : Args) (s : St) : Prop where
  inputs : s.args.inputs = a.inputs
  language : s.args.language = a.language
  noVerify : s.args.noVerify = a.noVerify
  modular : s.args.modular = a.modular
  verifier : s.args.verifier = a.verifier
  timeLimit : s.args.timeLimit = a.timeLimit
  transformOut : s.args.transformOut = a.transformOut
  done : ∀ e ∈ s.log, Succeeded e ∨ (e.2.started = true ∧ a.verifier = .symbooglix)
  quiet : ∀ k < s.log.length, w.signal k = none

/-- The ways in which a command ends the run. -/
def CmdEnd (w : World) (e : Stop) (s : St) : Prop :=
  (e = .exit 0 ∧ ∃ k, s.log.length = k + 1 ∧ w.signal k = some .term) ∨
  ((∀ k < s.log.length, w.signal k ≠ some .term) ∧ (e = .raised ∨ e = .exit 1))

/-- The ways in which a run ends before the verifier. -/
def FrontEnd (w : World) (a : Args) (e : Stop) (s : St) : Prop :=
  CmdEnd w e s ∨ ((∀ k < s.log.length, w.signal k ≠ some .term) ∧ e = .exit 127 ∧
    ∀ x ∈ s.log, Succeeded x ∨ (x.2.started = true ∧ a.verifier = .symbooglix))

theorem Front.stop {w : World} {a : Args} {s : St} (h : Front w a s) {e : Stop} (he : e = .raised ∨ e = .exit 1) :
    CmdEnd w e s :=
  Or.inr ⟨fun k hk => by rw [h.quiet k hk]; simp, he⟩

/-- The log after one more command. -/
theorem forall_log {P : Nat → Prop} {l : List (List Word × Proc)} {x : List Word × Proc} (h : ∀ k < l.length, P k) (hx : P l.length) :
    ∀ k < (l ++ [x]).length, P k := by
  intro k hk
  rw [List.length_append, List.length_singleton] at hk
  by_cases e : k = l.length
  · exact e ▸ hx
  · exact h k (by omega)

/-- The outcomes of a command. -/
theorem try_cases (w : World) (c : List Word) (limit : Nat) (s : St) (Q : Text → St → Prop) (E : Stop → St → Prop)
    (hterm : w.signal s.log.length = some .term → E (.exit 0) (removeTemps { s with files := (w.run c s.files).2, log := s.log ++ [(c, (w.run c s.files).1)] }))
    (hint : w.signal s.log.length = some .int → E (.exit 1) { s with files := (w.run c s.files).2, log := s.log ++ [(c, (w.run c s.files).1)] })
    (hstart : w.signal s.log.length = none → (w.run c s.files).1.started = false → E (.exit 1) { s with files := (w.run c s.files).2, log := s.log ++ [(c, (w.run c s.files).1)] })
    (hslow : w.signal s.log.length = none → (w.run c s.files).1.started = true → limit ≠ 0 → (w.run c s.files).1.slow = true →
      Q ((w.run c s.files).1.out ++ "\n".toList ++ program c ++ " timed out.".toList) { s with files := (w.run c s.files).2, log := s.log ++ [(c, (w.run c s.files).1)] })
    (hfail : w.signal s.log.length = none → (w.run c s.files).1.started = true → (limit = 0 ∨ (w.run c s.files).1.slow = false) →
      (w.run c s.files).1.rc ≠ 0 → E .raised { s with files := (w.run c s.files).2, log := s.log ++ [(c, (w.run c s.files).1)] })
    (hok : w.signal s.log.length = none → (w.run c s.files).1.started = true → (limit = 0 ∨ (w.run c s.files).1.slow = false) →
      ((w.run c s.files).1.rc = 0 ∨ s.args.verifier = .symbooglix) →
      Q (w.run c s.files).1.out { s with files := (w.run c s.files).2, log := s.log ++ [(c, (w.run c s.files).1)] }) :
    Post (tryCommand w c limit s) Q E := by
  unfold tryCommand
  cases hs : w.signal s.log.length with
  | some g =>
    cases g with
    | term => exact hterm hs
    | int => exact hint hs
  | none =>
    show Post (if !(w.run c s.files).1.started then _ else _) _ _
    split
    · rename_i h
      exact hstart hs (by simpa using h)
    · rename_i h1
      have h1 : (w.run c s.files).1.started = true := by simpa using h1
      split
      · rename_i h2
        simp only [Bool.and_eq_true, bne_iff_ne] at h2
        exact hslow hs h1 h2.1 h2.2
      · rename_i h2
        have h2 : limit = 0 ∨ (w.run c s.files).1.slow = false := by
          simp only [Bool.and_eq_true, bne_iff_ne, not_and, Bool.not_eq_true] at h2
          by_cases e : limit = 0
          · exact Or.inl e
          · exact Or.inr (h2 e)
        split
        · rename_i h3
          refine hfail hs h1 h2 ?_
          rw [eq_of_beq h3]
          decide
        · split
          · rename_i h4
            simp only [Bool.and_eq_true, bne_iff_ne] at h4
            exact hfail hs h1 h2 h4.1
          · rename_i h4
            refine hok hs h1 h2 ?_
            simp only [Bool.and_eq_true, bne_iff_ne, not_and, ne_eq, Classical.not_not] at h4
            by_cases e : (w.run c s.files).1.rc = 0
            · exact Or.inl e
            · exact Or.inr (h4 e)

theorem cmd_closed (w : World) (a : Args) : Closed w (Front w a) (CmdEnd w) (fun _ _ => True) where
  temp pre ext s h := ⟨⟨h.inputs, h.language, h.noVerify, h.modular, h.verifier, h.timeLimit, h.transformOut, h.done, h.quiet⟩, trivial⟩
  cmd c s h _ := by
    apply try_cases
    · intro hs
      exact Or.inl ⟨rfl, s.log.length, by simp [removeTemps], hs⟩
    · intro hs
      refine Or.inr ⟨forall_log (fun k hk => ?_) ?_, Or.inr rfl⟩
      · rw [h.quiet k hk]; simp
      · rw [hs]; simp
    · intro hs _
      refine Or.inr ⟨forall_log (fun k hk => ?_) ?_, Or.inr rfl⟩
      · rw [h.quiet k hk]; simp
      · rw [hs]; simp
    · intro _ _ h0
      exact absurd rfl h0
    · intro hs _ _ _
      refine Or.inr ⟨forall_log (fun k hk => ?_) ?_, Or.inl rfl⟩
      · rw [h.quiet k hk]; simp
      · rw [hs]; simp
    · intro hs h1 _ h3
      refine ⟨⟨h.inputs, h.language, h.noVerify, h.modular, h.verifier, h.timeLimit, h.transformOut, ?_, forall_log h.quiet hs⟩, fun _ _ => trivial⟩
      intro e he
      rcases List.mem_append.1 he with he | he
      · exact h.done e he
      · rw [List.mem_singleton.1 he]
        rcases h3 with h3 | h3
        · exact Or.inl ⟨h1, h3⟩
        · exact Or.inr ⟨h1, h.verifier ▸ h3⟩
  args s b h hb := ⟨hb.inputs.trans h.inputs, hb.language.trans h.language, hb.noVerify.trans h.noVerify, hb.modular.trans h.modular, hb.verifier.trans h.verifier,
    hb.timeLimit.trans h.timeLimit, hb.transformOut.trans h.transformOut, h.done, h.quiet⟩
  write s p t h _ := ⟨h.inputs, h.language, h.noVerify, h.modular, h.verifier, h.timeLimit, h.transformOut, h.done, h.quiet⟩
  raise s h := h.stop (Or.inl rfl)
  exit1 s h := h.stop (Or.inr rfl)
  own s _ := ⟨trivial, trivial, trivial, fun _ _ => trivial⟩

theorem front_closed (w : World) (a : Args) : Closed w (Front w a) (FrontEnd w a) (fun _ _ => True) :=
  (cmd_closed w a).mono fun _ _ => Or.inl

theorem front_unknown (w : World) (a : Args) : Unknown (Front w a) (FrontEnd w a) :=
  fun _ _ h => Or.inr ⟨fun k hk => by rw [h.quiet k hk]; simp, rfl, h.done⟩

theorem front_args (w : World) (a : Args) (s : St) (h : Front w a s) (f : Args → Args)
    (hf : ∀ b, (f b).inputs = b.inputs ∧ (f b).language = b.language ∧ (f b).noVerify = b.noVerify ∧ (f b).modular = b.modular ∧ (f b).verifier = b.verifier ∧
      (f b).timeLimit = b.timeLimit ∧ (f b).transformOut = b.transformOut) : Front w a { s with args := f s.args } := by
  obtain ⟨h1, h2, h3, h7, h4, h5, h6⟩ := hf s.args
  exact ⟨h1.trans h.inputs, h2.trans h.language, h3.trans h.noVerify, h7.trans h.modular, h4.trans h.verifier, h5.trans h.timeLimit,
    h6.trans h.transformOut, h.done, h.quiet⟩

theorem front_arguments (w : World) (a : Args) : Keeps (Front w a) (CmdEnd w) (arguments w) := by
  have C := cmd_closed w a
  refine keeps_get' fun s => ?_
  have hs : ∀ f : Args → Args, (∀ b, (f b).inputs = b.inputs ∧ (f b).language = b.language ∧ (f b).noVerify = b.noVerify ∧ (f b).modular = b.modular ∧
      (f b).verifier = b.verifier ∧ (f b).timeLimit = b.timeLimit ∧ (f b).transformOut = b.transformOut) →
      Keeps (Front w a) (CmdEnd w) (setArgs f) := fun f hf s h => front_args w a s h f hf
  have ht : ∀ (pre ext : Text) (f : Path → Args → Args), (∀ x b, (f x b).inputs = b.inputs ∧ (f x b).language = b.language ∧ (f x b).noVerify = b.noVerify ∧ (f x b).modular = b.modular ∧
      (f x b).verifier = b.verifier ∧ (f x b).timeLimit = b.timeLimit ∧ (f x b).transformOut = b.transformOut) →
      Keeps (Front w a) (CmdEnd w) (do let x ← temporary w pre ext; setArgs (f x)) :=
    fun pre ext f hf => keeps_bind (keeps_temp C _ _) fun x => hs (f x) (hf x)
  split
  · exact keeps_exit1 C
  · refine keeps_bind (keeps_get' fun s => ?_) fun _ => keeps_bind (keeps_get' fun s => ?_) fun _ => keeps_get' fun s => ?_
    · cases s.args.bc with
      | some _ => exact keeps_pure _
      | none => exact ht _ _ (fun f a => { a with bc := some f }) fun x b => ⟨rfl, rfl, rfl, rfl, rfl, rfl, rfl⟩
    · cases s.args.linked with
      | some _ => exact keeps_pure _
      | none => exact ht _ _ (fun f a => { a with linked := some f }) fun x b => ⟨rfl, rfl, rfl, rfl, rfl, rfl, rfl⟩
    · cases s.args.bpl with
      | some _ => exact keeps_pure _
      | none =>
        show Keeps _ _ (if s.args.noVerify then _ else _)
        split
        · exact hs _ fun b => ⟨rfl, rfl, rfl, rfl, rfl, rfl, rfl⟩
        · exact ht _ _ (fun f a => { a with bpl := some f }) fun x b => ⟨rfl, rfl, rfl, rfl, rfl, rfl, rfl⟩

/-- The state in which a run starts. -/
theorem front_init (w : World) (a : Args) (fs : Files) : Front w a { args := a, files := fs } :=
  ⟨rfl, rfl, rfl, rfl, rfl, rfl, rfl, fun _ h => (nomatch h), fun _ h => (nomatch h)⟩

/-- Up to the verifier. -/
theorem front_run (w : World) (a : Args) (fs : Files) :
    Post ((do arguments w; targetSelection w; frontend w : M Unit) { args := a, files := fs }) (fun _ s => Front w a s) (FrontEnd w a) :=
  keeps_bind (fun s h => post_mono (front_arguments w a s h) fun _ _ => Or.inl) (fun _ => keeps_bind (keeps_target (front_closed w a)) fun _ =>
    keeps_frontend (front_closed w a) (front_unknown w a) (Or.inl fun _ _ => trivial)) _ (front_init w a fs)

theorem post_bind_iff {α β : Type} {m : M α} {f : α → M β} {s : St} {Q : β → St → Prop} {E : Stop → St → Prop} :
    Post ((m >>= f) s) Q E ↔ Post (m s) (fun a s' => Post (f a s') Q E) E := by
  change Post (M.bind m f s) Q E ↔ _
  unfold M.bind
  cases m s with
  | ok a s' => exact Iff.rfl
  | stop e s' => exact Iff.rfl

/-- The last part of `body`. -/
def verify (w : World) : M Unit := do
  let s ← get
  if s.args.noVerify then pure ()
  else if s.args.verifier = .svcomp then verifySvcomp w
  else verifyBpl w

theorem post_body {w : World} {s : St} {Q : Unit → St → Prop} {E F : Stop → St → Prop} {I : St → Prop}
    (hf : Post ((do arguments w; targetSelection w; frontend w : M Unit) s) (fun _ s => I s) F) (hF : ∀ e s, F e s → E e s)
    (hv : ∀ s, I s → Post (verify w s) Q E) : Post (body w s) Q E := by
  change Post ((arguments w >>= fun _ => targetSelection w >>= fun _ => frontend w >>= fun _ => verify w) s) Q E
  rw [post_bind_iff] at hf ⊢
  revert hf
  cases arguments w s with
  | stop e s' => exact fun h => hF e s' h
  | ok _ s1 =>
    show Post ((targetSelection w >>= fun _ => frontend w) s1) _ _ → Post ((targetSelection w >>= fun _ => frontend w >>= fun _ => verify w) s1) _ _
    rw [post_bind_iff, post_bind_iff]
    cases targetSelection w s1 with
    | stop e s' => exact fun h => hF e s' h
    | ok _ s2 =>
      show Post (frontend w s2) _ _ → Post ((frontend w >>= fun _ => verify w) s2) _ _
      rw [post_bind_iff]
      cases frontend w s2 with
      | stop e s' => exact fun h => hF e s' h
      | ok _ s3 => exact fun h => hv s3 h

theorem verifier_shape (a : Args) (hv : a.verifier ≠ .svcomp) :
    ∃ rest, verifierCommand a = .lit (checker a).toList :: .inp (a.bpl.getD []) :: rest := by
  unfold verifierCommand checker
  cases hm : a.modular <;> cases h : a.verifier <;> first | exact ⟨_, rfl⟩ | exact absurd h hv

/-- All ways in which a run ends, for the verifiers other than svcomp. -/
def Outcome (w : World) (a : Args) (e : Stop) (s : St) : Prop :=
  FrontEnd w a e s ∨
  ((∀ k < s.log.length, w.signal k = none) ∧ ∃ out r, Concluded w a s out ∧
    (∃ files, verificationResult files a.verifier.reader out = some r) ∧ e = .exit r.code ∧
    ∃ u, s.said.getLast? = some (r.message u))

theorem report_ok (w : World) (a : Args) (r : VRes) (out : Text) (s : St) :
    ∃ s', report w a r out s = .ok () s' ∧ s'.log = s.log ∧ s'.args = s.args ∧ s'.temps = s.temps ∧
      s'.said.getLast? = some (r.message (bound a)) := by
  unfold report writeOpt onlyIf say write modify
  cases a.jsonFile <;> cases a.errorFile <;> cases r.isError <;> cases a.quiet <;>
    exact ⟨_, rfl, rfl, rfl, rfl, by simp⟩

/-- What happens after the verifier has printed its output. -/
theorem judge_post (w : World) (a : Args) (s : St) (out : Text) (hv : s.args.verifier = a.verifier)
    (hq : ∀ k < s.log.length, w.signal k = none)
    (hc : ∀ o, (s.args.transformOut = none → o = out) → (∀ f, s.args.transformOut = some f → w.filter f out = some o) → Concluded w a s o) :
    Post ((do
      let out ← transformOut w out
      let s ← get
      match verificationResult (linesOf s.files) s.args.verifier.reader out with
      | none => stop .raised
      | some r =>
        report w s.args r out
        stop (.exit r.code) : M Unit) s) (fun _ _ => False) (Outcome w a) := by
  have hraise : Outcome w a .raised s := Or.inl (Or.inl (Or.inr ⟨fun k hk => by rw [hq k hk]; simp, Or.inl rfl⟩))
  have hmain : ∀ o, Concluded w a s o → Post ((do
      let s ← get
      match verificationResult (linesOf s.files) s.args.verifier.reader o with
      | none => stop .raised
      | some r =>
        report w s.args r o
        stop (.exit r.code) : M Unit) s) (fun _ _ => False) (Outcome w a) := by
    intro o ho
    refine post_bind (m := get) ?_
    show Post ((match verificationResult (linesOf s.files) s.args.verifier.reader o with
      | none => stop .raised
      | some r => do
        report w s.args r o
        stop (.exit r.code) : M Unit) s) (fun _ _ => False) (Outcome w a)
    cases hr : verificationResult (linesOf s.files) s.args.verifier.reader o with
    | none => exact hraise
    | some r =>
      refine post_bind ?_
      obtain ⟨s', e, hl, ha, _, hm⟩ := report_ok w s.args r o s
      rw [e]
      refine Or.inr ⟨hl ▸ hq, o, r, ?_, ⟨_, hv ▸ hr⟩, rfl, _, hm⟩
      unfold Concluded at ho ⊢
      rw [hl, ha]
      exact ho
  refine post_bind ?_
  unfold transformOut
  refine post_bind (m := get) ?_
  show Post ((match s.args.transformOut with
    | none => pure out
    | some c => match w.filter c out with
      | none => stop .raised
      | some t => pure t : M Text) s) _ _
  cases ht : s.args.transformOut with
  | none => exact hmain out (hc out (fun _ => rfl) fun f hf => by rw [ht] at hf; cases hf)
  | some c =>
    show Post ((match w.filter c out with
      | none => stop .raised
      | some t => pure t : M Text) s) _ _
    cases hf : w.filter c out with
    | none => exact hraise
    | some t =>
      refine hmain t (hc t (fun h => by rw [ht] at h; cases h) fun f hf' => ?_)
      rw [ht] at hf'
      cases hf'
      exact hf

theorem verify_post (w : World) (a : Args) (s : St) (h : Front w a s) (hv : a.verifier ≠ .svcomp) : Post (verifyBpl w s) (fun _ _ => False) (Outcome w a) := by
  unfold verifyBpl
  refine post_bind (m := get) ?_
  show Post ((tryCommand w (verifierCommand s.args) s.args.timeLimit >>= _ : M Unit) s) _ _
  refine post_bind ?_
  have hq1 : w.signal s.log.length = none → ∀ x : List Word × Proc, ∀ k < (s.log ++ [x]).length, w.signal k = none :=
    fun hs x => forall_log h.quiet hs
  have hnt : ∀ (x : List Word × Proc) (g : Option Sig), w.signal s.log.length = g → g ≠ some .term →
      ∀ k < (s.log ++ [x]).length, w.signal k ≠ some .term := by
    intro x g hg hne
    refine forall_log (fun k hk => ?_) (by rw [hg]; exact hne)
    rw [h.quiet k hk]
    simp
  obtain ⟨rest, hsh⟩ := verifier_shape s.args (by rw [h.verifier]; exact hv)
  have hch : checker s.args = checker a := by unfold checker; rw [h.modular, h.verifier]
  rw [hch] at hsh
  have hpre : ∀ e ∈ s.log, Succeeded e ∨ a.verifier = .symbooglix := fun e he => (h.done e he).imp_right And.right
  apply try_cases
  · intro hs
    exact Or.inl (Or.inl (Or.inl ⟨rfl, s.log.length, by simp [removeTemps], hs⟩))
  · intro hs
    exact Or.inl (Or.inl (Or.inr ⟨hnt _ _ hs (by simp), Or.inr rfl⟩))
  · intro hs _
    exact Or.inl (Or.inl (Or.inr ⟨hnt _ _ hs (by simp), Or.inr rfl⟩))
  · intro hs h1 h2 h3
    refine judge_post w a _ _ h.verifier (hq1 hs _) fun o ho1 ho2 => ?_
    refine ⟨s.log, _, _, rest, rfl, h1, hsh, Or.inr (Or.inr ⟨h.timeLimit ▸ h2, h3⟩), ⟨(w.run (verifierCommand s.args) s.files).1.out ++ "\n".toList ++ program (verifierCommand s.args) ++ " timed out.".toList, fun _ _ => ⟨(checker a).toList, ?_, ?_⟩, ?_, ?_, ?_⟩, hpre⟩
    · rw [hsh]; simp [program]
    · rw [hsh]; rfl
    · intro hc
      rcases hc with hc | hc
      · exact absurd (h.timeLimit ▸ hc) h2
      · rw [h3] at hc; cases hc
    · intro ht; exact ho1 (h.transformOut.trans ht)
    · intro f hf; exact ho2 f (h.transformOut.trans hf)
  · intro hs _ _ _
    exact Or.inl (Or.inl (Or.inr ⟨hnt _ _ hs (by simp), Or.inl rfl⟩))
  · intro hs h1 h2 h3
    refine judge_post w a _ _ h.verifier (hq1 hs _) fun o ho1 ho2 => ?_
    refine ⟨s.log, _, _, rest, rfl, h1, hsh, ?_, ⟨(w.run (verifierCommand s.args) s.files).1.out, ?_, fun _ => rfl, ?_, ?_⟩, hpre⟩
    · rcases h3 with h3 | h3
      · exact Or.inl h3
      · exact Or.inr (Or.inl (h.verifier ▸ h3))
    · intro hl hsl
      rcases h2 with h2 | h2
      · exact absurd (h.timeLimit ▸ h2) hl
      · rw [h2] at hsl; cases hsl
    · intro ht; exact ho1 (h.transformOut.trans ht)
    · intro f hf; exact ho2 f (h.transformOut.trans hf)

/-- All ways in which a run ends. -/
theorem body_outcome (w : World) (a : Args) (fs : Files) (hn : a.noVerify = false) (hv : a.verifier ≠ .svcomp) :
    Post (body w { args := a, files := fs }) (fun _ _ => False) (Outcome w a) := by
  refine post_body (front_run w a fs) (fun e s h => Or.inl h) fun s h => ?_
  unfold verify
  refine post_bind (m := get) ?_
  show Post ((if s.args.noVerify then pure () else if s.args.verifier = .svcomp then verifySvcomp w else verifyBpl w : M Unit) s) _ _
  rw [if_neg (by rw [h.noVerify, hn]; decide), if_neg (by rw [h.verifier]; exact hv)]
  exact verify_post w a s h hv

/-! ### Competition mode -/

/-- The options that matter to the competition verifier: fixed time limit, no filter, always Corral. -/
def svArgs (a : Args) : Args := { a with transformOut := none, timeLimit := 880, modular := false }

/-- All ways in which a run ends in competition mode. -/
def SvOutcome (w : World) (a : Args) (e : Stop) (s : St) : Prop :=
  FrontEnd w a e s ∨
  ((∀ k < s.log.length, w.signal k = none) ∧ ∃ out r, Concluded w (svArgs a) s out ∧
    (∃ files, svcompResult files out = some r) ∧ e = .exit r.code ∧ ∃ u, s.said.getLast? = some (r.message u))

theorem writeErrorFile_post (w : World) (r : VRes) (out : Text) (s : St) :
    Post (writeErrorFile w r out s) (fun _ s' => s'.log = s.log ∧ s'.args = s.args ∧ s'.said = s.said)
      (fun e s' => e = .raised ∧ s'.log = s.log) := by
  unfold writeErrorFile
  refine post_bind (m := get) ?_
  show Post ((if r = .unknown then pure () else _ : M Unit) s) _ _
  split
  · exact ⟨rfl, rfl, rfl⟩
  · cases s.args.errorFile with
    | none => exact ⟨rfl, rfl, rfl⟩
    | some f =>
      show Post ((if s.args.language = some "svcomp".toList then write f (w.graph r out) else if r = .verified then pure () else do
        write f []
        stop .raised : M Unit) s) _ _
      split
      · exact ⟨rfl, rfl, rfl⟩
      · split
        · exact ⟨rfl, rfl, rfl⟩
        · exact ⟨rfl, rfl⟩

theorem sv_judge (w : World) (a : Args) (s : St) (out : Text) (hq : ∀ k < s.log.length, w.signal k = none)
    (hc : Concluded w (svArgs a) s out) :
    Post ((do
      let s ← get
      match svcompResult (linesOf s.files) out with
      | none => stop .raised
      | some r =>
        onlyIf (r.isError && !s.args.quiet) (say (w.trace out))
        writeErrorFile w r out
        say (r.message (bound s.args))
        stop (.exit r.code) : M Unit) s) (fun _ _ => False) (SvOutcome w a) := by
  refine post_bind (m := get) ?_
  show Post ((match svcompResult (linesOf s.files) out with
      | none => stop .raised
      | some r => do
        onlyIf (r.isError && !s.args.quiet) (say (w.trace out))
        writeErrorFile w r out
        say (r.message (bound s.args))
        stop (.exit r.code) : M Unit) s) _ _
  cases hr : svcompResult (linesOf s.files) out with
  | none => exact Or.inl (Or.inl (Or.inr ⟨fun k hk => by rw [hq k hk]; simp, Or.inl rfl⟩))
  | some r =>
    have h1 : ∃ s1, onlyIf (r.isError && !s.args.quiet) (say (w.trace out)) s = .ok () s1 ∧ s1.log = s.log ∧ s1.args = s.args := by
      unfold onlyIf
      split
      · exact ⟨_, rfl, rfl, rfl⟩
      · exact ⟨_, rfl, rfl, rfl⟩
    obtain ⟨s1, e1, l1, a1⟩ := h1
    refine post_bind ?_
    rw [e1]
    show Post ((writeErrorFile w r out >>= _ : M Unit) s1) _ _
    refine post_bind ?_
    have hw := writeErrorFile_post w r out s1
    revert hw
    cases writeErrorFile w r out s1 with
    | stop e s2 =>
      rintro ⟨he, hl⟩
      refine Or.inl (Or.inl (Or.inr ⟨fun k hk => ?_, Or.inl he⟩))
      rw [hq k (by rw [hl, l1] at hk; exact hk)]
      simp
    | ok _ s2 =>
      rintro ⟨hl, ha, _⟩
      refine Or.inr ⟨?_, out, r, ?_, ⟨_, hr⟩, rfl, bound s.args, ?_⟩
      · show ∀ k < s2.log.length, _
        rw [hl, l1]
        exact hq
      · unfold Concluded at hc ⊢
        show ∃ pre c p rest, s2.log = pre ++ [(c, p)] ∧ p.started = true ∧ c = .lit (checker (svArgs a)).toList :: .inp (s2.args.bpl.getD []) :: rest ∧ _
        rw [hl, l1, ha, a1]
        exact hc
      · simp

theorem sv_verify (w : World) (a : Args) (s : St) (h : Front w a s) (hv : a.verifier = .svcomp) :
    Post (verifySvcomp w s) (fun _ _ => False) (SvOutcome w a) := by
  unfold verifySvcomp
  refine post_bind (m := get) ?_
  show Post ((read s.args.bplFile >>= _ : M Unit) s) _ _
  refine post_bind ?_
  unfold read
  cases s.files s.args.bplFile with
  | none => exact Or.inl (Or.inl (h.stop (Or.inl rfl)))
  | some t =>
    show Post ((write s.args.bplFile _ >>= _ : M Unit) s) _ _
    refine post_bind ?_
    show Post ((tryCommand w (svcompCommand s.args) 880 >>= _ : M Unit)
      { s with files := s.files.set s.args.bplFile (some (Options.svcompText s.args.check t)) }) _ _
    refine post_bind ?_
    have h' : Front w a { s with files := s.files.set s.args.bplFile (some (Options.svcompText s.args.check t)) } :=
      (cmd_closed w a).write s _ _ h trivial
    generalize hs' : ({ s with files := s.files.set s.args.bplFile (some (Options.svcompText s.args.check t)) } : St) = s' at h'
    have hargs : s.args = s'.args := by rw [← hs']
    rw [hargs]
    have hq1 : w.signal s'.log.length = none → ∀ x : List Word × Proc, ∀ k < (s'.log ++ [x]).length, w.signal k = none :=
      fun hs x => forall_log h'.quiet hs
    have hnt : ∀ (x : List Word × Proc) (g : Option Sig), w.signal s'.log.length = g → g ≠ some .term →
        ∀ k < (s'.log ++ [x]).length, w.signal k ≠ some .term := by
      intro x g hg hne
      refine forall_log (fun k hk => ?_) (by rw [hg]; exact hne)
      rw [h'.quiet k hk]
      simp
    have hpre : ∀ e ∈ s'.log, Succeeded e ∨ (svArgs a).verifier = .symbooglix := fun e he => (h'.done e he).imp_right And.right
    have hch : (checker (svArgs a)) = "corral" := by unfold checker svArgs; rw [hv]; rfl
    apply try_cases
    · intro hs
      exact Or.inl (Or.inl (Or.inl ⟨rfl, s'.log.length, by simp [removeTemps], hs⟩))
    · intro hs
      exact Or.inl (Or.inl (Or.inr ⟨hnt _ _ hs (by simp), Or.inr rfl⟩))
    · intro hs _
      exact Or.inl (Or.inl (Or.inr ⟨hnt _ _ hs (by simp), Or.inr rfl⟩))
    · intro hs h1 h2 h3
      refine sv_judge w a _ _ (hq1 hs _) ?_
      refine ⟨s'.log, svcompCommand s'.args, (w.run (svcompCommand s'.args) s'.files).1, _, rfl, h1, by rw [hch]; rfl, Or.inr (Or.inr ⟨show (880:Nat) ≠ 0 by decide, h3⟩),
        ⟨_, fun _ _ => ⟨"corral".toList, ?_, rfl⟩, ?_, fun _ => rfl, fun f hf => (nomatch hf)⟩, hpre⟩
      · simp [svcompCommand, L, program]
      · rintro (hc | hc)
        · exact absurd (show (880:Nat) = 0 from hc) (by decide)
        · rw [h3] at hc; cases hc
    · intro hs _ _ _
      exact Or.inl (Or.inl (Or.inr ⟨hnt _ _ hs (by simp), Or.inl rfl⟩))
    · intro hs h1 h2 h3
      refine sv_judge w a _ _ (hq1 hs _) ?_
      refine ⟨s'.log, svcompCommand s'.args, (w.run (svcompCommand s'.args) s'.files).1, _, rfl, h1, by rw [hch]; rfl, ?_,
        ⟨_, ?_, fun _ => rfl, fun _ => rfl, fun f hf => (nomatch hf)⟩, hpre⟩
      · rcases h3 with h3 | h3
        · exact Or.inl h3
        · rw [h'.verifier, hv] at h3; cases h3
      · intro _ hsl
        rcases h2 with h2 | h2
        · cases h2
        · rw [h2] at hsl; cases hsl

theorem sv_outcome (w : World) (a : Args) (fs : Files) (hn : a.noVerify = false) (hv : a.verifier = .svcomp) :
    Post (body w { args := a, files := fs }) (fun _ _ => False) (SvOutcome w a) := by
  refine post_body (front_run w a fs) (fun e s h => Or.inl h) fun s h => ?_
  unfold verify
  refine post_bind (m := get) ?_
  show Post ((if s.args.noVerify then pure () else if s.args.verifier = .svcomp then verifySvcomp w else verifyBpl w : M Unit) s) _ _
  rw [if_neg (by rw [h.noVerify, hn]; decide), if_pos (by rw [h.verifier]; exact hv)]
  exact sv_verify w a s h hv

end Smack.Run
