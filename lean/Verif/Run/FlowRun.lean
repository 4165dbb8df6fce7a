/-
Contents of the files: the whole run.
-/
import Verif.Run.FlowFront

namespace Smack.Run
open Smack.Driver

/-- A file is as before. -/
structure Still (b : Path) (s s' : St) : Prop where
  files : s'.files b = s.files b
  temps : s'.temps = s.temps

theorem Still.trans {b : Path} {s t u : St} (h : Still b s t) (k : Still b t u) : Still b s u :=
  ⟨k.files.trans h.files, k.temps.trans h.temps⟩

theorem still_write (b f : Path) (t : Text) (s : St) (h : f ≠ b) : Sure (write f t s) (fun _ s' => Still b s s') :=
  ⟨if_neg fun e : b = f => h e.symm, rfl⟩

theorem still_writeOpt (b : Path) (f : Option Path) (t : Text) (s : St) (h : f ≠ some b) : Sure (writeOpt f t s) (fun _ s' => Still b s s') := by
  cases f with
  | none => exact ⟨rfl, rfl⟩
  | some f => exact still_write b f t s fun e => h (e ▸ rfl)

theorem still_say (b : Path) (t : Text) (s : St) : Sure (say t s) (fun _ s' => Still b s s') := ⟨rfl, rfl⟩

theorem still_onlyIf (b : Path) (c : Bool) (m : M Unit) (s : St) (h : Sure (m s) (fun _ s' => Still b s s')) :
    Sure (onlyIf c m s) (fun _ s' => Still b s s') := by
  cases c
  · exact ⟨rfl, rfl⟩
  · exact h

theorem still_report (w : World) (b : Path) (a : Args) (hj : a.jsonFile ≠ some b) (he : a.errorFile ≠ some b) (r : VRes) (out : Text) (s : St) :
    Sure (report w a r out s) (fun _ s' => Still b s s') := by
  unfold report
  refine post_bind (post_weaken (still_writeOpt b _ _ s hj) fun _ s1 h1 => ?_)
  refine post_bind (post_weaken (still_onlyIf b _ _ s1 (still_writeOpt b _ _ s1 he)) fun _ s2 h2 => ?_)
  refine post_bind (post_weaken (still_onlyIf b _ _ s2 (still_say b _ s2)) fun _ s3 h3 => ?_)
  exact post_weaken (still_say b _ s3) fun _ s4 h4 => ((h1.trans h2).trans h3).trans h4

theorem bind_ok {α β : Type} {m : M α} {f : α → M β} {s s1 : St} {a : α} (h : m s = .ok a s1) : (m >>= f) s = f a s1 := by
  show M.bind m f s = _
  unfold M.bind
  rw [h]

theorem bind_stop {α β : Type} {m : M α} {f : α → M β} {s s1 : St} {e : Stop} (h : m s = .stop e s1) : (m >>= f) s = .stop e s1 := by
  show M.bind m f s = _
  unfold M.bind
  rw [h]

theorem bind_return (m : M Path) (c : Path → M Unit) (k : Path → M Unit) (s : St) :
    (m >>= fun f => c f >>= fun _ => k f) s = ((m >>= fun f => c f >>= fun _ => pure f) >>= k) s := by
  cases h : m s with
  | stop e s1 => rw [bind_stop h, bind_stop (bind_stop h)]
  | ok f s1 =>
    rw [bind_ok h]
    cases h2 : c f s1 with
    | stop e s2 =>
      have : (m >>= fun f => c f >>= fun _ => pure f) s = .stop e s2 := by rw [bind_ok h, bind_stop h2]
      rw [bind_stop h2, bind_stop this]
    | ok u s2 =>
      have : (m >>= fun f => c f >>= fun _ => pure f) s = .ok f s2 := by rw [bind_ok h, bind_ok h2]; rfl
      rw [bind_ok h2, bind_ok this]

section
variable {w : World} {tool : List Sees → Text} {R : List Path} (X : Ctx w tool R)
include X

theorem still_verify (b : Path) (s : St) (hj : s.args.jsonFile ≠ some b) (he : s.args.errorFile ≠ some b) :
    Post (verifyBpl w s) (fun _ s' => Still b s s') (fun _ s' => Still b s s') := by
  unfold verifyBpl
  refine post_bind (m := get) ?_
  refine post_bind (post_weaken (post_mono (cmd_sure X.pure X.quiet (verifierCommand s.args) s.args.timeLimit s) (fun _ _ h => h.elim)) fun out s1 h1 => ?_)
  have hs1 : Still b s s1 := by
    refine ⟨?_, by rw [h1]⟩
    have : s1.files = (w.run (verifierCommand s.args) s.files).2 := by rw [h1]
    rw [this, X.pure.files, if_neg fun h => plain_verifier s.args b (Or.inl h)]
  have hargs : s1.args = s.args := by rw [h1]
  have hrest : ∀ out, Post ((do
      let s ← get
      match verificationResult (linesOf s.files) s.args.verifier.reader out with
      | none => stop .raised
      | some r =>
        report w s.args r out
        stop (.exit r.code) : M Unit) s1) (fun _ s' => Still b s s') (fun _ s' => Still b s s') := by
    intro out
    refine post_bind (m := get) ?_
    show Post ((match verificationResult (linesOf s1.files) s1.args.verifier.reader out with
      | none => stop .raised
      | some r => do
        report w s1.args r out
        stop (.exit r.code) : M Unit) s1) _ _
    cases verificationResult (linesOf s1.files) s1.args.verifier.reader out with
    | none => exact hs1
    | some r =>
      exact post_bind (post_weaken (post_mono (still_report w b s1.args (hargs ▸ hj) (hargs ▸ he) r out s1) (fun _ _ h => h.elim)) fun _ s2 h2 => hs1.trans h2)
  refine post_bind ?_
  unfold transformOut
  refine post_bind (m := get) ?_
  show Post ((match s1.args.transformOut with
    | none => pure out
    | some c => match w.filter c out with
      | none => stop .raised
      | some t => pure t : M Text) s1) _ _
  cases s1.args.transformOut with
  | none => exact hrest out
  | some c =>
    show Post ((match w.filter c out with
      | none => stop .raised
      | some t => pure t : M Text) s1) _ _
    cases w.filter c out with
    | none => exact hs1
    | some t => exact hrest t

theorem bc_sure (s : St) (hf : Finite s.files) (hR : ∀ x, s.args.bc = some x → x ∈ R) :
    Sure (nameBc w s) (fun _ s' => Grow R s s' ∧ ∃ x, s'.args = { s.args with bc := some x } ∧ (x ∈ R ∨ s'.files x ≠ none)) := by
  unfold nameBc
  refine post_bind (m := get) ?_
  show Sure ((match s.args.bc with
    | some _ => pure ()
    | none => do
      let f ← temporary w "a".toList ".bc".toList
      setArgs fun a => { a with bc := some f } : M Unit) s) _
  cases e : s.args.bc with
  | some x => exact ⟨Grow.refl R s, x, by rw [← e], Or.inl (hR x e)⟩
  | none =>
    refine post_bind (post_weaken (temp_sure X _ _ s hf) fun f s1 ⟨h1, h2, h3⟩ => ?_)
    exact ⟨⟨h1.old, h1.reg, h1.finite, h1.res⟩, f, congrArg (fun a : Args => { a with bc := some f }) h1.args, Or.inr h3⟩

theorem linked_sure (s : St) (hf : Finite s.files) :
    Sure (nameLinked w s) (fun _ s' => Grow R s s' ∧ ∃ x, s'.args = { s.args with linked := some x }) := by
  unfold nameLinked
  refine post_bind (m := get) ?_
  show Sure ((match s.args.linked with
    | some _ => pure ()
    | none => do
      let f ← temporary w "b".toList ".bc".toList
      setArgs fun a => { a with linked := some f } : M Unit) s) _
  cases e : s.args.linked with
  | some x => exact ⟨Grow.refl R s, x, by rw [← e]⟩
  | none =>
    refine post_bind (post_weaken (temp_sure X _ _ s hf) fun f s1 ⟨h1, h2, h3⟩ => ?_)
    exact ⟨⟨h1.old, h1.reg, h1.finite, h1.res⟩, f, congrArg (fun a : Args => { a with linked := some f }) h1.args⟩

theorem arguments_sure (s : St) (hf : Finite s.files) (hR : ∀ x, s.args.bc = some x → x ∈ R)
    (hv : ∀ i ∈ s.args.inputs, s.files i ≠ none ∧ language (ext i) ≠ none) (b : Path) (hb : s.args.bpl = some b) :
    Sure (arguments w s) (fun _ s' => Grow R s s' ∧ ∃ x y, s'.args = { s.args with bc := some x, linked := some y } ∧ (x ∈ R ∨ s'.files x ≠ none)) := by
  unfold arguments
  refine post_bind (m := get) ?_
  show Sure ((if !validateInputs s then stop (.exit 1) else do
      nameBc w
      nameLinked w
      nameBpl w : M Unit) s) _
  have : validateInputs s = true := by
    unfold validateInputs
    rw [List.all_eq_true]
    intro i hi
    rw [Bool.and_eq_true, Option.isSome_iff_ne_none, Option.isSome_iff_ne_none]
    exact hv i hi
  rw [this]
  refine post_bind (post_weaken (bc_sure X s hf hR) fun _ s1 ⟨h1, x, h2, h3⟩ => ?_)
  refine post_bind (post_weaken (linked_sure X s1 (h1.finite hf)) fun _ s2 ⟨k1, y, k2⟩ => ?_)
  have hargs : s2.args = { s.args with bc := some x, linked := some y } := by rw [k2, h2]
  unfold nameBpl
  refine post_bind (m := get) ?_
  have hb2 : s2.args.bpl = some b := by rw [hargs]; exact hb
  show Sure ((match s2.args.bpl with
    | some _ => pure ()
    | none =>
      if s2.args.noVerify then setArgs fun a => { a with bpl := some "a.bpl".toList }
      else _ : M Unit) s2) _
  rw [hb2]
  exact ⟨h1.trans k1, x, y, hargs, h3.imp_right fun h => by rw [k1.old x h]; exact h⟩

theorem target_sure (s : St) (hf : Finite s.files) (fs : Files) (hold : ∀ f, fs f ≠ none → s.files f = fs f)
    (hne : s.args.inputs ≠ []) (hin : ∀ i ∈ s.args.inputs, fs i ≠ none) :
    Sure (targetSelection w s) (fun _ s' => Grow R s s' ∧ s'.args = { s.args with clangOptions := s.args.clangOptions ++ platform tool s.args fs }) := by
  have hset : ∀ t s1, Grow R s s1 → s1.args = s.args → platform tool s.args fs = (match (readlines t).findSome? triple with | some x => ["-target".toList, x] | none => []) →
      Sure (setTarget t s1) (fun _ s' => Grow R s s' ∧ s'.args = { s.args with clangOptions := s.args.clangOptions ++ platform tool s.args fs }) := by
    intro t s1 hg ha hp
    unfold setTarget
    rw [hp]
    cases (readlines t).findSome? triple with
    | none => exact ⟨hg, by rw [List.append_nil]; exact ha⟩
    | some x => exact ⟨⟨hg.old, hg.reg, hg.finite, hg.res⟩, congrArg (fun a : Args => { a with clangOptions := a.clangOptions ++ ["-target".toList, x] }) ha⟩
  unfold targetSelection
  refine post_bind (m := get) ?_
  show Sure ((if s.args.clangOptions.any (hasSub "-target".toList) then pure ()
    else match s.args.inputs with
      | [] => stop .raised
      | src :: _ =>
        if ext src = "bc".toList then do
          let ll ← temporary w (stem src) ".ll".toList
          command w [llvmBin "llvm-dis", L "-o", .out ll, .inp src]
          let t ← read ll
          setTarget t
        else if ext src = "ll".toList then do
          let t ← read src
          setTarget t
        else pure () : M Unit) s) _
  cases ht : s.args.clangOptions.any (hasSub "-target".toList) with
  | true =>
    have : platform tool s.args fs = [] := by unfold platform; rw [ht]; rfl
    rw [this, List.append_nil]
    exact ⟨Grow.refl R s, rfl⟩
  | false =>
    cases hi : s.args.inputs with
    | nil => exact absurd hi hne
    | cons i rest =>
      have hii : fs i ≠ none := hin i (by rw [hi]; exact List.mem_cons_self)
      obtain ⟨src, hsrc⟩ := Option.ne_none_iff_exists'.1 hii
      have hs : s.files i = some src := by rw [hold i hii, hsrc]
      simp only [Bool.false_eq_true, ↓reduceIte]
      have hplat : platform tool s.args fs = (match (if ext i = "bc".toList then some (tool [.lit "llvm-dis-12".toList, .lit "-o".toList, .this, .content (some src)])
          else if ext i = "ll".toList then some src else none : Option Text).bind fun t => (readlines t).findSome? triple with
        | some x => ["-target".toList, x]
        | none => []) := by
        unfold platform
        rw [ht, hi]
        simp only [Bool.false_eq_true, ↓reduceIte, hsrc]
        rfl
      by_cases e1 : ext i = "bc".toList
      · rw [if_pos e1] at hplat
        rw [if_pos e1]
        have := temp_cmd_sure X (stem i) ".ll".toList (fun ll => [llvmBin "llvm-dis", L "-o", .out ll, .inp i]) (fun f p => by
          simp only [List.mem_cons, List.not_mem_nil, or_false]
          constructor
          · rintro (e | e | e | e)
            · cases e
            · cases e
            · cases e; rfl
            · cases e
          · rintro rfl; simp) s hf (fun t => t = tool [.lit "llvm-dis-12".toList, .lit "-o".toList, .this, .content (some src)]) (fun f gs _ hg => by
          show tool [sees gs f (llvmBin "llvm-dis"), sees gs f (L "-o"), sees gs f (.out f), .content (gs i)] = _
          rw [hg i (by rw [hs]; simp), hs, show sees gs f (.out f) = .this from if_pos rfl]
          rfl)
        rw [bind_return]
        refine post_bind (post_weaken this fun f s1 ⟨k1, k2, t, k3, k4⟩ => post_bind ?_)
        unfold read
        rw [k3]
        exact hset t s1 k1.toGrow k1.args (by rw [k4]; exact hplat)
      · rw [if_neg e1] at hplat
        rw [if_neg e1]
        by_cases e2 : ext i = "ll".toList
        · rw [if_pos e2] at hplat
          rw [if_pos e2]
          refine post_bind ?_
          unfold read
          rw [hs]
          exact hset src s (Grow.refl R s) rfl hplat
        · rw [if_neg e2] at hplat
          rw [if_neg e2]
          rw [hplat]
          exact ⟨Grow.refl R s, by rw [show (none : Option Text).bind _ = none from rfl]; rw [List.append_nil]⟩

end

end Smack.Run
