/-
Lemmas about temporary files.
-/
import Verif.Run.Status
import Verif.Run.TempSpec

namespace Smack.Run
open Smack.Driver

theorem covers_iff (d f : Path) : covers d f = true ↔ Below d f := by
  unfold covers Below
  rw [Bool.or_eq_true, beq_iff_eq, List.isPrefixOf_iff_prefix]
  refine or_congr_right ⟨fun ⟨r, e⟩ => ⟨r, by rw [← e]; simp⟩, fun ⟨r, e⟩ => ⟨r, by rw [e]; simp⟩⟩

/-- `f` is registered for removal. -/
def Reg (s : St) (f : Path) : Prop := ∃ d ∈ s.temps, Below d f

theorem any_iff (s : St) (f : Path) : s.temps.any (covers · f) = true ↔ Reg s f := by
  rw [List.any_eq_true]
  exact ⟨fun ⟨d, h, e⟩ => ⟨d, h, (covers_iff d f).1 e⟩, fun ⟨d, h, e⟩ => ⟨d, h, (covers_iff d f).2 e⟩⟩

/-- What is registered is new, and nothing else has changed. -/
def Kept (a : Args) (fs : Files) (s : St) : Prop :=
  ∀ f, Foreign a f → (Reg s f → fs f = none) ∧ (¬Reg s f → s.files f = fs f)

/-- The end of a run. -/
def Restored (a : Args) (fs : Files) (s : St) : Prop := ∀ f, Foreign a f → (removeTemps s).files f = fs f

theorem removeTemps_files (s : St) (f : Path) : (Reg s f → (removeTemps s).files f = none) ∧ (¬Reg s f → (removeTemps s).files f = s.files f) :=
  ⟨fun h => if_pos ((any_iff s f).2 h), fun h => if_neg fun e => h ((any_iff s f).1 e)⟩

theorem Kept.restored {a : Args} {fs : Files} {s : St} (h : Kept a fs s) : Restored a fs s := by
  intro f hf
  by_cases hr : Reg s f
  · rw [(removeTemps_files s f).1 hr, (h f hf).1 hr]
  · rw [(removeTemps_files s f).2 hr, (h f hf).2 hr]

theorem Restored.again {a : Args} {fs : Files} {s : St} (h : Restored a fs s) : Restored a fs (removeTemps s) := by
  intro f hf
  by_cases hr : Reg s f
  · rw [(removeTemps_files (removeTemps s) f).1 hr, ← h f hf, (removeTemps_files s f).1 hr]
  · rw [(removeTemps_files (removeTemps s) f).2 hr, h f hf]

theorem Finite.set {fs : Files} (h : Finite fs) (p : Path) (t : Option Text) : Finite (fs.set p t) := by
  obtain ⟨l, hl⟩ := h
  refine ⟨p :: l, fun f hf => ?_⟩
  by_cases e : f = p
  · exact e ▸ List.mem_cons_self
  · refine List.mem_cons_of_mem _ (hl f ?_)
    unfold Files.set at hf
    rwa [if_neg e] at hf

/-- The invariant of a run. -/
structure Neat (a : Args) (fs : Files) (s : St) : Prop where
  inputs : s.args.inputs = a.inputs
  language : s.args.language = a.language
  debug : s.args.debug = false
  noVerify : s.args.noVerify = a.noVerify
  errorFile : s.args.errorFile = a.errorFile
  jsonFile : s.args.jsonFile = a.jsonFile
  ll : s.args.ll = a.ll
  finite : Finite s.files
  kept : Kept a fs s

/-- The files that may be written. -/
def Own (a : Args) (s : St) (p : Path) : Prop := p ∈ s.temps ∨ p ∈ results a

theorem Own.cases {a : Args} {s : St} {p f : Path} (h : Own a s p) (hb : Below p f) (hf : Foreign a f) : Reg s f := by
  rcases h with h | h
  · exact ⟨p, h, hb⟩
  · exact absurd hb (hf p h)

theorem neat_temp {w : World} {a : Args} {fs : Files} (hn : NewNames w) (pre ext : Text) (s : St) (h : Neat a fs s) :
    Post (temporary w pre ext s) (fun f s' => Neat a fs s' ∧ s'.args = s.args ∧ f ∈ s'.temps ∧ ∀ p ∈ s.temps, p ∈ s'.temps) (fun _ s => Restored a fs s) := by
  have ht : (if s.args.debug then s.temps else s.temps ++ [w.fresh (pre ++ ['-']) ext s.files]) = s.temps ++ [w.fresh (pre ++ ['-']) ext s.files] := by
    rw [h.debug]; rfl
  unfold temporary
  simp only [ht]
  refine ⟨⟨h.inputs, h.language, h.debug, h.noVerify, h.errorFile, h.jsonFile, h.ll, h.finite.set _ _, ?_⟩, rfl, by simp, fun p hp => by simp [hp]⟩
  intro f hf
  constructor
  · rintro ⟨d, hd, hb⟩
    rcases List.mem_append.1 hd with hd | hd
    · exact (h.kept f hf).1 ⟨d, hd, hb⟩
    · rw [List.mem_singleton.1 hd] at hb
      have hnone := hn _ _ _ _ h.finite hb
      by_cases hr : Reg s f
      · exact (h.kept f hf).1 hr
      · rw [← (h.kept f hf).2 hr]; exact hnone
  · intro hr
    have h1 : ¬Reg s f := fun ⟨d, hd, hb⟩ => hr ⟨d, List.mem_append_left _ hd, hb⟩
    have h2 : f ≠ w.fresh (pre ++ ['-']) ext s.files := fun e =>
      hr ⟨_, List.mem_append_right _ (List.mem_singleton.2 rfl), Or.inl e⟩
    rw [← (h.kept f hf).2 h1]
    exact if_neg h2

/-- Any command whose output files are the run's own. -/
theorem neat_cmd {w : World} {a : Args} {fs : Files} (ht : Tidy w) (c : List Word) (limit : Nat) (s : St) (h : Neat a fs s)
    (hw : ∀ p, writes c p → Own a s p) :
    Post (tryCommand w c limit s) (fun _ s' => Neat a fs s' ∧ s'.args = s.args ∧ s'.temps = s.temps) (fun _ s => Restored a fs s) := by
  have hk : Kept a fs { s with files := (w.run c s.files).2, log := s.log ++ [(c, (w.run c s.files).1)] } := by
    intro f hf
    refine ⟨(h.kept f hf).1, fun hr => ?_⟩
    rw [← (h.kept f hf).2 hr]
    refine ht.only c s.files f fun x hx p hp hb => hr ?_
    refine (hw p ?_).cases hb hf
    rcases hp with e | e | e
    · exact Or.inl (e ▸ hx)
    · exact Or.inr (Or.inl (e ▸ hx))
    · exact Or.inr (Or.inr (e ▸ hx))
  have hneat : Neat a fs { s with files := (w.run c s.files).2, log := s.log ++ [(c, (w.run c s.files).1)] } :=
    ⟨h.inputs, h.language, h.debug, h.noVerify, h.errorFile, h.jsonFile, h.ll, ht.finite c _ h.finite, hk⟩
  exact try_cases _ _ _ _ _ _ (fun _ => hk.restored.again) (fun _ => hk.restored) (fun _ _ => hk.restored)
    (fun _ _ _ _ => ⟨hneat, rfl, rfl⟩) (fun _ _ _ _ => hk.restored) (fun _ _ _ _ => ⟨hneat, rfl, rfl⟩)

theorem neat_write {a : Args} {fs : Files} (s : St) (p : Path) (t : Text) (h : Neat a fs s) (hp : Own a s p) :
    Neat a fs { s with files := s.files.set p (some t) } :=
  ⟨h.inputs, h.language, h.debug, h.noVerify, h.errorFile, h.jsonFile, h.ll, h.finite.set _ _, fun f hf => ⟨(h.kept f hf).1, fun hr => by
    rw [← (h.kept f hf).2 hr]
    exact if_neg fun e => hr (hp.cases (Or.inl e) hf)⟩⟩

/-- The three files of the run have names. -/
structure Named (a : Args) (s : St) : Prop where
  bc : Own a s s.args.bcFile
  linked : Own a s s.args.linkedFile
  bpl : Own a s s.args.bplFile

theorem neat_closed {w : World} (ht : Tidy w) (hn : NewNames w) (a : Args) (fs : Files) :
    Closed w (fun s => Neat a fs s ∧ Named a s) (fun _ s => Restored a fs s) (Own a) where
  temp pre ext s h := post_weaken (neat_temp hn pre ext s h.1) fun f s' ⟨h1, ha, hf, hs⟩ => by
    have hmono : ∀ p, Own a s p → Own a s' p := fun p hp => hp.imp_left (hs p)
    refine ⟨⟨h1, ?_⟩, Or.inl hf⟩
    obtain ⟨x, y, z⟩ := h.2
    constructor
    · rw [ha]; exact hmono _ x
    · rw [ha]; exact hmono _ y
    · rw [ha]; exact hmono _ z
  cmd c s h hw := post_weaken (neat_cmd ht c 0 s h.1 hw) fun _ s' ⟨h1, ha, hs⟩ => by
    have hmono : ∀ p, Own a s p → Own a s' p := fun p hp => hp.imp_left fun x => hs ▸ x
    refine ⟨⟨h1, ?_⟩, hmono⟩
    obtain ⟨x, y, z⟩ := h.2
    constructor
    · rw [ha]; exact hmono _ x
    · rw [ha]; exact hmono _ y
    · rw [ha]; exact hmono _ z
  args s b h hb := by
    obtain ⟨h1, x, y, z⟩ := h
    refine ⟨⟨hb.inputs.trans h1.inputs, hb.language.trans h1.language, hb.debug.trans h1.debug, hb.noVerify.trans h1.noVerify,
      hb.errorFile.trans h1.errorFile, hb.jsonFile.trans h1.jsonFile, hb.ll.trans h1.ll, h1.finite, h1.kept⟩, ?_⟩
    unfold Args.bcFile at x
    unfold Args.linkedFile at y
    unfold Args.bplFile at z
    constructor
    · show Own a s (b.bc.getD []); rw [hb.bc]; exact x
    · show Own a s (b.linked.getD []); rw [hb.linked]; exact y
    · show Own a s (b.bpl.getD []); rw [hb.bpl]; exact z
  write s p t h hp := ⟨neat_write s p t h.1 hp, h.2.bc, h.2.linked, h.2.bpl⟩
  raise s h := h.1.kept.restored
  exit1 s h := h.1.kept.restored
  own s h := ⟨h.2.bc, h.2.linked, h.2.bpl, fun f hf => Or.inr (by
    rw [h.1.ll] at hf
    simp [results, hf])⟩

/-- The invariant while names are chosen: what has a name has a good one. -/
structure Part (a : Args) (fs : Files) (s : St) : Prop extends Neat a fs s where
  bc : ∀ f, s.args.bc = some f → Own a s f
  linked : ∀ f, s.args.linked = some f → Own a s f
  bpl : ∀ f, s.args.bpl = some f → Own a s f
  bpl0 : s.args.bpl = none → a.bpl = none

theorem part_init (a : Args) (fs : Files) (hd : a.debug = false) (hf : Finite fs) : Part a fs { args := a, files := fs } where
  inputs := rfl
  language := rfl
  debug := hd
  noVerify := rfl
  errorFile := rfl
  jsonFile := rfl
  ll := rfl
  finite := hf
  kept f _ := ⟨fun ⟨_, h, _⟩ => (nomatch h), fun _ => rfl⟩
  bc f hf := Or.inr (by have hf : a.bc = some f := hf; simp [results, hf])
  linked f hf := Or.inr (by have hf : a.linked = some f := hf; simp [results, hf])
  bpl f hf := Or.inr (by have hf : a.bpl = some f := hf; simp [results, hf])
  bpl0 h := h

/-- A temporary file for one of the names. -/
theorem part_temp {w : World} (hn : NewNames w) {a : Args} {fs : Files} (pre ext : Text) (g : Path → Args → Args)
    (hg : ∀ f b, ((g f b).inputs = b.inputs ∧ (g f b).language = b.language ∧ (g f b).debug = b.debug ∧ (g f b).noVerify = b.noVerify ∧
      (g f b).errorFile = b.errorFile ∧ (g f b).jsonFile = b.jsonFile ∧ (g f b).ll = b.ll) ∧
      ((g f b).bc = b.bc ∨ (g f b).bc = some f) ∧ ((g f b).linked = b.linked ∨ (g f b).linked = some f) ∧ ((g f b).bpl = b.bpl ∨ (g f b).bpl = some f))
    (s : St) (h : Part a fs s) :
    Post ((do let f ← temporary w pre ext; setArgs (g f) : M Unit) s) (fun _ s' => Part a fs s' ∧ ∃ f, s'.args = g f s.args)
      (fun _ s => Restored a fs s) := by
  refine post_bind (post_weaken (neat_temp hn pre ext s h.toNeat) fun f s' ⟨h1, ha, hf, hs⟩ => ?_)
  show Part a fs { s' with args := g f s'.args } ∧ ∃ x, g f s'.args = g x s.args
  refine ⟨?_, f, by rw [ha]⟩
  obtain ⟨⟨e1, e2, e3, e4, e5, e6, e7⟩, e8, e9, e10⟩ := hg f s'.args
  have hmono : ∀ p, Own a s p → Own a { s' with args := g f s'.args } p := fun p hp => hp.imp_left (hs p)
  refine ⟨⟨e1.trans h1.inputs, e2.trans h1.language, e3.trans h1.debug, e4.trans h1.noVerify, e5.trans h1.errorFile, e6.trans h1.jsonFile,
    e7.trans h1.ll, h1.finite, h1.kept⟩, fun p hp => ?_, fun p hp => ?_, fun p hp => ?_, fun hp => ?_⟩
  · rcases e8 with e | e
    · exact hmono p (h.bc p (by rw [← ha]; exact e.symm.trans hp))
    · cases (e.symm.trans hp); exact Or.inl hf
  · rcases e9 with e | e
    · exact hmono p (h.linked p (by rw [← ha]; exact e.symm.trans hp))
    · cases (e.symm.trans hp); exact Or.inl hf
  · rcases e10 with e | e
    · exact hmono p (h.bpl p (by rw [← ha]; exact e.symm.trans hp))
    · cases (e.symm.trans hp); exact Or.inl hf
  · rcases e10 with e | e
    · exact h.bpl0 (by rw [← ha]; exact e.symm.trans hp)
    · cases (e.symm.trans hp)

theorem neat_arguments {w : World} (hn : NewNames w) (a : Args) (fs : Files) (s : St) (h : Part a fs s) :
    Post (arguments w s) (fun _ s => Neat a fs s ∧ Named a s) (fun _ s => Restored a fs s) := by
  unfold arguments
  refine post_bind (m := get) ?_
  show Post ((if !validateInputs s then stop (.exit 1) else _ : M Unit) s) _ _
  split
  · exact h.kept.restored
  · refine post_bind ?_
    have hbc : Post (nameBc w s) (fun _ s' => Part a fs s' ∧ s'.args.bc ≠ none) (fun _ s => Restored a fs s) := by
      unfold nameBc
      refine post_bind (m := get) ?_
      show Post ((match s.args.bc with | some _ => pure () | none => _ : M Unit) s) _ _
      cases hb : s.args.bc with
      | some x => exact ⟨h, by rw [hb]; simp⟩
      | none =>
        refine post_weaken (part_temp hn _ _ (fun f b => { b with bc := some f }) (fun f b => ⟨⟨rfl, rfl, rfl, rfl, rfl, rfl, rfl⟩, Or.inr rfl, Or.inl rfl, Or.inl rfl⟩) s h) ?_
        rintro _ s' ⟨h', f, e⟩
        exact ⟨h', by rw [e]; simp⟩
    refine post_weaken hbc fun _ s h => ?_
    obtain ⟨h, hb⟩ := h
    refine post_bind ?_
    have hli : Post (nameLinked w s) (fun _ s' => Part a fs s' ∧ s'.args.bc ≠ none ∧ s'.args.linked ≠ none) (fun _ s => Restored a fs s) := by
      unfold nameLinked
      refine post_bind (m := get) ?_
      show Post ((match s.args.linked with | some _ => pure () | none => _ : M Unit) s) _ _
      cases hl : s.args.linked with
      | some x => exact ⟨h, hb, by rw [hl]; simp⟩
      | none =>
        refine post_weaken (part_temp hn _ _ (fun f b => { b with linked := some f }) (fun f b => ⟨⟨rfl, rfl, rfl, rfl, rfl, rfl, rfl⟩, Or.inl rfl, Or.inr rfl, Or.inl rfl⟩) s h) ?_
        rintro _ s' ⟨h', f, e⟩
        exact ⟨h', by rw [e]; exact hb, by rw [e]; simp⟩
    refine post_weaken hli fun _ s h => ?_
    obtain ⟨h, hb, hl⟩ := h
    have hfin : ∀ s', Part a fs s' → s'.args.bc ≠ none → s'.args.linked ≠ none → s'.args.bpl ≠ none → Neat a fs s' ∧ Named a s' := by
      intro s' h' h1 h2 h3
      refine ⟨h'.toNeat, ?_, ?_, ?_⟩
      · unfold Args.bcFile
        cases e : s'.args.bc with
        | none => exact absurd e h1
        | some f => exact h'.bc f e
      · unfold Args.linkedFile
        cases e : s'.args.linked with
        | none => exact absurd e h2
        | some f => exact h'.linked f e
      · unfold Args.bplFile
        cases e : s'.args.bpl with
        | none => exact absurd e h3
        | some f => exact h'.bpl f e
    unfold nameBpl
    refine post_bind (m := get) ?_
    show Post ((match s.args.bpl with | some _ => pure () | none => _ : M Unit) s) _ _
    cases hbp : s.args.bpl with
    | some x => exact hfin s h hb hl (by rw [hbp]; simp)
    | none =>
      show Post ((if s.args.noVerify then _ else _ : M Unit) s) _ _
      split
      · rename_i hnv
        refine hfin { s with args := { s.args with bpl := some "a.bpl".toList } }
          ⟨⟨h.inputs, h.language, h.debug, h.noVerify, h.errorFile, h.jsonFile, h.ll, h.finite, h.kept⟩, h.bc, h.linked, fun p hp => ?_, fun hp => (nomatch hp)⟩ hb hl (by simp)
        cases hp
        refine Or.inr ?_
        have h1 := h.bpl0 hbp
        rw [h.noVerify] at hnv
        simp [results, h1, hnv]
      · refine post_weaken (part_temp hn _ _ (fun f b => { b with bpl := some f }) (fun f b => ⟨⟨rfl, rfl, rfl, rfl, rfl, rfl, rfl⟩, Or.inl rfl, Or.inl rfl, Or.inr rfl⟩) s h) ?_
        rintro _ s' ⟨h', f, e⟩
        exact hfin s' h' (by rw [e]; exact hb) (by rw [e]; exact hl) (by rw [e]; simp)

theorem plain_verifier (a : Args) (p : Path) : ¬writes (verifierCommand a) p := by
  unfold verifierCommand
  rw [writes_append]
  have hlit : ∀ (b : Bool) (s : Text), ¬writes (opt b [.lit s]) p := fun b s =>
    writes_opt b _ p (by rw [writes_lit]; exact writes_nil p)
  have hsol : ∀ (pre : String) (s : Solver), ¬writes (solverArgs pre s) p := by
    intro pre s
    cases s <;> simp only [solverArgs, writes_L] <;> exact writes_nil p
  rintro (h | h)
  · revert h
    split
    · simp only [writes_append, writes_L, writes_lit, writes_inp]
      rintro ((h | h) | h)
      · exact writes_nil p h
      · exact hlit _ _ h
      · exact hsol _ _ h
    · split
      · simp only [writes_append, writes_L, writes_lit, writes_inp]
        rintro (h | h)
        · exact writes_nil p h
        · exact hsol _ _ h
      · simp only [writes_L, writes_lit, writes_inp]
        exact writes_nil p
  · exact writes_lits _ _ h

theorem neat_writeOpt {a : Args} {fs : Files} (s : St) (h : Neat a fs s) (f : Option Path) (t : Text) (hf : ∀ p, f = some p → p ∈ results a) :
    Post (writeOpt f t s) (fun _ s' => Neat a fs s' ∧ s'.args = s.args) (fun _ s => Restored a fs s) := by
  cases f with
  | none => exact ⟨h, rfl⟩
  | some p => exact ⟨neat_write s p t h (Or.inr (hf p rfl)), rfl⟩

theorem neat_say {a : Args} {fs : Files} (s : St) (h : Neat a fs s) (t : Text) :
    Neat a fs { s with said := s.said ++ [t] } :=
  ⟨h.inputs, h.language, h.debug, h.noVerify, h.errorFile, h.jsonFile, h.ll, h.finite, h.kept⟩

theorem neat_onlyIf {a : Args} {fs : Files} (s : St) (h : Neat a fs s) (b : Bool) (m : M Unit)
    (hm : Post (m s) (fun _ s' => Neat a fs s') (fun _ s => Restored a fs s)) :
    Post (onlyIf b m s) (fun _ s' => Neat a fs s') (fun _ s => Restored a fs s) := by
  unfold onlyIf
  split
  · exact hm
  · exact h

theorem json_result (a : Args) (p : Path) (h : a.jsonFile = some p) : p ∈ results a := by simp [results, h]
theorem error_result (a : Args) (p : Path) (h : a.errorFile = some p) : p ∈ results a := by simp [results, h]

theorem neat_report (w : World) {a : Args} {fs : Files} (s : St) (h : Neat a fs s) (r : VRes) (out : Text) :
    Post (report w s.args r out s) (fun _ s' => Neat a fs s') (fun _ s => Restored a fs s) := by
  unfold report
  refine post_bind (post_weaken (neat_writeOpt s h _ _ fun p hp => json_result a p (h.jsonFile ▸ hp)) fun _ s1 h1 => ?_)
  refine post_bind (post_weaken (neat_onlyIf s1 h1.1 _ _ (post_weaken (neat_writeOpt s1 h1.1 _ _ fun p hp => error_result a p (h.errorFile ▸ hp)) fun _ _ h => h.1)) fun _ s2 h2 => ?_)
  refine post_bind (post_weaken (neat_onlyIf s2 h2 _ _ (show Neat a fs _ from neat_say s2 h2 _)) fun _ s3 h3 => ?_)
  exact neat_say s3 h3 _

theorem neat_verifyBpl {w : World} (ht : Tidy w) (a : Args) (fs : Files) (s : St) (h : Neat a fs s) :
    Post (verifyBpl w s) (fun _ s => Restored a fs s) (fun _ s => Restored a fs s) := by
  unfold verifyBpl
  refine post_bind (m := get) ?_
  show Post ((tryCommand w (verifierCommand s.args) s.args.timeLimit >>= _ : M Unit) s) _ _
  refine post_bind (post_weaken (neat_cmd ht _ _ s h fun p hp => absurd hp (plain_verifier _ p)) fun out s1 h1 => ?_)
  refine post_bind ?_
  unfold transformOut
  have hrest : ∀ out, Post ((do
      let s ← get
      match verificationResult (linesOf s.files) s.args.verifier.reader out with
      | none => stop .raised
      | some r =>
        report w s.args r out
        stop (.exit r.code) : M Unit) s1) (fun _ s => Restored a fs s) (fun _ s => Restored a fs s) := by
    intro out
    refine post_bind (m := get) ?_
    show Post ((match verificationResult (linesOf s1.files) s1.args.verifier.reader out with
      | none => stop .raised
      | some r => do
        report w s1.args r out
        stop (.exit r.code) : M Unit) s1) _ _
    cases verificationResult (linesOf s1.files) s1.args.verifier.reader out with
    | none => exact h1.1.kept.restored
    | some r => exact post_bind (post_weaken (neat_report w s1 h1.1 r out) fun _ s2 h2 => h2.kept.restored)
  refine post_bind (m := get) ?_
  show Post ((match s1.args.transformOut with
    | none => pure out
    | some c => match w.filter c out with
      | none => stop .raised
      | some t => pure t : M Text) s1) _ _
  cases s1.args.transformOut with
  | none => exact hrest out
  | some c =>
    show Post ((match w.filter c out with
      | none => stop .raised
      | some t => pure t : M Text) s1) _ _
    cases w.filter c out with
    | none => exact h1.1.kept.restored
    | some t => exact hrest t

theorem neat_errorFile (w : World) {a : Args} {fs : Files} (s : St) (h : Neat a fs s) (r : VRes) (out : Text) :
    Post (writeErrorFile w r out s) (fun _ s' => Neat a fs s') (fun _ s => Restored a fs s) := by
  unfold writeErrorFile
  refine post_bind (m := get) ?_
  show Post ((if r = .unknown then pure () else _ : M Unit) s) _ _
  split
  · exact h
  · cases he : s.args.errorFile with
    | none => exact h
    | some f =>
      have hf : Own a s f := Or.inr (error_result a f (h.errorFile ▸ he))
      show Post ((if s.args.language = some "svcomp".toList then write f (w.graph r out) else if r = .verified then pure () else do
        write f []
        stop .raised : M Unit) s) _ _
      split
      · exact neat_write s f _ h hf
      · split
        · exact h
        · exact (neat_write s f _ h hf).kept.restored

theorem neat_verifySvcomp {w : World} (ht : Tidy w) (a : Args) (fs : Files) (s : St) (h : Neat a fs s) (hb : Own a s s.args.bplFile) :
    Post (verifySvcomp w s) (fun _ s => Restored a fs s) (fun _ s => Restored a fs s) := by
  unfold verifySvcomp
  refine post_bind (m := get) ?_
  show Post ((read s.args.bplFile >>= _ : M Unit) s) _ _
  refine post_bind ?_
  unfold read
  cases s.files s.args.bplFile with
  | none => exact h.kept.restored
  | some t =>
    show Post ((write s.args.bplFile _ >>= _ : M Unit) s) _ _
    refine post_bind ?_
    show Post ((tryCommand w (svcompCommand s.args) 880 >>= _ : M Unit)
      { s with files := s.files.set s.args.bplFile (some (Options.svcompText s.args.check t)) }) _ _
    refine post_bind (post_weaken (neat_cmd ht _ _ _ (neat_write s _ _ h hb) fun p hp => ?_) fun out s1 h1 => ?_)
    · simp only [svcompCommand, writes_L, writes_inp] at hp
      exact absurd hp (writes_nil p)
    · refine post_bind (m := get) ?_
      show Post ((match svcompResult (linesOf s1.files) out with
        | none => stop .raised
        | some r => do
          onlyIf (r.isError && !s1.args.quiet) (say (w.trace out))
          writeErrorFile w r out
          say (r.message (bound s1.args))
          stop (.exit r.code) : M Unit) s1) _ _
      cases svcompResult (linesOf s1.files) out with
      | none => exact h1.1.kept.restored
      | some r =>
        refine post_bind (post_weaken (neat_onlyIf s1 h1.1 _ _ (show Neat a fs _ from neat_say s1 h1.1 _)) fun _ s2 h2 => ?_)
        refine post_bind (post_weaken (neat_errorFile w s2 h2 r out) fun _ s3 h3 => ?_)
        exact (neat_say s3 h3 _).kept.restored

theorem neat_body {w : World} (ht : Tidy w) (hn : NewNames w) (a : Args) (fs : Files) (hd : a.debug = false) (hfin : Finite fs)
    (hl : ∀ f ∈ a.inputs, ∀ lang, langOf a f = some lang → ¬messy lang) :
    Post (body w { args := a, files := fs }) (fun _ s => Restored a fs s) (fun _ s => Restored a fs s) := by
  have C := neat_closed ht hn a fs
  have U : Unknown (fun s => Neat a fs s ∧ Named a s) (fun _ s => Restored a fs s) := fun s t h => (neat_say s h.1 _).kept.restored
  refine post_body (I := fun s => Neat a fs s ∧ Named a s) (F := fun _ s => Restored a fs s) ?_ (fun _ _ h => h) fun s h => ?_
  · refine post_bind (post_weaken (neat_arguments hn a fs _ (part_init a fs hd hfin)) fun _ s h => ?_)
    refine keeps_bind (keeps_target C) (fun _ => keeps_frontend C U (Or.inr fun s h f hf lang e => ?_)) s h
    refine hl f (h.1.inputs ▸ hf) lang ?_
    unfold langOf at e ⊢
    rw [← h.1.language]
    exact e
  · unfold verify
    refine post_bind (m := get) ?_
    show Post ((if s.args.noVerify then pure () else if s.args.verifier = .svcomp then verifySvcomp w else verifyBpl w : M Unit) s) _ _
    split
    · exact h.1.kept.restored
    · split
      · exact neat_verifySvcomp ht a fs s h.1 h.2.bpl
      · exact neat_verifyBpl ht a fs s h.1

end Smack.Run
