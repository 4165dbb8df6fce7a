/-
Contents of the files: linking and translation.
-/
import Verif.Run.Flow

namespace Smack.Run
open Smack.Driver

/-- Words that are no input files. -/
def NoInp (ws : List Word) : Prop := ∀ x ∈ ws, ∀ p, x ≠ .inp p ∧ x ≠ .upd p

theorem NoInp.append {a b : List Word} (ha : NoInp a) (hb : NoInp b) : NoInp (a ++ b) :=
  fun x hx => (List.mem_append.1 hx).elim (ha x) (hb x)

theorem Lits.noInp {a : List Word} (h : Lits a) : NoInp a := fun x hx p => by
  obtain ⟨t, e⟩ := h x hx
  rw [e]
  exact ⟨by simp, by simp⟩

theorem NoInp.sees {ws : List Word} (h : NoInp ws) (fs gs : Files) (f : Path) : ws.map (Run.sees fs f) = ws.map (Run.sees gs f) := by
  refine List.map_congr_left fun x hx => ?_
  have := h x hx
  cases x with
  | inp p => exact absurd rfl (this p).1
  | upd p => exact absurd rfl (this p).2
  | _ => rfl

theorem lits_eps (s : String) (l : List Text) : Lits (l.flatMap fun ep => [L s, .lit ep]) := by
  intro x hx
  obtain ⟨t, _, e⟩ := List.mem_flatMap.1 hx
  simp only [List.mem_cons, List.not_mem_nil, or_false] at e
  rcases e with e | e <;> exact ⟨_, e⟩

theorem lits_one (t : Text) : Lits [.lit t] := fun x hx => ⟨t, List.mem_singleton.1 hx⟩

/-- The command line of llvm2bpl begins with the files. -/
theorem llvm2bpl_head (w : World) (a : Args) :
    llvm2bpl w a = [L "llvm2bpl", .inp a.linkedFile, L "-bpl", .out a.bplFile] ++ (llvm2bpl w a).drop 4 := by
  unfold llvm2bpl
  simp only [List.cons_append, List.nil_append, List.append_assoc, List.drop_succ_cons, List.drop_zero]

theorem llvm2bpl_rest (w : World) (a : Args) : NoInp ((llvm2bpl w a).drop 4) := by
  unfold llvm2bpl
  simp only [List.cons_append, List.nil_append, List.append_assoc, List.drop_succ_cons, List.drop_zero]
  have hs : ∀ (b : Bool) (s : String), NoInp (opt b [L s]) := fun b s => (lits_opt b (lits_one _)).noInp
  have hcons : ∀ (t : Text) (l : List Word), NoInp l → NoInp (.lit t :: l) := fun t l h => (lits_one t).noInp.append h
  refine hcons _ _ (hcons _ _ (hcons _ _ ((hs _ _).append (hcons _ _ ?_))))
  refine (lits_eps _ _).noInp.append ((lits_eps _ _).noInp.append ((hs _ _).append (NoInp.append ?_ (NoInp.append ?_ ?_))))
  · cases a.debugOnly with
    | none => exact fun x hx => (nomatch hx)
    | some m => exact hcons _ _ (hcons _ _ fun x hx => (nomatch hx))
  · cases a.ll with
    | none => exact fun x hx => (nomatch hx)
    | some f =>
      refine hcons _ _ fun x hx p => ?_
      rw [List.mem_singleton.1 hx]
      exact ⟨by simp, by simp⟩
  · exact (hs _ _).append ((hs _ _).append ((hs _ _).append ((hs _ _).append ((hs _ _).append ((hs _ _).append ((hs _ _).append
      ((hs _ _).append ((hs _ _).append ((lits_L _).noInp.append ((hs _ _).append ((lits_opt _ (lits_one _)).noInp.append
      ((hs _ _).append (hs _ _)))))))))))))

theorem llvm2bpl_sees (w : World) (a : Args) (fs : Files) (b : Path) (whole : Text) (hb : a.bplFile = b) (hw : fs a.linkedFile = some whole) :
    (llvm2bpl w a).map (sees fs b) = [.lit "llvm2bpl".toList, .content (some whole), .lit "-bpl".toList, .this] ++ ((llvm2bpl w a).drop 4).map (sees (fun _ => none) b) := by
  have hrest := (llvm2bpl_rest w a).sees fs (fun _ => none) b
  have hhead := llvm2bpl_head w a
  generalize (llvm2bpl w a).drop 4 = rest at hrest hhead ⊢
  rw [hhead, List.map_append, hrest]
  refine congrArg (· ++ _) ?_
  show [sees fs b (L "llvm2bpl"), sees fs b (.inp a.linkedFile), sees fs b (L "-bpl"), sees fs b (.out a.bplFile)] = _
  have h1 : sees fs b (.inp a.linkedFile) = .content (some whole) := by rw [← hw]; rfl
  have h2 : sees fs b (.out a.bplFile) = .this := if_pos hb
  rw [h1, h2]
  rfl

section
variable {w : World} {tool : List Sees → Text} {R : List Path} (X : Ctx w tool R)
include X

/-- The Boogie file after the translation of the linked program. -/
theorem translate_sure (s : St) (b : Path) (whole : Text) (hb : s.args.bpl = some b) (hw : s.files s.args.linkedFile = some whole)
    (hll : s.args.ll ≠ some b) (t' : Text)
    (ht : ∀ x, x = (selection s.args.check (readlines (w.header ++ Options.annotateBpl (annOpts s.args)
        (tool ([.lit "llvm2bpl".toList, .content (some whole), .lit "-bpl".toList, .this] ++ ((llvm2bpl w s.args).drop 4).map (sees (fun _ => none) b)))))).flatten →
      (s.args.transformBpl = none ∧ t' = x) ∨ ∃ c, s.args.transformBpl = some c ∧ w.filter c x = some t') :
    Sure (llvmToBpl w s) (fun _ s' => s'.args = s.args ∧ s'.temps = s.temps ∧ s'.files b = some t') := by
  unfold llvmToBpl
  refine post_bind (m := get) ?_
  change Sure ((command w (llvm2bpl w s.args) >>= _ : M Unit) s) _
  have hbf : s.args.bplFile = b := by unfold Args.bplFile; rw [hb]; rfl
  refine post_bind (post_weaken (command_sure X.pure X.quiet _ s) fun _ s1 h1 => ?_)
  have hout : Word.out b ∈ llvm2bpl w s.args := by
    rw [llvm2bpl_head, hbf]
    simp
  have hraw : s1.files b = some (tool ([.lit "llvm2bpl".toList, .content (some whole), .lit "-bpl".toList, .this] ++ ((llvm2bpl w s.args).drop 4).map (sees (fun _ => none) b))) := by
    have hfiles : s1.files = (w.run (llvm2bpl w s.args) s.files).2 := by rw [h1]
    rw [hfiles, X.pure.files, if_pos hout, llvm2bpl_sees w s.args s.files b whole hbf hw]
  have ha1 : s1.args = s.args := by rw [h1]
  have ht1 : s1.temps = s.temps := by rw [h1]
  clear h1
  generalize tool ([.lit "llvm2bpl".toList, .content (some whole), .lit "-bpl".toList, .this] ++ ((llvm2bpl w s.args).drop 4).map (sees (fun _ => none) b)) = raw at ht hraw
  have hbf1 : s1.args.bplFile = b := by rw [ha1, hbf]
  -- the annotations
  refine post_bind (m := annotateFile w) ?_
  unfold annotateFile
  refine post_bind (m := get) ?_
  change Sure ((read s1.args.bplFile >>= _ : M Unit) s1) _
  rw [hbf1]
  refine post_bind ?_
  unfold read
  rw [hraw]
  show Sure ((selectFile >>= fun _ => transformFile w) { s1 with files := s1.files.set b (some (w.header ++ Options.annotateBpl (annOpts s1.args) raw)) }) _
  -- the selection
  refine post_bind ?_
  unfold selectFile
  refine post_bind (m := get) ?_
  change Sure ((read s1.args.bplFile >>= _ : M Unit) { s1 with files := s1.files.set b (some (w.header ++ Options.annotateBpl (annOpts s1.args) raw)) }) _
  rw [hbf1]
  refine post_bind ?_
  unfold read
  have e1 : (s1.files.set b (some (w.header ++ Options.annotateBpl (annOpts s1.args) raw))) b = some (w.header ++ Options.annotateBpl (annOpts s1.args) raw) := if_pos rfl
  show Sure (match (s1.files.set b (some (w.header ++ Options.annotateBpl (annOpts s1.args) raw))) b with
    | some t => Res.ok t { s1 with files := s1.files.set b (some (w.header ++ Options.annotateBpl (annOpts s1.args) raw)) }
    | none => _) _
  rw [e1]
  generalize hs2 : ({ s1 with files := (s1.files.set b (some (w.header ++ Options.annotateBpl (annOpts s1.args) raw))).set b (some (selection s1.args.check (readlines (w.header ++ Options.annotateBpl (annOpts s1.args) raw))).flatten) } : St) = s2
  show Sure (transformFile w { s1 with files := (s1.files.set b (some (w.header ++ Options.annotateBpl (annOpts s1.args) raw))).set b (some (selection s1.args.check (readlines (w.header ++ Options.annotateBpl (annOpts s1.args) raw))).flatten) }) _
  rw [hs2]
  have ha2 : s2.args = s.args := by rw [← hs2]; exact ha1
  have ht2 : s2.temps = s.temps := by rw [← hs2]; exact ht1
  have hb2 : s2.files b = some (selection s.args.check (readlines (w.header ++ Options.annotateBpl (annOpts s.args) raw))).flatten := by
    rw [← hs2, ← ha1]
    exact if_pos rfl
  have ht := ht _ rfl
  generalize (selection s.args.check (readlines (w.header ++ Options.annotateBpl (annOpts s.args) raw))).flatten = x at ht hb2
  -- the filter
  unfold transformFile
  refine post_bind (m := get) ?_
  change Sure ((match s2.args.transformBpl with
    | none => pure ()
    | some c => do
      let t ← read s2.args.bplFile
      match w.filter c t with
      | none => do
        write s2.args.bplFile []
        stop .raised
      | some t' => write s2.args.bplFile t' : M Unit) s2) _
  rw [ha2, hbf]
  rcases ht with ⟨hn, e⟩ | ⟨c, hc, hf⟩
  · rw [hn]
    exact ⟨ha2, ht2, by rw [e]; exact hb2⟩
  · rw [hc]
    show Sure ((read b >>= _ : M Unit) s2) _
    refine post_bind ?_
    unfold read
    rw [hb2]
    show Sure ((match w.filter c x with
      | none => do
        write b []
        stop .raised
      | some t' => write b t' : M Unit) s2) _
    rw [hf]
    exact ⟨ha2, ht2, if_pos rfl⟩

end

end Smack.Run
