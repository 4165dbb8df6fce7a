/-
C93: a run leaves no temporary files behind.

Full statement: after a run without `--debug`, however it ends, all files are as before except those the user named for
results. It holds for all languages but Fortran (`c93_fortran_fails`) and compilation databases, whose commands may
write anything.
-/
import Verif.Run.Temp
import Verif.Run.StatusProps

namespace Smack.Run
open Smack.Driver

/-- However the run ends (verdict, failing command, exception, signal, wrong command line), every file that is not one of
the results is as it was before. -/
theorem c93_files (w : World) (ht : Tidy w) (hn : NewNames w) (fs : Files) (a : Args) (hd : a.debug = false) (hfin : Finite fs)
    (hl : ∀ f ∈ a.inputs, langOf a f ≠ some .fortran ∧ langOf a f ≠ some .json) (f : Path) (hf : Foreign a f) :
    (main w fs (.run a)).2.files f = fs f := by
  have hmain : ∀ b : Bool, (if b = true then ((body w { args := a, files := fs }).status, removeTemps (body w { args := a, files := fs }).state)
      else (2, { args := a, files := fs }) : Nat × St).2.files f = fs f := ?_
  · exact hmain _
  intro b
  cases b
  · rfl
  · have := neat_body ht hn a fs hd hfin (fun g hg lang e hm => by
      obtain ⟨h1, h2⟩ := hl g hg
      cases lang <;> first | exact hm | exact h1 e | exact h2 e)
    show (removeTemps (body w { args := a, files := fs }).state).files f = fs f
    revert this
    cases body w { args := a, files := fs } with
    | ok _ s => exact fun h => h f hf
    | stop e s => exact fun h => h f hf

/-! ### Worlds that meet the hypotheses -/

open Classical in
/-- A world in which tools put the contents of their input files into their output files; names of temporary files are
chosen among the unused ones. -/
noncomputable def plain (proc : Text → Proc) : World :=
  { toy proc with fresh := fun _ _ fs => if h : ∃ d : Path, ∀ f, Below d f → fs f = none then Classical.choose h else [] }

theorem toy_tidy (proc : Text → Proc) (w : World) (h : w.run = (toy proc).run) : Tidy w where
  only c fs f hc := by
    rw [h]
    show (if _ then _ else _ : Files) f = fs f
    split
    · refine if_neg fun e => hc (.out f) ?_ f (Or.inl rfl) (Or.inl rfl)
      simpa using e
    · rfl
  finite c fs hf := by
    rw [h]
    show Finite (if _ then _ else _ : Files)
    split
    · obtain ⟨l, hl⟩ := hf
      refine ⟨l ++ c.filterMap fun x => match x with | .out p => some p | _ => none, fun f hne => ?_⟩
      by_cases e : c.contains (.out f) = true
      · exact List.mem_append_right _ (List.mem_filterMap.2 ⟨.out f, by simpa using e, rfl⟩)
      · refine List.mem_append_left _ (hl f ?_)
        exact fun e' => hne ((if_neg e).trans e')
    · exact hf

theorem plain_new (proc : Text → Proc) : NewNames (plain proc) := by
  intro pre ext fs f ⟨l, hl⟩ hb
  have hex : ∃ d : Path, ∀ f, Below d f → fs f = none := by
    refine ⟨List.replicate ((l.map List.length).sum + 1) 'x', fun g hg => Classical.byContradiction fun hne => ?_⟩
    have hlen : g.length ≤ (l.map List.length).sum := by
      have := hl g hne
      clear hl hb hne hg
      induction l with
      | nil => cases this
      | cons a l ih =>
        rw [List.map_cons, List.sum_cons]
        rcases List.mem_cons.1 this with e | e
        · rw [e]; omega
        · have := ih e; omega
    have : (l.map List.length).sum + 1 ≤ g.length := by
      rcases hg with e | ⟨r, e⟩
      · rw [e, List.length_replicate]; exact Nat.le_refl _
      · rw [e, List.length_append, List.length_replicate]; omega
    omega
  have : (plain proc).fresh pre ext fs = Classical.choose hex := dif_pos hex
  rw [this] at hb
  exact Classical.choose_spec hex f hb

/-- One source file. -/
def one : Files := fun f => if f = "p.c".toList then some "int main;".toList else none

/-- The compiler fails; the source file and all others are as before. -/
example (f : Path) : (main (plain fun _ => ⟨true, false, 1, []⟩) one (.run simple)).2.files f = one f :=
  c93_files (plain fun _ => ⟨true, false, 1, []⟩) (toy_tidy (fun _ => ⟨true, false, 1, []⟩) _ rfl) (plain_new _) _ simple rfl ⟨["p.c".toList], fun f h => by
    by_cases e : f = "p.c".toList
    · rw [e]; exact List.mem_singleton.2 rfl
    · exact absurd (if_neg e) h⟩ (by decide) f (fun d hd => by
      have : results simple = [] := by decide
      rw [this] at hd
      cases hd)

/-- What the run of the small world leaves: the result named by the user and nothing else. -/
example : (main (toy (fine "Program has no bugs")) disk (.run { simple with bpl := some "q.bpl".toList })).2.files "q.bpl".toList ≠ none ∧
    (main (toy (fine "Program has no bugs")) disk (.run { simple with bpl := some "q.bpl".toList })).2.temps.length = 8 ∧
    ∀ t ∈ (main (toy (fine "Program has no bugs")) disk (.run { simple with bpl := some "q.bpl".toList })).2.temps,
      (main (toy (fine "Program has no bugs")) disk (.run { simple with bpl := some "q.bpl".toList })).2.files t = none := by
  decide +kernel

/-- Like `toy`, and tools write the files whose names they derive. -/
def toyAlso (proc : Text → Proc) : World :=
  { toy proc with
    run := fun c fs => (proc (program c),
      fun f => if c.contains (.out f) || c.contains (.also f) then some (c.flatMap fun x => match x with | .inp p => (fs p).getD [] | _ => []) else fs f) }

/-- Fortran: the bitcode files that `llvm-as` makes of the temporary `.ll` files stay behind, and so does the module file
of SMACK's library, in a run that ends with a verdict and in which no temporary file had the name of a file. -/
theorem c93_fortran_fails : ∃ w fs a, Tidy w ∧ (∀ k, w.signal k = none) ∧ a.debug = false ∧ (main w fs (.run a)).1 = 0 ∧
    (∀ t ∈ (main w fs (.run a)).2.temps, fs t = none) ∧ Foreign a "p-0.bc".toList ∧ fs "p-0.bc".toList = none ∧
    (main w fs (.run a)).2.files "p-0.bc".toList ≠ none ∧ Foreign a "smack.mod".toList ∧ fs "smack.mod".toList = none ∧
    (main w fs (.run a)).2.files "smack.mod".toList ≠ none := by
  have hnil : results { inputs := ["p.f90".toList] } = [] := by decide
  refine ⟨toyAlso (fine "Program has no bugs"), fun f => if f = "p.f90".toList || "/lib/".toList.isPrefixOf f then some "procedure main()\n".toList else none,
    { inputs := ["p.f90".toList] }, ⟨fun c fs f hc => ?_, fun c fs hf => ?_⟩, fun _ => rfl, rfl, by decide +kernel, by decide +kernel,
    fun d hd => (by rw [hnil] at hd; cases hd), by decide, by decide +kernel, fun d hd => (by rw [hnil] at hd; cases hd), by decide, by decide +kernel⟩
  · refine if_neg fun e => ?_
    rw [Bool.or_eq_true] at e
    rcases e with e | e
    · exact hc (.out f) (by simpa using e) f (Or.inl rfl) (Or.inl rfl)
    · exact hc (.also f) (by simpa using e) f (Or.inr (Or.inr rfl)) (Or.inl rfl)
  · obtain ⟨l, hl⟩ := hf
    refine ⟨l ++ c.filterMap fun x => match x with | .out p => some p | .also p => some p | _ => none, fun f hne => ?_⟩
    by_cases e : (c.contains (.out f) || c.contains (.also f)) = true
    · refine List.mem_append_right _ ?_
      rw [Bool.or_eq_true] at e
      rcases e with e | e
      · exact List.mem_filterMap.2 ⟨.out f, by simpa using e, rfl⟩
      · exact List.mem_filterMap.2 ⟨.also f, by simpa using e, rfl⟩
    · refine List.mem_append_left _ (hl f ?_)
      have : ((toyAlso (fine "Program has no bugs")).run c fs).2 f = fs f := if_neg e
      rwa [this] at hne

end Smack.Run
