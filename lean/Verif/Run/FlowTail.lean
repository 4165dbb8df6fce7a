/-
Contents of the files: the end of the run, worlds that meet the hypotheses, and options of the tools.
-/
import Verif.Run.FlowRun
import Verif.Run.TempProps

namespace Smack.Run
open Smack.Driver

section
variable (w : World) (tool : List Sees → Text) (a : Args) (fs : Files) (x y : Option Path)

theorem clangArgs_names (lib : Bool) : clangArgs w { a with bc := x, linked := y } lib = clangArgs w a lib := by
  unfold clangArgs
  rfl

theorem compiled_names : compiled w tool { a with bc := x, linked := y } = compiled w tool a := by
  funext cc lib src
  unfold compiled
  rw [clangArgs_names]

theorem langOf_names : langOf { a with bc := x, linked := y } = langOf a := by
  funext i
  unfold langOf
  rfl

theorem object_names : object w tool { a with bc := x, linked := y } fs = object w tool a fs := by
  funext i
  unfold object
  rw [compiled_names, langOf_names]

theorem externed_names : externed tool { a with bc := x, linked := y } = externed tool a := by
  funext t
  unfold externed
  rfl

theorem libraries_names : libraries { a with bc := x, linked := y } = libraries a := by
  unfold libraries
  rw [langOf_names]

theorem wholeProgram_names : wholeProgram w tool { a with bc := x, linked := y } fs = wholeProgram w tool a fs := by
  unfold wholeProgram linkedInputs
  rw [compiled_names, libraries_names, object_names, externed_names]

theorem boogieText_names : boogieText w tool { a with bc := x, linked := y } fs = boogieText w tool a fs := by
  funext b
  unfold boogieText translated
  rw [wholeProgram_names]
  have h1 : (llvm2bpl w { a with bc := x, linked := y }).drop 4 = (llvm2bpl w a).drop 4 := by
    unfold llvm2bpl
    simp only [List.cons_append, List.nil_append, List.append_assoc, List.drop_succ_cons, List.drop_zero]
  have h2 : annOpts { a with bc := x, linked := y } = annOpts a := by unfold annOpts; rfl
  rw [h1, h2]

end

/-- The verification leaves the Boogie file as it is. -/
theorem end_still {w : World} {tool : List Sees → Text} {R : List Path} (X : Ctx w tool R) (s : St) (b : Path) (t : Text)
    (hj : s.args.jsonFile ≠ some b) (he : s.args.errorFile ≠ some b) (hv : s.args.noVerify = true ∨ s.args.verifier ≠ .svcomp)
    (h1 : s.files b = some t) (h2 : ¬Reg s b) :
    Post ((do
      let s ← get
      if s.args.noVerify then pure ()
      else if s.args.verifier = .svcomp then verifySvcomp w
      else verifyBpl w : M Unit) s) (fun _ s => s.files b = some t ∧ ¬Reg s b) (fun _ s => s.files b = some t ∧ ¬Reg s b) := by
  refine post_bind (m := get) ?_
  show Post ((if s.args.noVerify then pure () else if s.args.verifier = .svcomp then verifySvcomp w else verifyBpl w : M Unit) s) _ _
  cases hnv : s.args.noVerify with
  | true => exact ⟨h1, h2⟩
  | false =>
    rw [if_neg (by simp)]
    rcases hv with hv | hv
    · rw [hnv] at hv; cases hv
    · rw [if_neg hv]
      have hst : ∀ s', Still b s s' → s'.files b = some t ∧ ¬Reg s' b := fun s' h =>
        ⟨h.files.trans h1, fun ⟨d, hd, hbel⟩ => h2 ⟨d, h.temps ▸ hd, hbel⟩⟩
      exact post_mono (post_weaken (still_verify X b s hj he) fun _ s' h => hst s' h) fun _ s' h => hst s' h

/-- From the body to the whole run. -/
theorem main_still (w : World) (fs : Files) (a : Args) (hlang : ∀ t, a.language = some t → t ∈ frontendNames.map Prod.fst) (b : Path) (t : Text)
    (hbody : Post (body w { args := a, files := fs }) (fun _ s => s.files b = some t ∧ ¬Reg s b) (fun _ s => s.files b = some t ∧ ¬Reg s b)) :
    (main w fs (.run a)).2.files b = some t := by
  have hmain : main w fs (.run a) = ((body w { args := a, files := fs }).status, removeTemps (body w { args := a, files := fs }).state) := by
    refine if_pos ?_
    cases hl : a.language with
    | none => rfl
    | some t => simpa using hlang t hl
  rw [hmain]
  show (removeTemps (body w { args := a, files := fs }).state).files b = some t
  revert hbody
  cases body w { args := a, files := fs } with
  | ok _ s => exact fun ⟨h1, h2⟩ => ((removeTemps_files s b).2 h2).trans h1
  | stop e s => exact fun ⟨h1, h2⟩ => ((removeTemps_files s b).2 h2).trans h1

/-! ### Worlds that meet the hypotheses -/

theorem apart_exists (R l : List Path) : ∃ d : Path, ∀ f, Below d f → f ∉ l ∧ f ∉ R := by
  refine ⟨List.replicate (((l ++ R).map List.length).sum + 1) 'x', fun g hg => ?_⟩
  suffices g ∉ l ++ R from ⟨fun h => this (List.mem_append_left _ h), fun h => this (List.mem_append_right _ h)⟩
  intro hm
  have hlen : ∀ L : List Path, g ∈ L → g.length ≤ (L.map List.length).sum := by
    intro L h
    induction L with
    | nil => cases h
    | cons a L ih =>
      rw [List.map_cons, List.sum_cons]
      rcases List.mem_cons.1 h with e | e
      · rw [e]; omega
      · have := ih e; omega
  have h1 := hlen _ hm
  have h2 : ((l ++ R).map List.length).sum + 1 ≤ g.length := by
    rcases hg with e | ⟨r, e⟩
    · rw [e, List.length_replicate]; exact Nat.le_refl _
    · rw [e, List.length_append, List.length_replicate]; omega
  omega

theorem apart_exists' (R : List Path) : ∃ d : Path, ∀ f ∈ R, ¬Below d f := by
  obtain ⟨d, hd⟩ := apart_exists R []
  exact ⟨d, fun f hf hb => (hd f hb).2 hf⟩

open Classical in
/-- A world for any behaviour of the tools and any results. -/
noncomputable def ideal (tool : List Sees → Text) (R : List Path) : World :=
  { toy (fun _ => ⟨true, false, 0, []⟩) with
    run := fun c fs => (⟨true, false, 0, "Program has no bugs".toList⟩, fun f => if Word.out f ∈ c then some (tool (c.map (sees fs f))) else fs f)
    fresh := fun _ _ fs =>
      if h : ∃ d : Path, ∀ f, Below d f → fs f = none ∧ f ∉ R then Classical.choose h else Classical.choose (apart_exists' R) }

theorem ideal_pure (tool : List Sees → Text) (R : List Path) : Pure (ideal tool R) tool := by
  refine ⟨fun _ _ => ⟨rfl, rfl, rfl⟩, fun c fs f => ?_⟩
  show (if _ then _ else _) = _
  congr

theorem ideal_new (tool : List Sees → Text) (R : List Path) : NewNames (ideal tool R) := by
  intro pre ext fs f ⟨l, hl⟩ hb
  have hex : ∃ d : Path, ∀ f, Below d f → fs f = none ∧ f ∉ R := by
    obtain ⟨d, hd⟩ := apart_exists R l
    exact ⟨d, fun f hf => ⟨Classical.byContradiction fun h => (hd f hf).1 (hl f h), (hd f hf).2⟩⟩
  have : (ideal tool R).fresh pre ext fs = Classical.choose hex := dif_pos hex
  rw [this] at hb
  exact (Classical.choose_spec hex f hb).1

theorem ideal_apart (tool : List Sees → Text) (a : Args) : Apart (ideal tool (results a)) a := by
  intro pre ext fs d hd hb
  by_cases hex : ∃ d : Path, ∀ f, Below d f → fs f = none ∧ f ∉ results a
  · have : (ideal tool (results a)).fresh pre ext fs = Classical.choose hex := dif_pos hex
    rw [this] at hb
    exact (Classical.choose_spec hex d hb).2 hd
  · have : (ideal tool (results a)).fresh pre ext fs = Classical.choose (apart_exists' (results a)) := dif_neg hex
    rw [this] at hb
    exact Classical.choose_spec (apart_exists' (results a)) d hd hb

/-- Two source files and the library. -/
def two : Files := fun f =>
  if f = "p.c".toList then some "int main;".toList
  else if f = "q.bc".toList then some "target triple = \"x86\"\n".toList
  else if f ∈ ["/lib/smack.c".toList, "/lib/stdlib.c".toList, "/lib/errno.c".toList, "/lib/smack-rust.c".toList] then some [] else none

theorem two_finite : Finite two := by
  refine ⟨["p.c".toList, "q.bc".toList, "/lib/smack.c".toList, "/lib/stdlib.c".toList, "/lib/errno.c".toList, "/lib/smack-rust.c".toList], fun f h => ?_⟩
  unfold two at h
  split at h
  · rename_i e; rw [e]; simp
  · split at h
    · rename_i e; rw [e]; simp
    · split at h
      · rename_i e
        exact List.mem_cons_of_mem _ (List.mem_cons_of_mem _ e)
      · exact absurd rfl h

/-- A C file and a bitcode file. -/
def pair : Args := { inputs := ["p.c".toList, "q.bc".toList], bpl := some "r.bpl".toList }

theorem mem_opt_L (s x : String) (b : Bool) : L s ∈ opt b [L x] ↔ b = true ∧ s = x := by
  cases b with
  | false => simp [opt]
  | true => simp [opt, L, String.toList_inj]

theorem L_inj (s x : String) : L s = L x ↔ s = x := by simp [L, String.toList_inj]

theorem mem_map_L (s : String) (l : List String) : L s ∈ l.map L ↔ s ∈ l := by
  rw [List.mem_map]
  constructor
  · rintro ⟨x, hx, e⟩
    rw [← (L_inj x s).1 e]; exact hx
  · exact fun h => ⟨s, h, rfl⟩

theorem mem_eps (s x : String) (hs : s.toList.head? = some '-') (hne : s ≠ x) (l : List Text) (h : ∀ e ∈ l, e.head? ≠ some '-') :
    L s ∉ l.flatMap fun e => [L x, .lit e] := by
  intro hm
  obtain ⟨e, he, hm⟩ := List.mem_flatMap.1 hm
  simp only [List.mem_cons, List.not_mem_nil, or_false] at hm
  rcases hm with hm | hm
  · exact hne ((L_inj s x).1 hm)
  · have : s.toList = e := Word.lit.inj hm
    exact h e he (this ▸ hs)

theorem translator_words (w : World) (a : Args) (h : NoDash a) (s : String) (hs : s.toList.head? = some '-')
    (hn : s ∉ ["llvm2bpl", "-bpl", "-warn-type", "-sea-dsa=ci", "-colored-warnings", "-source-loc-syms", "-entry-points", "-checked-functions", "-debug-only", "-ll"])
    (hp : ("-llvm-assumes=".toList.isPrefixOf s.toList) = false) :
      (L s ∈ llvm2bpl w a ↔ (a.debug = true ∧ s = "-debug") ∨ ((a.memMod == .noReuseImpls) = true ∧ s = "-mem-mod-impls") ∨ (a.staticUnroll = true ∧ s = "-static-unroll") ∨
        ((a.intEnc == .bitVector) = true ∧ s = "-bit-precise") ∨ ((a.intEnc == .wrapped) = true ∧ s = "-wrapped-integer-encoding") ∨ (a.timing = true ∧ s = "-timing-annotations") ∨
        (a.ptrBv = true ∧ s = "-bit-precise-pointers") ∨ (a.noByteInference = true ∧ s = "-no-byte-access-inference") ∨ (a.rewriteBitwise = true ∧ s = "-rewrite-bitwise-ops") ∨
        (a.noSplitting = true ∧ s = "-no-memory-splitting") ∨ s ∈ Options.llvm2bplFlags a.check ∨ (a.failOnLoopExit = true ∧ s = "-fail-on-loop-exit") ∨
        (a.float = true ∧ s = "-float") ∨ (a.modular = true ∧ s = "-modular")) := by
  obtain ⟨h1, h2, h3, h4⟩ := h
  have hdo : ∀ (s : String) (m : Text), s.toList.head? = some '-' → a.debugOnly = some m → L s ≠ .lit m := by
    intro s m hs e h
    have : s.toList = m := Word.lit.inj h
    exact h4 m e (this ▸ hs)
  have hw : ∀ s : String, s.toList.head? = some '-' → L s ≠ .lit a.warn := by
    intro s hs e
    have : s.toList = a.warn := Word.lit.inj e
    exact h3 (this ▸ hs)
  have ha : ∀ s : String, ("-llvm-assumes=".toList.isPrefixOf s.toList) = false → L s ∉ opt (!a.llvmAssumes.isEmpty) [.lit ("-llvm-assumes=".toList ++ a.llvmAssumes)] := by
    intro s hs hm
    have : s.toList = "-llvm-assumes=".toList ++ a.llvmAssumes := by
      unfold opt at hm
      split at hm
      · exact Word.lit.inj (List.mem_singleton.1 hm)
      · cases hm
    rw [this, List.isPrefixOf_iff_prefix.2 (List.prefix_append _ _)] at hs
    cases hs
  simp only [List.mem_cons, List.not_mem_nil, or_false, not_or] at hn
  unfold llvm2bpl
  simp only [List.mem_append, List.mem_cons, List.not_mem_nil, or_false, mem_opt_L, mem_map_L, L_inj, hn, mem_eps _ _ hs hn.2.2.2.2.2.2.1 _ h1,
    mem_eps _ _ hs hn.2.2.2.2.2.2.2.1 _ h2, hw s hs, ha s hp, or_false, false_or, and_false, or_assoc, reduceCtorEq]
  have hin : L s ≠ .inp a.linkedFile := fun e => by cases e
  have hout : L s ≠ .out a.bplFile := fun e => by cases e
  have hll : ∀ f, L s ≠ .out f := fun f e => by cases e
  simp only [hin, hout, false_or, or_false]
  cases hd : a.debugOnly with
  | none =>
    cases hl : a.ll with
    | none => simp only [List.not_mem_nil, false_or]
    | some f => simp only [List.mem_cons, List.not_mem_nil, false_or, L_inj, hn, hll f, or_false]
  | some m =>
    cases hl : a.ll with
    | none => simp only [List.mem_cons, List.not_mem_nil, false_or, L_inj, hn, hdo s m hs hd, or_false]
    | some f => simp only [List.mem_cons, List.not_mem_nil, false_or, L_inj, hn, hll f, hdo s m hs hd, or_false]

theorem readlines_line (l rest : Text) (h : '\n' ∉ l) : readlines (l ++ '\n' :: rest) = (l ++ ['\n']) :: readlines rest := by
  induction l with
  | nil => rfl
  | cons c l ih =>
    have hc : (c == '\n') = false := by
      rw [beq_eq_false_iff_ne]
      exact fun e => h (e ▸ List.mem_cons_self)
    have := ih fun hm => h (List.mem_cons_of_mem _ hm)
    unfold readlines at this ⊢
    rw [List.cons_append, List.foldr_cons, this]
    simp only [hc]
    rfl

theorem splitLast_end (c : Char) (x : Text) : splitLast c (x ++ [c]) = some (x, []) := by
  induction x with
  | nil => simp [splitLast]
  | cons a x ih =>
    rw [List.cons_append]
    unfold splitLast
    rw [ih]

theorem dropPrefix_append (p s : Text) : dropPrefix? p (p ++ s) = some s := by
  induction p with
  | nil => rfl
  | cons c p ih =>
    rw [List.cons_append]
    unfold dropPrefix?
    simp only [BEq.rfl, ↓reduceIte]
    exact ih

theorem dropPrefix_some (p s r : Text) (h : dropPrefix? p s = some r) : p <+: s := by
  induction p generalizing s with
  | nil => exact List.nil_prefix
  | cons c p ih =>
    cases s with
    | nil => cases h
    | cons d s =>
      unfold dropPrefix? at h
      split at h
      · rename_i e
        have : c = d := by simpa using e
        rw [this]
        exact List.cons_prefix_cons.2 ⟨rfl, ih s h⟩
      · cases h

end Smack.Run
