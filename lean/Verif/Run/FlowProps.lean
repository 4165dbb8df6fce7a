/-
C94: the Boogie file of a run is the translation of the whole program.

Full statement: for every list of input files the Boogie file that the verifier gets is the translation, with the options
of the command line, of all input files linked with SMACK's library. Proved for C, C++ and LLVM files. For Boogie files
it does not hold if the file exists already (`c94_boogie_fails`). Not covered: the other languages.
-/
import Verif.Run.FlowTail

namespace Smack.Run
open Smack.Driver

/-- The Boogie file after the run: each input file compiled in its language, its entry points kept, all of them linked,
then linked with SMACK's library, translated, annotated, the checks selected, and the result passed through
`--transform-bpl`. It does not depend on names of temporary files or on files that existed before, and it is not removed. -/
theorem c94_translation (w : World) (tool : List Sees → Text) (hp : Pure w tool) (hq : ∀ k, w.signal k = none) (hn : NewNames w)
    (a : Args) (hapart : Apart w a) (fs : Files) (hfin : Finite fs) (b : Path) (hb : a.bpl = some b)
    (hlang : ∀ t, a.language = some t → t ∈ frontendNames.map Prod.fst) (hne : a.inputs ≠ [])
    (hin : ∀ i ∈ a.inputs, fs i ≠ none ∧ language (ext i) ≠ none ∧ (langOf a i = some .c ∨ langOf a i = some .cxx ∨ langOf a i = some .llvm))
    (hlib : ∀ l ∈ libraries a, fs (w.lib l.2) ≠ none) (hll : a.ll ≠ some b) (hj : a.jsonFile ≠ some b) (he : a.errorFile ≠ some b)
    (hv : a.noVerify = true ∨ a.verifier ≠ .svcomp) (t : Text)
    (ht : a.transformBpl = none ∧ t = boogieText w tool { a with clangOptions := a.clangOptions ++ platform tool a fs } fs b ∨
      ∃ c, a.transformBpl = some c ∧ w.filter c (boogieText w tool { a with clangOptions := a.clangOptions ++ platform tool a fs } fs b) = some t) :
    (main w fs (.run a)).2.files b = some t := by
  have X : Ctx w tool (results a) := ⟨hp, hq, hn, hapart⟩
  have hbR : b ∈ results a := by simp [results, hb]
  have hbody : Post (body w { args := a, files := fs }) (fun _ s => s.files b = some t ∧ ¬Reg s b) (fun _ s => s.files b = some t ∧ ¬Reg s b) := by
    unfold body
    refine post_bind (post_weaken (post_mono (arguments_sure X { args := a, files := fs } hfin (fun x hx => by
      have hx : a.bc = some x := hx
      simp [results, hx]) (fun i hi => ⟨(hin i hi).1, (hin i hi).2.1⟩) b hb) fun _ _ h => h.elim) fun _ s1 ⟨g1, x, y, e1, hx⟩ => ?_)
    have hold1 : ∀ f, fs f ≠ none → s1.files f = fs f := g1.old
    refine post_bind (post_weaken (post_mono (target_sure X s1 (g1.finite hfin) fs hold1 (by rw [e1]; exact hne) (by
      rw [e1]; exact fun i hi => (hin i hi).1)) fun _ _ h => h.elim) fun _ s2 ⟨g2, e2⟩ => ?_)
    have hplat : platform tool s1.args fs = platform tool a fs := by rw [e1]; rfl
    have e3 : s2.args = { a with bc := some x, linked := some y, clangOptions := a.clangOptions ++ platform tool a fs } := by
      rw [e2, hplat, e1]
    have g12 := g1.trans g2
    have hreg : ¬Reg s2 b := g12.reg b hbR fun ⟨_, h, _⟩ => by cases h
    have ht' : (s2.args.transformBpl = none ∧ t = boogieText w tool s2.args fs b) ∨ ∃ c, s2.args.transformBpl = some c ∧ w.filter c (boogieText w tool s2.args fs b) = some t := by
      have h1 : boogieText w tool s2.args fs b = boogieText w tool { a with clangOptions := a.clangOptions ++ platform tool a fs } fs b := by
        rw [e3]
        exact congrFun (boogieText_names w tool { a with clangOptions := a.clangOptions ++ platform tool a fs } fs (some x) (some y)) b
      have h2 : s2.args.transformBpl = a.transformBpl := by rw [e3]
      rw [h1, h2]
      exact ht
    refine post_bind (post_weaken (post_mono (frontend_sure X s2 (g12.finite hfin) fs g12.old (by
      rw [e3]; exact fun i hi => ⟨(hin i hi).1, (hin i hi).2.2⟩) (by rw [e3]; exact hlib) b (by rw [e3]; exact hb) hbR hreg (by
      have : s2.args.bcFile = x := by rw [e3]; rfl
      rw [this]
      exact hx.imp_right fun h => by rw [g2.old x h]; exact h) (by rw [e3]; exact hll) t ht') fun _ _ h => h.elim) fun _ s3 ⟨e4, k1, k2⟩ => ?_)
    rw [e3] at e4
    exact end_still X s3 b t (by rw [e4]; exact hj) (by rw [e4]; exact he) (by rw [e4]; exact hv) k2 k1
  exact main_still w fs a hlang b t hbody

example (tool : List Sees → Text) : (main (ideal tool (results pair)) two (.run pair)).2.files "r.bpl".toList =
    some (boogieText (ideal tool (results pair)) tool pair two "r.bpl".toList) := by
  have hpl : platform tool pair two = [] := rfl
  refine c94_translation (ideal tool (results pair)) tool (ideal_pure _ _) (fun _ => rfl) (ideal_new _ _) pair (ideal_apart _ _) two two_finite "r.bpl".toList rfl
    (fun t h => by cases h) (by decide) (by decide) ?_ (by decide) (by decide) (by decide) (Or.inr (by decide)) _ (Or.inl ⟨rfl, by rw [hpl]; rfl⟩)
  show ∀ l ∈ libraries pair, two ("/lib/".toList ++ l.2.toList) ≠ none
  decide

/-! ### Options of the tools -/

/-- The translator gets the option of a mode iff the mode is asked for. -/
theorem c94_translator (w : World) (a : Args) (h : NoDash a) (m : String × Prop) (hm : m ∈ modes a) : L m.1 ∈ llvm2bpl w a ↔ m.2 := by
  simp only [modes, List.mem_cons, List.not_mem_nil, or_false] at hm
  rcases hm with rfl | rfl | rfl | rfl | rfl | rfl | rfl | rfl | rfl | rfl | rfl | rfl | rfl | rfl | rfl | rfl <;>
    (dsimp only; rw [translator_words w a h _ (by decide) (by decide) (by decide)]; simp [Options.llvm2bplFlags, Options.containsMemSafe, or_assoc])

/-- The library and the program are compiled for the modes of the translator: the same memory model, the same encoding of
integers, floating point and memory safety on the same conditions. -/
theorem c94_compiler (w : World) (a : Args) (lib : Bool) (m : String × Prop) (hm : m ∈ macros a lib) (hu : m.1.toList ∉ a.clangOptions) :
    L m.1 ∈ clangArgs w a lib ↔ m.2 := by
  have hI : ∀ s : String, (s.toList.drop 1).head? ≠ some 'I' → L s ≠ .lit ("-I".toList ++ w.headers) := by
    intro s hs e
    have : s.toList = "-I".toList ++ w.headers := Word.lit.inj e
    rw [this] at hs
    exact hs rfl
  have hT : ∀ s : String, ("-DSMACK_MAX_THREADS=".toList.isPrefixOf s.toList) = false → L s ∉ opt a.pthread [.lit ("-DSMACK_MAX_THREADS=".toList ++ num a.maxThreads)] := by
    intro s hs hm
    have : s.toList = "-DSMACK_MAX_THREADS=".toList ++ num a.maxThreads := by
      unfold opt at hm
      split at hm
      · exact Word.lit.inj (List.mem_singleton.1 hm)
      · cases hm
    rw [this, List.isPrefixOf_iff_prefix.2 (List.prefix_append _ _)] at hs
    cases hs
  have hmem : L m.1 ∉ a.clangOptions.map .lit := by
    intro h
    obtain ⟨o, ho, e⟩ := List.mem_map.1 h
    have : o = m.1.toList := Word.lit.inj e
    exact hu (this ▸ ho)
  have key : ∀ s : String, (s.toList.drop 1).head? ≠ some 'I' → ("-DSMACK_MAX_THREADS=".toList.isPrefixOf s.toList) = false → L s ∉ a.clangOptions.map .lit →
      (L s ∈ clangArgs w a lib ↔ s ∈ ["-c", "-emit-llvm", "-O0", "-g", "-gcolumn-info", "-Xclang", "-disable-O0-optnone"] ∨ L s = memModFlag a.memMod ∨
        s ∈ Options.clangFlags lib a.check ∨ (a.float = true ∧ s = "-DFLOAT_ENABLED") ∨ ((a.intEnc == .bitVector) = true ∧ s = "-DBIT_PRECISE") ∨ (w.tty = true ∧ s = "-fcolor-diagnostics")) := by
    intro s h1 h2 h3
    unfold clangArgs
    simp only [List.mem_append, List.mem_cons, List.not_mem_nil, or_false, mem_opt_L, mem_map_L, L_inj, hI s h1, h3, hT s h2, false_or, or_assoc]
  simp only [macros, List.mem_cons, List.not_mem_nil, or_false] at hm
  rcases hm with rfl | rfl | rfl | rfl | rfl | rfl | rfl | rfl | rfl | rfl | rfl | rfl | rfl | rfl <;>
    (dsimp only at hmem ⊢; rw [key _ (by decide) (by decide) hmem]; cases a.memMod <;> cases lib <;> simp [memModFlag, L_inj, Options.clangFlags, Options.containsMemSafe, or_assoc])

/-- The bound on the number of threads reaches the library. -/
theorem c94_threads (w : World) (a : Args) (lib : Bool) (h : a.pthread = true) :
    .lit ("-DSMACK_MAX_THREADS=".toList ++ num a.maxThreads) ∈ clangArgs w a lib := by
  unfold clangArgs opt
  rw [h]
  simp

example : NoDash { simple with intEnc := .bitVector } := by
  refine ⟨by decide, by decide, by decide, fun m h => by cases h⟩

/-- The options of llvm2bpl: no others than those above, those with a name of the user's, and the fixed ones. -/
theorem c94_translator_only (w : World) (a : Args) (h : NoDash a) (s : String) (hs : s.toList.head? = some '-') (hm : L s ∈ llvm2bpl w a) :
    s ∈ ["-bpl", "-warn-type", "-sea-dsa=ci", "-colored-warnings", "-source-loc-syms", "-entry-points", "-checked-functions", "-debug-only", "-ll"] ∨
    "-llvm-assumes=".toList <+: s.toList ∨ ∃ m ∈ modes a, m.1 = s ∧ m.2 := by
  by_cases h1 : s ∈ ["-bpl", "-warn-type", "-sea-dsa=ci", "-colored-warnings", "-source-loc-syms", "-entry-points", "-checked-functions", "-debug-only", "-ll"]
  · exact Or.inl h1
  · cases h2 : "-llvm-assumes=".toList.isPrefixOf s.toList with
    | true => exact Or.inr (Or.inl (List.isPrefixOf_iff_prefix.1 h2))
    | false =>
      refine Or.inr (Or.inr ?_)
      have hn : s ∉ ["llvm2bpl", "-bpl", "-warn-type", "-sea-dsa=ci", "-colored-warnings", "-source-loc-syms", "-entry-points", "-checked-functions", "-debug-only", "-ll"] := by
        intro hm
        rcases List.mem_cons.1 hm with e | e
        · rw [e] at hs; exact absurd hs (by decide)
        · exact h1 e
      have hin : ∃ m ∈ modes a, m.1 = s := by
        have := (translator_words w a h s hs hn h2).1 hm
        simp only [modes, List.mem_cons, List.not_mem_nil, or_false, exists_eq_or_imp, exists_eq_left]
        simp only [Options.llvm2bplFlags, List.mem_append] at this
        grind
      obtain ⟨m, hm1, rfl⟩ := hin
      exact ⟨m, hm1, rfl, (c94_translator w a h m hm1).1 hm⟩

/-! ### Boogie files -/

/-- A Boogie file goes after the contents of the file named for the result; so it is given to the verifier as it is if that
file does not exist (`old = []`). -/
theorem c94_boogie (w : World) (tool : List Sees → Text) (hp : Pure w tool) (hq : ∀ k, w.signal k = none) (hn : NewNames w) (a : Args) (hapart : Apart w a)
    (fs : Files) (hfin : Finite fs) (b i : Path) (src : Text) (hb : a.bpl = some b) (hl : a.language = none) (hi : a.inputs = [i])
    (he : ext i = "bpl".toList) (hs : fs i = some src) (hj : a.jsonFile ≠ some b) (hef : a.errorFile ≠ some b)
    (hv : a.noVerify = true ∨ a.verifier ≠ .svcomp) (old : Text) (hold : fs b = some old ∨ fs b = none ∧ old = []) (hne : i ≠ b) :
    (main w fs (.run a)).2.files b = some (old ++ src) := by
  have X : Ctx w tool (results a) := ⟨hp, hq, hn, hapart⟩
  have hbR : b ∈ results a := by simp [results, hb]
  refine main_still w fs a (fun t h => by rw [hl] at h; cases h) b _ ?_
  unfold body
  refine post_bind (post_weaken (post_mono (arguments_sure X { args := a, files := fs } hfin (fun x hx => by
    have hx : a.bc = some x := hx
    simp [results, hx]) (fun j hj => by
      have : j ∈ [i] := hi ▸ hj
      rw [List.mem_singleton.1 this]
      refine ⟨?_, ?_⟩
      · show fs i ≠ none
        rw [hs]; simp
      · rw [he]; decide) b hb) fun _ _ h => h.elim) fun _ s1 ⟨g1, x, y, e1, hx⟩ => ?_)
  refine post_bind (post_weaken (post_mono (target_sure X s1 (g1.finite hfin) fs g1.old (by rw [e1]; show a.inputs ≠ []; rw [hi]; simp) (by
    rw [e1]
    intro j hj
    have : j ∈ [i] := hi ▸ hj
    rw [List.mem_singleton.1 this, hs]; simp)) fun _ _ h => h.elim) fun _ s2 ⟨g2, e2⟩ => ?_)
  have g12 := g1.trans g2
  have hreg : ¬Reg s2 b := g12.reg b hbR fun ⟨_, h, _⟩ => by cases h
  have hfi : s2.files i = some src := (g12.old i (by show fs i ≠ none; rw [hs]; simp)).trans hs
  have hfb : (s2.files b).getD [] = old := by
    rw [g12.res b hbR]
    show (fs b).getD [] = old
    rcases hold with h | ⟨h, h'⟩
    · rw [h]; rfl
    · rw [h, h']; rfl
  have hargs : s2.args.inputs = [i] ∧ s2.args.language = none ∧ s2.args.bplFile = b ∧ s2.args.jsonFile = a.jsonFile ∧ s2.args.errorFile = a.errorFile ∧
      s2.args.noVerify = a.noVerify ∧ s2.args.verifier = a.verifier := by
    rw [e2, e1]
    refine ⟨hi, hl, ?_, rfl, rfl, rfl, rfl⟩
    show a.bpl.getD [] = b
    rw [hb]; rfl
  obtain ⟨a1, a2, a3, a4, a5, a6, a7⟩ := hargs
  have hfront : frontend w s2 = .ok () { s2 with files := (s2.files.set b (some old)).set b (some (old ++ src)) } := by
    have hlo : langOf s2.args i = some .boogie := by
      unfold langOf
      rw [a2]
      show language (ext i) = _
      rw [he]
      rfl
    have hbf : boogieFrontend i s2 = .ok () { s2 with files := (s2.files.set b (some old)).set b (some (old ++ src)) } := by
      unfold boogieFrontend
      have h1 : get s2 = .ok s2 s2 := rfl
      rw [bind_ok h1, if_neg (by rw [a1]; simp), a3, hfb]
      have h2 : write b old s2 = .ok () { s2 with files := s2.files.set b (some old) } := rfl
      rw [bind_ok h2]
      have h3 : read i { s2 with files := s2.files.set b (some old) } = .ok src { s2 with files := s2.files.set b (some old) } := by
        unfold read
        show (match s2.files.set b (some old) i with | some t => Res.ok t _ | none => _) = _
        have : s2.files.set b (some old) i = some src := (if_neg hne).trans hfi
        rw [this]
      rw [bind_ok h3]
      have h4 : get { s2 with files := s2.files.set b (some old) } = .ok { s2 with files := s2.files.set b (some old) } { s2 with files := s2.files.set b (some old) } := rfl
      rw [bind_ok h4]
      show write s2.args.bplFile ((s2.files.set b (some old) s2.args.bplFile).getD [] ++ src) _ = _
      rw [a3]
      have : s2.files.set b (some old) b = some old := if_pos rfl
      rw [this]
      rfl
    unfold frontend
    have h1 : get s2 = .ok s2 s2 := rfl
    rw [bind_ok h1, a1]
    have h2 : frontend1 w s2.args i s2 = .ok (.boogie, none) { s2 with files := (s2.files.set b (some old)).set b (some (old ++ src)) } := by
      unfold frontend1
      rw [hlo]
      have : runFrontend w .boogie i s2 = .ok none { s2 with files := (s2.files.set b (some old)).set b (some (old ++ src)) } := by
        unfold runFrontend
        rw [bind_ok h1]
        show (boogieFrontend i >>= fun _ => pure none : M (Option Path)) s2 = _
        rw [bind_ok hbf]
        rfl
      dsimp only
      rw [bind_ok this]
      rfl
    have h3 : forEach (frontend1 w s2.args) [i] s2 = .ok [(.boogie, none)] { s2 with files := (s2.files.set b (some old)).set b (some (old ++ src)) } := by
      unfold forEach
      rw [bind_ok h2]
      rfl
    rw [bind_ok h3]
    rfl
  refine post_bind ?_
  rw [hfront]
  refine end_still X _ b (old ++ src) ?_ ?_ ?_ ?_ ?_
  · show s2.args.jsonFile ≠ _
    rw [a4]; exact hj
  · show s2.args.errorFile ≠ _
    rw [a5]; exact hef
  · show s2.args.noVerify = true ∨ s2.args.verifier ≠ _
    rw [a6, a7]; exact hv
  · exact if_pos rfl
  · exact hreg

/-- So if the file exists, the verifier gets another program than the user's: the text goes after the old contents. -/
theorem c94_boogie_fails : ∃ w tool a fs b i src, Pure w tool ∧ (∀ k, w.signal k = none) ∧ NewNames w ∧ Apart w a ∧ Finite fs ∧ a.inputs = [i] ∧
    a.bpl = some b ∧ fs i = some src ∧ (main w fs (.run a)).2.files b ≠ some src := by
  have hfin : Finite (fun f : Path => if f = "p.bpl".toList then some "assert true;".toList else if f = "q.bpl".toList then some "assert false;".toList else none) := by
    refine ⟨["p.bpl".toList, "q.bpl".toList], fun f h => ?_⟩
    by_cases e : f = "p.bpl".toList
    · rw [e]; simp
    · by_cases e' : f = "q.bpl".toList
      · rw [e']; simp
      · exact absurd ((if_neg e).trans (if_neg e')) h
  refine ⟨ideal (fun _ => []) (results { inputs := ["p.bpl".toList], bpl := some "q.bpl".toList }), fun _ => [], { inputs := ["p.bpl".toList], bpl := some "q.bpl".toList }, _, "q.bpl".toList,
    "p.bpl".toList, "assert true;".toList, ideal_pure _ _, fun _ => rfl, ideal_new _ _, ideal_apart _ _, hfin, rfl, rfl, by decide, ?_⟩
  rw [c94_boogie (ideal (fun _ => []) (results { inputs := ["p.bpl".toList], bpl := some "q.bpl".toList })) (fun _ => []) (ideal_pure _ _) (fun _ => rfl) (ideal_new _ _)
    { inputs := ["p.bpl".toList], bpl := some "q.bpl".toList } (ideal_apart _ _) _ hfin "q.bpl".toList "p.bpl".toList "assert true;".toList rfl rfl rfl (by decide) (by decide)
    (by decide) (by decide) (Or.inr (by decide)) "assert false;".toList (Or.inl (by decide)) (by decide)]
  decide

/-! ### What is printed -/

/-- After a verdict: the trace is printed iff the verdict is an error and `--quiet` is not given, then the message; the
error file gets the trace of an error, the JSON file the verdict, and no other file is written. -/
theorem c94_report (w : World) (a : Args) (r : VRes) (out : Text) (s : St) (hje : ∀ f, a.jsonFile = some f → a.errorFile ≠ some f) :
    ∃ s', report w a r out s = .ok () s' ∧
      s'.said = s.said ++ (if r ∉ [VRes.verified, .timeout, .unknown] ∧ a.quiet = false then [w.trace out] else []) ++ [r.message (bound a)] ∧
      (∀ f, a.jsonFile = some f → s'.files f = some (w.json r out)) ∧
      (∀ f, a.errorFile = some f → s'.files f = if r ∉ [VRes.verified, .timeout, .unknown] then some (w.trace out) else s.files f) ∧
      (∀ f, a.jsonFile ≠ some f → a.errorFile ≠ some f → s'.files f = s.files f) ∧ s'.temps = s.temps ∧ s'.args = s.args := by
  have hr : r.isError = decide (r ∉ [VRes.verified, .timeout, .unknown]) := by cases r <;> rfl
  have hset : ∀ (fs : Files) (p f : Path) (t : Text), fs.set p (some t) f = if f = p then some t else fs f := fun _ _ _ _ => rfl
  have hrep : report w a r out s = .ok () { s with
      files := (if r.isError then fun fs => (match a.errorFile with | some f => Files.set fs f (some (w.trace out)) | none => fs) else fun fs => fs)
        (match a.jsonFile with | some f => Files.set s.files f (some (w.json r out)) | none => s.files)
      said := s.said ++ (if r.isError && !a.quiet then [w.trace out] else []) ++ [r.message (bound a)] } := by
    unfold report
    cases a.jsonFile <;> cases a.errorFile <;> cases a.quiet <;> cases r.isError <;>
      first
      | rfl
      | (simp only [Bool.false_and, Bool.true_and, Bool.not_false, Bool.not_true, Bool.false_eq_true, ↓reduceIte, List.append_nil]; rfl)
  refine ⟨_, hrep, ?_, fun f hf => ?_, fun f hf => ?_, fun f h1 h2 => ?_, rfl, rfl⟩
  · show s.said ++ _ ++ _ = _
    rw [hr]
    cases a.quiet <;> simp
  · have h2 := hje f hf
    dsimp only
    rw [hf]
    cases he : a.errorFile with
    | none => cases r.isError <;> simp [hset]
    | some g =>
      have : f ≠ g := fun e => h2 (e ▸ he)
      cases r.isError <;> simp [hset, this]
  · have h2 : a.jsonFile ≠ some f := fun h => hje f h hf
    dsimp only
    rw [hf]
    cases hj : a.jsonFile with
    | none => cases r <;> simp [hset, VRes.isError]
    | some g =>
      have : f ≠ g := fun e => h2 (e ▸ hj)
      cases r <;> simp [hset, this, VRes.isError]
  · dsimp only
    cases hj : a.jsonFile with
    | none =>
      cases he : a.errorFile with
      | none => cases r.isError <;> rfl
      | some g =>
        have : f ≠ g := fun e => h2 (e ▸ he)
        cases r.isError <;> simp [hset, this]
    | some g =>
      have h3 : f ≠ g := fun e => h1 (e ▸ hj)
      cases he : a.errorFile with
      | none => cases r.isError <;> simp [hset, h3]
      | some k =>
        have : f ≠ k := fun e => h2 (e ▸ he)
        cases r.isError <;> simp [hset, this, h3]

/-! ### The target platform -/

/-- The platform of an LLVM file in text form is found in the first line that names one. -/
theorem c94_platform (ls : List Text) (hls : ∀ l ∈ ls, '\n' ∉ l ∧ ¬"target triple = \"".toList <+: l) (x rest : Text) (hx : '\n' ∉ x) :
    (readlines ((ls.flatMap fun l => l ++ ['\n']) ++ ("target triple = \"".toList ++ x ++ ['"', '\n']) ++ rest)).findSome? triple = some x := by
  induction ls with
  | nil =>
    have e : ([] : List Text).flatMap (fun l => l ++ ['\n']) ++ ("target triple = \"".toList ++ x ++ ['"', '\n']) ++ rest =
        ("target triple = \"".toList ++ x ++ ['"']) ++ '\n' :: rest := by simp
    have hn : '\n' ∉ "target triple = \"".toList ++ x ++ ['"'] := by
      simp only [List.mem_append, not_or]
      exact ⟨⟨by decide, hx⟩, by decide⟩
    rw [e, readlines_line _ _ hn, List.findSome?_cons]
    have : triple ("target triple = \"".toList ++ x ++ ['"'] ++ ['\n']) = some x := by
      unfold triple
      rw [List.append_assoc, List.append_assoc, dropPrefix_append]
      have htw : (x ++ (['"'] ++ ['\n'])).takeWhile (· != '\n') = x ++ ['"'] := by
        rw [← List.append_assoc, List.takeWhile_append_of_pos]
        · simp
        · intro c hc
          rw [bne_iff_ne]
          intro e
          rcases List.mem_append.1 hc with h | h
          · exact hx (e ▸ h)
          · rw [List.mem_singleton.1 h] at e; exact absurd e (by decide)
      dsimp only
      rw [htw, splitLast_end]
      rfl
    rw [this]
  | cons l ls ih =>
    obtain ⟨h1, h2⟩ := hls l List.mem_cons_self
    rw [List.flatMap_cons, List.append_assoc, List.append_assoc, List.append_assoc, List.singleton_append, readlines_line _ _ h1, List.findSome?_cons]
    have : triple (l ++ ['\n']) = none := by
      unfold triple
      cases hd : dropPrefix? "target triple = \"".toList (l ++ ['\n']) with
      | none => rfl
      | some r =>
        obtain ⟨u, hu⟩ := dropPrefix_some _ _ _ hd
        refine absurd ?_ h2
        have hlen : 17 ≤ l.length := by
          have := congrArg List.length hu
          rw [List.length_append, List.length_append] at this
          by_cases hz : u = []
          · exfalso
            rw [hz, List.append_nil] at hu
            have := congrArg (fun t => List.getLast? t) hu
            simp at this
          · have : 0 < u.length := List.length_pos_iff.2 hz
            have h17 : "target triple = \"".toList.length = 17 := by decide
            have h1' : ['\n'].length = 1 := rfl
            omega
        have h17 : "target triple = \"".toList.length = 17 := by decide
        rw [List.prefix_iff_eq_take, h17]
        have := congrArg (List.take 17) hu
        rw [List.take_append_of_le_length hlen, ← h17, List.take_left' rfl] at this
        rw [← h17]
        exact this
    rw [this]
    rw [← List.append_assoc]
    exact ih fun m hm => hls m (List.mem_cons_of_mem _ hm)

/-- A file made by LLVM. -/
example : (readlines "; ModuleID\ntarget triple = \"x86_64-linux\"\n\ndefine\n".toList).findSome? triple = some "x86_64-linux".toList :=
  c94_platform ["; ModuleID".toList] (by decide) "x86_64-linux".toList "\ndefine\n".toList (by decide)

/-! ### Names and bounds of the user's -/

/-- Every entry point and every checked function is given to the translator. -/
theorem c94_names (w : World) (a : Args) :
    (∀ e ∈ a.entryPoints, [L "-entry-points", .lit e] <:+: llvm2bpl w a) ∧ ∀ e ∈ a.checked, [L "-checked-functions", .lit e] <:+: llvm2bpl w a := by
  have key : ∀ (o : String) (l : List Text), ∀ e ∈ l, [L o, .lit e] <:+: l.flatMap fun e => [L o, .lit e] := by
    intro o l e he
    obtain ⟨u, v, rfl⟩ := List.append_of_mem he
    rw [List.flatMap_append, List.flatMap_cons]
    exact ⟨u.flatMap fun e => [L o, .lit e], v.flatMap fun e => [L o, .lit e], by rw [List.append_assoc]⟩
  have grow : ∀ {x y z : List Word} (u : List Word), x <:+: y → y ++ u = z → x <:+: z := fun u h e => e ▸ h.trans (List.prefix_append _ u).isInfix
  unfold llvm2bpl
  refine ⟨fun e he => ?_, fun e he => ?_⟩
  · have h1 := (key "-entry-points" a.entryPoints e he)
    simp only [List.append_assoc]
    exact (((h1.trans (List.prefix_append _ _).isInfix).trans (List.suffix_append _ _).isInfix).trans (List.suffix_append _ _).isInfix).trans (List.suffix_append _ _).isInfix
  · have h1 := (key "-checked-functions" a.checked e he)
    simp only [List.append_assoc]
    exact ((((h1.trans (List.prefix_append _ _).isInfix).trans (List.suffix_append _ _).isInfix).trans (List.suffix_append _ _).isInfix).trans (List.suffix_append _ _).isInfix).trans
      (List.suffix_append _ _).isInfix

/-- The verifier asked for gets the Boogie file, the bounds asked for and the options of the user's. -/
theorem c94_bounds (a : Args) : .inp a.bplFile ∈ verifierCommand a ∧ (∃ t, (bounds a).head? = some t ∧ (verifierCommand a).head? = some (.lit t)) ∧
    (∀ t ∈ bounds a, .lit t ∈ verifierCommand a) ∧ ∀ o ∈ a.verifierOptions, .lit o ∈ verifierCommand a := by
  refine ⟨?_, ?_, ?_, ?_⟩
  · unfold verifierCommand
    cases a.verifier <;> cases a.modular <;> simp
  · unfold verifierCommand bounds
    cases a.verifier <;> cases a.modular <;> exact ⟨_, rfl, rfl⟩
  · intro t ht
    have hB : ∀ t ∈ boogieBounds a, (a.verifier == .boogie || a.modular) = true → .lit t ∈ verifierCommand a := by
      intro t ht h
      unfold verifierCommand
      rw [if_pos h]
      refine List.mem_append_left _ (List.mem_append_left _ ?_)
      unfold boogieBounds at ht
      rcases List.mem_append.1 ht with ht | ht
      · refine List.mem_append_left _ ?_
        simp only [List.mem_cons, List.not_mem_nil, or_false] at ht
        rcases ht with rfl | rfl | rfl
        · exact List.mem_cons_self
        · exact List.mem_cons_of_mem _ (List.mem_cons_of_mem _ (List.mem_cons_of_mem _ (List.mem_cons_of_mem _ List.mem_cons_self)))
        · exact List.mem_cons_of_mem _ (List.mem_cons_of_mem _ (List.mem_cons_of_mem _ (List.mem_cons_of_mem _ (List.mem_cons_of_mem _ List.mem_cons_self))))
      · refine List.mem_append_right _ ?_
        unfold opt
        cases hm : a.modular <;> rw [hm] at ht
        · rw [List.mem_singleton.1 ht]; exact List.mem_cons_self
        · cases ht
    unfold bounds at ht
    cases hm : a.modular with
    | true =>
      refine hB t ?_ (by rw [hm, Bool.or_true])
      rw [hm] at ht
      cases hv : a.verifier <;> rw [hv] at ht <;> exact ht
    | false =>
      rw [hm] at ht
      cases hv : a.verifier <;> rw [hv] at ht
      · exact hB t ht (by rw [hv]; rfl)
      · unfold verifierCommand
        rw [hv, hm, if_neg (by decide), if_pos (by decide)]
        refine List.mem_append_left _ (List.mem_append_left _ ?_)
        simp only [Bool.false_eq_true, ↓reduceIte, List.mem_cons, List.not_mem_nil, or_false] at ht
        have hw : ∀ (n : Nat) (l : List Word) (x : Word), l[n]? = some x → x ∈ l := fun n l x h => List.mem_of_getElem? h
        rcases ht with rfl | rfl | rfl | rfl | rfl | rfl
        · exact hw 0 _ _ rfl
        · exact hw 10 _ _ rfl
        · exact hw 9 _ _ rfl
        · exact hw 5 _ _ rfl
        · exact hw 7 _ _ rfl
        · exact hw 8 _ _ rfl
      all_goals
        unfold verifierCommand
        rw [hv, hm, if_neg (by decide), if_neg (by decide)]
        refine List.mem_append_left _ ?_
        simp only [Bool.false_eq_true, ↓reduceIte, List.mem_cons, List.not_mem_nil, or_false] at ht
        have hw : ∀ (n : Nat) (l : List Word) (x : Word), l[n]? = some x → x ∈ l := fun n l x h => List.mem_of_getElem? h
        rcases ht with rfl | rfl | rfl | rfl
        · exact hw 0 _ _ rfl
        · exact hw 5 _ _ rfl
        · exact hw 4 _ _ rfl
        · exact hw 3 _ _ rfl
  · intro o ho
    unfold verifierCommand
    exact List.mem_append_right _ (List.mem_map_of_mem ho)

/-- The solver asked for is the one that Boogie and Corral use. -/
theorem c94_solver (a : Args) (n : String) (hn : solverName a.solver = some n) :
    (a.verifier = .boogie ∨ a.modular = true → L ("/proverOpt:" ++ n) ∈ verifierCommand a) ∧
    (a.verifier = .corral ∧ a.modular = false → L ("/bopt:proverOpt:" ++ n) ∈ verifierCommand a) := by
  have hs : ∀ pre, L (pre ++ n) ∈ solverArgs pre a.solver := by
    intro pre
    cases h : a.solver with
    | z3 => rw [h] at hn; cases hn
    | cvc4 => rw [h] at hn; cases hn; exact List.mem_singleton.2 rfl
    | yices2 => rw [h] at hn; cases hn; exact List.mem_singleton.2 rfl
  refine ⟨fun h => ?_, fun ⟨h, h'⟩ => ?_⟩
  · unfold verifierCommand
    rw [if_pos (by rcases h with h | h <;> rw [h] <;> simp)]
    exact List.mem_append_left _ (List.mem_append_right _ (hs _))
  · unfold verifierCommand
    rw [h, h', if_neg (by decide), if_pos (by decide)]
    exact List.mem_append_left _ (List.mem_append_right _ (hs _))

/-- Symbooglix is started without regard to the solver asked for. -/
theorem c94_solver_fails (a : Args) (h : a.verifier = .symbooglix) (hm : a.modular = false) (x : Solver) :
    verifierCommand { a with solver := x } = verifierCommand a := by
  unfold verifierCommand
  dsimp only
  rw [h, hm]
  rfl

end Smack.Run
