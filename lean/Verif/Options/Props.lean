import Verif.Options.Lemmas

/-
C82: from `--check` to the checks in the verified file. C83: annotation of the procedures.
-/

namespace Smack.Options

open Smack.Driver

/-! ### C82 -/

/-- The command line is accepted exactly if every argument is a known word; then the set of properties is what the
user asked for, and the assertions if nothing was asked for. The group names are known up to Python 3.10 only. -/
theorem c82_parse (py311 : Bool) (occs : List (List (List Char))) :
    ((∃ check, parseCheck py311 occs = some check) ↔ ∀ o ∈ occs, ∀ v ∈ o, Known (!py311) v) ∧
    ∀ check, parseCheck py311 occs = some check → ∀ p, check p = true ↔ Requested occs p := by
  refine ⟨⟨?_, ?_⟩, fun check h => (parse_spec py311 occs check h).2⟩
  · rintro ⟨check, h⟩
    exact (parse_spec py311 occs check h).1
  · intro h
    obtain ⟨c, hc⟩ := foldOccs_total py311 occs (fun _ => false) h
    refine ⟨defaulted c, ?_⟩
    rw [parseCheck, Option.map_eq_some_iff]
    exact ⟨c, hc, rfl⟩

example : (parseCheck false [["Valid-Deref".toList], ["RUST_PANICS".toList, "valid-free".toList]]).map
    (fun c => [Prp.assertions, .validDeref, .validFree, .memleak, .integerOverflow, .rustPanics].map c) =
    some [false, true, true, false, false, true] := by decide

example : (parseCheck false []).map
    (fun c => [Prp.assertions, .validDeref, .validFree, .memleak, .integerOverflow, .rustPanics].map c) =
    some [true, false, false, false, false, false] := by decide

/-- With Python 3.11 or later the documented argument `memory-safety` is rejected, whatever else is given. -/
theorem c82_group_rejected_fails (occs : List (List (List Char))) (o : List (List Char)) (ho : o ∈ occs)
    (v : List Char) (hv : v ∈ o) (hs : Spells v "memory-safety") : parseCheck true occs = none := by
  cases h : parseCheck true occs with
  | none => rfl
  | some check =>
    rcases (parse_spec true occs check h).1 o ho v hv with ⟨p, hp⟩ | ⟨hg, _⟩
    · have := word_inj .memorySafety (.single p) v hs hp
      cases this
    · cases hg

example : parseCheck true [["memory-safety".toList]] = none := by decide

/-- The file is made line by line. -/
theorem c82_lines (py311 : Bool) (occs : List (List (List Char))) (a b : List Item) (fa fb : List (List Char))
    (ha : fileFor py311 occs a = some fa) (hb : fileFor py311 occs b = some fb) :
    fileFor py311 occs (a ++ b) = some (fa ++ fb) := by
  rw [fileFor, Option.map_eq_some_iff] at ha hb ⊢
  obtain ⟨c, hc, rfl⟩ := ha
  obtain ⟨c', hc', rfl⟩ := hb
  rw [hc] at hc'; cases hc'
  refine ⟨c, hc, ?_⟩
  rw [translated, List.filterMap_append, (c48_selection_lines c _ _).1]
  rfl

theorem file_check (py311 : Bool) (occs : List (List (List Char))) (check : Check)
    (h : parseCheck py311 occs = some check) (p : Prp) (l : List Char) :
    fileFor py311 occs [.check p l] = some (selection check
      (if produced (clangFlags false check) (clangFlags true check) (llvm2bplFlags check) p then [l] else [])) := by
  rw [fileFor, h]
  simp only [Option.map_some, translated, List.filterMap_cons, List.filterMap_nil]
  cases produced (clangFlags false check) (clangFlags true check) (llvm2bplFlags check) p <;> rfl

/-- Requested checks are in the file: for a memory-safety property, or if all or none of the memory-safety
properties are requested. Missing: the other requests, where `c82_mixed_fails` shows the opposite. -/
theorem c82_requested_partial (py311 : Bool) (occs : List (List (List Char)))
    (hk : ∀ o ∈ occs, ∀ v ∈ o, Known (!py311) v) (p : Prp) (hp : Requested occs p) (l : AssertLine) (hw : l.Wf)
    (hb : l.belongs p)
    (hu : OfMemory p ∨ (∀ q, OfMemory q → ¬Requested occs q) ∨ ∀ q, OfMemory q → Requested occs q) :
    fileFor py311 occs [.check p l.text] = some [l.text] := by
  obtain ⟨check, hc⟩ := (c82_parse py311 occs).1.2 hk
  have hr := (c82_parse py311 occs).2 check hc
  rw [file_check py311 occs check hc]
  have hprod : produced (clangFlags false check) (clangFlags true check) (llvm2bplFlags check) p = true := by
    rw [produced_iff]
    by_cases hm : OfMemory p
    · exact Or.inl ⟨hm, p, hm, (hr p).2 hp⟩
    · exact Or.inr ⟨hm, (hr p).2 hp⟩
  rw [hprod, if_pos rfl, c48_requested_kept_partial check p ((hr p).2 hp) l hw hb]
  rcases hu with h | h | h
  · exact Or.inl ((mem_ofMemory p).2 h)
  · refine Or.inr (Or.inl fun q hq => ?_)
    cases hcq : check q with
    | false => rfl
    | true => exact absurd ((hr q).1 hcq) (h q ((mem_ofMemory q).1 hq))
  · exact Or.inr (Or.inr fun q hq => (hr q).2 (h q ((mem_ofMemory q).1 hq)))

example : fileFor false [["assertions".toList, "memory-safety".toList]] [.check .assertions (exLine none).text] =
    some ["  assert $i1 != 0;\n".toList] := by decide

/-- Checks that are not requested are off: the assertion is not there, or its condition is `true`. -/
theorem c82_unrequested_off (py311 : Bool) (occs : List (List (List Char)))
    (hk : ∀ o ∈ occs, ∀ v ∈ o, Known (!py311) v) (p : Prp) (hp : ¬Requested occs p) (l : AssertLine) (hw : l.Wf)
    (hb : l.belongs p) :
    fileFor py311 occs [.check p l.text] = some [] ∨ fileFor py311 occs [.check p l.text] = some [l.disabled.text] := by
  obtain ⟨check, hc⟩ := (c82_parse py311 occs).1.2 hk
  have hr := (c82_parse py311 occs).2 check hc
  rw [file_check py311 occs check hc]
  cases hprod : produced (clangFlags false check) (clangFlags true check) (llvm2bplFlags check) p with
  | false =>
    refine Or.inl ?_
    rw [if_neg (by decide), selection]
    cases hasMemorySafety check <;> rfl
  | true =>
    refine Or.inr ?_
    rw [produced_iff] at hprod
    rcases hprod with ⟨hm, q, hq, hcq⟩ | ⟨_, h⟩
    · have hcp : check p = false := by
        cases h : check p with
        | false => rfl
        | true => exact absurd ((hr p).1 h) hp
      rw [if_pos rfl, c48_unrequested_disabled check p q ((mem_ofMemory p).2 hm) hcp ((mem_ofMemory q).2 hq) hcq l hw hb]
    · exact absurd ((hr p).1 h) hp

example : fileFor false [["valid-deref".toList]] [.check .validFree (exLine (some "valid_free".toList)).text,
    .check .rustPanics (exLine (some "rust_panic".toList)).text] = some ["  assert true;\n".toList] := by decide

/-- Lines that are no checks stay as they are. -/
theorem c82_other_lines (py311 : Bool) (occs : List (List (List Char)))
    (hk : ∀ o ∈ occs, ∀ v ∈ o, Known (!py311) v) (line : List Char)
    (h : ∀ w r, (∀ c ∈ w, Blank c) → line ≠ w ++ ("assert".toList ++ r)) : fileFor py311 occs [.other line] = some [line] := by
  obtain ⟨check, hc⟩ := (c82_parse py311 occs).1.2 hk
  rw [fileFor, hc]
  simp only [Option.map_some, translated, List.filterMap_cons, List.filterMap_nil]
  rw [c48_other_lines_kept check line h]

/-- A property that is no memory-safety property, requested together with one or two of these: its checks are switched
off although it is requested. -/
theorem c82_mixed_fails (py311 : Bool) (occs : List (List (List Char)))
    (hk : ∀ o ∈ occs, ∀ v ∈ o, Known (!py311) v) (p q q' : Prp) (hp : Requested occs p) (hpm : ¬OfMemory p)
    (hq : OfMemory q) (hrq : Requested occs q) (hq' : OfMemory q') (hrq' : ¬Requested occs q')
    (l : AssertLine) (hw : l.Wf) (hb : l.belongs p) :
    fileFor py311 occs [.check p l.text] = some [l.disabled.text] := by
  obtain ⟨check, hc⟩ := (c82_parse py311 occs).1.2 hk
  have hr := (c82_parse py311 occs).2 check hc
  rw [file_check py311 occs check hc]
  have hprod : produced (clangFlags false check) (clangFlags true check) (llvm2bplFlags check) p = true := by
    rw [produced_iff]
    exact Or.inr ⟨hpm, (hr p).2 hp⟩
  have hcq' : check q' = false := by
    cases h : check q' with
    | false => rfl
    | true => exact absurd ((hr q').1 h) hrq'
  rw [hprod, if_pos rfl, c48_mixed_fails check p ((hr p).2 hp) (fun h => hpm ((mem_ofMemory p).1 h)) q
    ((mem_ofMemory q).2 hq) ((hr q).2 hrq) q' ((mem_ofMemory q').2 hq') hcq' l hw hb]

example : fileFor false [["assertions".toList, "valid-deref".toList]] [.check .assertions (exLine none).text] =
    some ["  assert true;\n".toList] := by decide

/-! ### C82 in competition mode -/

/-- A task that asks for unreachability of the error function: a failing assertion is put before each call, and
nothing else changes. -/
theorem c82_svcomp_reach (prop : List Char) (h1 : ¬Occurs "valid-deref".toList prop)
    (h2 : ¬Occurs "valid-memcleanup".toList prop) (h3 : ¬Occurs "overflow".toList prop)
    (h4 : Occurs "reach_error".toList prop) (check check' : Check)
    (hc : check .memleak = false ∧ check .integerOverflow = false) (h : svcompCheck prop check = some check')
    (ls : List CLn) (hw : ∀ l ∈ ls, l.Wf) :
    svcompText check' (fileText (ls.map CLn.text)) = fileText (ls.map CLn.failing) := by
  have e : ∀ s : List Char, ¬Occurs s prop → hasSub s prop = false := by
    intro s hs
    cases hh : hasSub s prop with
    | false => rfl
    | true => exact absurd ((hasSub_iff s prop).1 hh) hs
  rw [svcompCheck, e _ h1, e _ h2, e _ h3, (hasSub_iff _ prop).2 h4] at h
  cases h
  rw [svcompText, hc.1, hc.2]
  have : hasMemorySafety check = false := by
    rw [hasMemorySafety, List.all_eq_false]
    exact ⟨.memleak, by decide, by simp [hc.1]⟩
  rw [this]
  exact inject_lines ls hw

/-- For overflow and memory cleanup tasks the file is verified as it is. -/
theorem c82_svcomp_other (prop text : List Char) (check check' : Check) (h1 : ¬Occurs "valid-deref".toList prop)
    (h2 : Occurs "valid-memcleanup".toList prop ∨ Occurs "overflow".toList prop)
    (h : svcompCheck prop check = some check') : svcompText check' text = text := by
  have e1 : hasSub "valid-deref".toList prop = false := by
    cases hh : hasSub "valid-deref".toList prop with
    | false => rfl
    | true => exact absurd ((hasSub_iff _ prop).1 hh) h1
  rw [svcompCheck, e1] at h
  cases h3 : hasSub "valid-memcleanup".toList prop with
  | true =>
    rw [h3] at h; cases h
    simp [svcompText]
  | false =>
    rw [h3] at h
    rcases h2 with h2 | h2
    · rw [(hasSub_iff _ prop).2 h2] at h3; cases h3
    · rw [(hasSub_iff _ prop).2 h2] at h; cases h
      simp [svcompText]

/-- For memory-safety tasks the file should be verified as it is, too. But only dereferences are selected, the test
asks for all memory-safety properties, and so every call of the error function becomes a failing assertion. -/
theorem c82_svcomp_deref_fails (prop : List Char) (check check' : Check) (h1 : Occurs "valid-deref".toList prop)
    (h : svcompCheck prop check = some check') (ls : List CLn) (hw : ∀ l ∈ ls, l.Wf) :
    svcompText check' (fileText (ls.map CLn.text)) = fileText (ls.map CLn.failing) := by
  rw [svcompCheck, (hasSub_iff _ prop).2 h1] at h
  cases h
  rw [svcompText]
  exact inject_lines ls hw

example : ∀ l ∈ [CLn.other "procedure main()".toList, .error "  ".toList " // here".toList], l.Wf := by
  intro l hl
  simp only [List.mem_cons, List.not_mem_nil, or_false] at hl
  rcases hl with rfl | rfl
  · exact free_of (by decide +kernel)
  · exact ⟨fun c hc => (isWs_iff c).1 (by revert c; decide), free_of (by decide +kernel)⟩

example : svcompText (fun p => p == .validDeref) "  call reach_error();\n".toList =
    "  assert false; call reach_error();\n".toList := by decide

/-! ### C83 -/

/-- The head of a procedure after the annotation, on its own line. -/
def headWith (attr : String) (name rest : List Char) : List Char :=
  "procedure ".toList ++ attr.toList ++ " ".toList ++ name ++ "(".toList ++ rest

/-- Every procedure without attributes gets the attribute that belongs to its name; procedures with attributes and
all other text stay as they are. -/
theorem c83_lines (o : AOpts) (ls : List Ln) (hw : ∀ l ∈ ls, l.Wf) :
    annotateBpl o (fileText (ls.map Ln.text)) = fileText (ls.map (Ln.annotated (procedureAnnotation o))) :=
  annotate_lines _ ls hw

/-- Lines of the shape the theorems ask for. -/
example : ∀ l ∈ [Ln.other "  call my_main(x);".toList, .proc [] "main".toList ")".toList,
    .proc ["inline 1".toList] "$f".toList "x: int);".toList], l.Wf := by
  have hn : ∀ s : List Char, s.all (fun c => !isWs c && c != '(') = true → ∀ c ∈ s, ¬Blank c ∧ c ≠ '(' := by
    intro s h c hc
    have := List.all_eq_true.1 h c hc
    rw [Bool.and_eq_true, Bool.not_eq_true'] at this
    exact ⟨(isWs_false_iff c).1 this.1, by simpa using this.2⟩
  intro l hl
  simp only [List.mem_cons, List.not_mem_nil, or_false] at hl
  rcases hl with rfl | rfl | rfl
  · exact noDecl_of (by decide +kernel)
  · exact ⟨by simp, by decide, hn _ (by decide), noDecl_of (by decide +kernel)⟩
  · exact ⟨by intro a ha; simp only [List.mem_singleton] at ha; subst ha; decide, by decide, hn _ (by decide),
      noDecl_of (by decide +kernel)⟩

example : annotateBpl ⟨["main".toList], false, true, "2".toList⟩
    "procedure main()\n{ call my_procedure(x); }\nprocedure f(x: int);\nprocedure {:inline 1} g(x: int);\n".toList =
    "procedure {:entrypoint} main()\n{ call my_procedure(x); }\nprocedure {:inline 2} f(x: int);\nprocedure {:inline 1} g(x: int);\n".toList := by
  decide +kernel

theorem annotate_one (o : AOpts) (name rest : List Char) (hw : (Ln.proc [] name rest).Wf) :
    annotateBpl o (fileText [(Ln.proc [] name rest).text]) = fileText
      ["procedure ".toList ++ procedureAnnotation o name ++ " ".toList ++ name ++ "(".toList ++ rest] := by
  have := c83_lines o [.proc [] name rest] (by simpa using hw)
  rw [List.map_singleton, List.map_singleton] at this
  exact this

/-- Entry points are marked. -/
theorem c83_entry (o : AOpts) (name rest : List Char) (h : name ∈ o.entryPoints) (hw : (Ln.proc [] name rest).Wf) :
    annotateBpl o (fileText [(Ln.proc [] name rest).text]) = fileText [headWith "{:entrypoint}" name rest] := by
  have := annotate_one o name rest hw
  rw [this, procedureAnnotation, if_pos (by simpa using h)]
  rfl

/-- With Boogie and without modular verification every other procedure is inlined up to the bound. -/
theorem c83_bound (o : AOpts) (name rest : List Char) (h : name ∉ o.entryPoints) (hm : o.modular = false)
    (hb : o.boogie = true) (hw : (Ln.proc [] name rest).Wf) :
    annotateBpl o (fileText [(Ln.proc [] name rest).text]) =
      fileText ["procedure {:inline ".toList ++ o.unroll ++ "} ".toList ++ name ++ "(".toList ++ rest] := by
  have := annotate_one o name rest hw
  rw [this, procedureAnnotation, if_neg (by simpa using h), hm, hb]
  congr 2
  simp only [Bool.false_and, Bool.false_eq_true, if_false, Bool.not_false, Bool.true_and, if_true]
  have e1 : "procedure {:inline ".toList = "procedure ".toList ++ "{:inline ".toList := by decide
  have e2 : "} ".toList = "}".toList ++ " ".toList := by decide
  rw [e1, e2]
  simp only [List.append_assoc]

/-- The procedures of the memory model and SMACK's own functions that modular verification inlines. -/
def support : List String :=
  ["$alloc", "$galloc", "$malloc", "$free", "$memcpy", "$memset", "$initialize", "__SMACK_static_init",
   "__SMACK_init_func_memory_model", "__SMACK_loop_exit", "__SMACK_check_overflow"]

theorem support_inlined (name : List Char) (h : ∃ s ∈ support, ∃ t, name = s.toList ++ t) :
    inlinedProcedures.any (fun p => p.isPrefixOf name) = true := by
  obtain ⟨s, hs, t, rfl⟩ := h
  rw [List.any_eq_true]
  refine ⟨s.toList, ?_, List.isPrefixOf_iff_prefix.2 ⟨t, rfl⟩⟩
  revert s; decide

/-- In modular verification the support procedures and all functions `__VERIFIER_…` are inlined once. -/
theorem c83_modular_support (o : AOpts) (name rest : List Char) (h : name ∉ o.entryPoints) (hm : o.modular = true)
    (hs : (∃ s ∈ support, name = s.toList) ∨ ∃ t, name = "__VERIFIER_".toList ++ t) (hw : (Ln.proc [] name rest).Wf) :
    annotateBpl o (fileText [(Ln.proc [] name rest).text]) = fileText [headWith "{:inline 1}" name rest] := by
  have := annotate_one o name rest hw
  have hi : inlinedProcedures.any (fun p => p.isPrefixOf name) = true := by
    rcases hs with ⟨s, hs, e⟩ | ⟨t, e⟩
    · exact support_inlined name ⟨s, hs, [], by rw [e, List.append_nil]⟩
    · rw [List.any_eq_true]
      refine ⟨"__VERIFIER_".toList, by decide, ?_⟩
      rw [e]
      exact List.isPrefixOf_iff_prefix.2 ⟨t, rfl⟩
  rw [this, procedureAnnotation, if_neg (by simpa using h), hm, hi]
  rfl

/-- In modular verification a procedure whose name starts with none of these is verified against its contract: no
attribute is added. The same holds for every procedure that is no entry point with a verifier other than Boogie. -/
theorem c83_unmarked (o : AOpts) (name rest : List Char) (h : name ∉ o.entryPoints)
    (hn : (o.modular = true ∧ (∀ s ∈ support, ∀ t, name ≠ s.toList ++ t) ∧ ∀ t, name ≠ "__VERIFIER_".toList ++ t) ∨
      (o.modular = false ∧ o.boogie = false)) (hw : (Ln.proc [] name rest).Wf) :
    annotateBpl o (fileText [(Ln.proc [] name rest).text]) = fileText [headWith "" name rest] := by
  have := annotate_one o name rest hw
  rw [this, procedureAnnotation, if_neg (by simpa using h)]
  rcases hn with ⟨hm, hs, hv⟩ | ⟨hm, hb⟩
  · have hi : inlinedProcedures.any (fun p => p.isPrefixOf name) = false := by
      rw [List.any_eq_false]
      intro p hp hpre
      obtain ⟨t, ht⟩ := List.isPrefixOf_iff_prefix.1 hpre
      have : p = "__VERIFIER_".toList ∨ ∃ s ∈ support, p = s.toList := by
        clear hpre ht
        revert p; decide
      rcases this with e | ⟨s, hs', e⟩
      · exact hv t (by rw [← ht, e])
      · exact hs s hs' t (by rw [← ht, e])
    rw [hm, hi]
    rfl
  · rw [hm, hb]
    rfl

/-- The list is matched as prefixes: in modular verification any function of the program whose name extends one of
the names is inlined as well, instead of being verified against its contract. -/
theorem c83_prefix_fails (o : AOpts) (s : String) (hs : s ∈ support) (t rest : List Char)
    (h : s.toList ++ t ∉ o.entryPoints) (hm : o.modular = true) (hw : (Ln.proc [] (s.toList ++ t) rest).Wf) :
    annotateBpl o (fileText [(Ln.proc [] (s.toList ++ t) rest).text]) =
      fileText [headWith "{:inline 1}" (s.toList ++ t) rest] := by
  have := annotate_one o (s.toList ++ t) rest hw
  rw [this, procedureAnnotation, if_neg (by simpa using h), hm, support_inlined _ ⟨s, hs, t, rfl⟩]
  rfl

example : annotateBpl ⟨["main".toList], true, true, "1".toList⟩ "procedure __SMACK_static_init_table(x: int);\n".toList =
    "procedure {:inline 1} __SMACK_static_init_table(x: int);\n".toList := by decide +kernel

theorem cancel_head (w v n q r x y : List Char) (h : fileText [w ++ x ++ v ++ n ++ q ++ r] = fileText [w ++ y ++ v ++ n ++ q ++ r]) :
    x = y := by
  have h' : w ++ x ++ v ++ n ++ q ++ r ++ ['\n'] = w ++ y ++ v ++ n ++ q ++ r ++ ['\n'] := h
  simp only [List.append_assoc] at h'
  exact List.append_cancel_right (List.append_cancel_left h')

/-- The entry points are given by the names of the source program, the file has the names of the Boogie program. If
they differ, the entry point of the program is not marked. -/
theorem c83_renamed_fails (o : AOpts) (f rest : List Char) (he : o.entryPoints = [f]) (hne : Naming.ident f ≠ f)
    (hw : (Ln.proc [] (Naming.ident f) rest).Wf) :
    annotateBpl o (fileText [(Ln.proc [] (Naming.ident f) rest).text]) ≠
      fileText [headWith "{:entrypoint}" (Naming.ident f) rest] := by
  have := annotate_one o (Naming.ident f) rest hw
  rw [this, procedureAnnotation, he, if_neg (by simpa using hne)]
  intro e
  have h3 := cancel_head _ _ _ _ _ _ _ e
  revert h3
  split
  · intro h; exact absurd h (by decide)
  · split
    · intro h
      have : "{:inline ".toList = "{:entrypo".toList := by
        have h' := congrArg (List.take 9) h
        rw [List.append_assoc, List.take_append_of_le_length (by decide)] at h'
        exact h'
      exact absurd this (by decide)
    · intro h; exact absurd h (by decide)

example : Naming.ident "type".toList = "type_".toList ∧
    annotateBpl ⟨["type".toList], false, false, "1".toList⟩ "procedure type_();\n".toList = "procedure  type_();\n".toList := by
  decide +kernel

end Smack.Options
