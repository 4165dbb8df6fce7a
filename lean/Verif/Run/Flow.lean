/-
Lemmas about the contents of the files of a run.
-/
import Verif.Run.Temp
import Verif.Run.FlowSpec

namespace Smack.Run
open Smack.Driver

/-- Nothing goes wrong. -/
abbrev Sure {α : Type} (r : Res α) (Q : α → St → Prop) : Prop := Post r Q (fun _ _ => False)

theorem cmd_sure {w : World} {tool : List Sees → Text} (hw : Pure w tool) (hs : ∀ k, w.signal k = none) (c : List Word) (limit : Nat) (s : St) :
    Sure (tryCommand w c limit s) (fun _ s' => s' = { s with files := (w.run c s.files).2, log := s.log ++ [(c, (w.run c s.files).1)] }) := by
  obtain ⟨h1, h2, h3⟩ := hw.ok c s.files
  apply try_cases
  · intro h; rw [hs] at h; cases h
  · intro h; rw [hs] at h; cases h
  · intro _ h; rw [h1] at h; cases h
  · intro _ _ _ h; exact absurd (h2.symm.trans h) (by decide)
  · intro _ _ _ h; exact absurd h3 h
  · intro _ _ _ _; exact rfl

theorem command_sure {w : World} {tool : List Sees → Text} (hw : Pure w tool) (hs : ∀ k, w.signal k = none) (c : List Word) (s : St) :
    Sure (command w c s) (fun _ s' => s' = { s with files := (w.run c s.files).2, log := s.log ++ [(c, (w.run c s.files).1)] }) :=
  post_bind (post_weaken (cmd_sure hw hs c 0 s) fun _ _ h => h)

/-- Steps that only add files. -/
structure Grow (R : List Path) (s s' : St) : Prop where
  old : ∀ f, s.files f ≠ none → s'.files f = s.files f
  reg : ∀ d ∈ R, ¬Reg s d → ¬Reg s' d
  finite : Finite s.files → Finite s'.files
  res : ∀ d ∈ R, s'.files d = s.files d

structure Adds (R : List Path) (s s' : St) : Prop extends Grow R s s' where
  args : s'.args = s.args

theorem Grow.refl (R : List Path) (s : St) : Grow R s s := ⟨fun _ _ => rfl, fun _ _ h => h, fun h => h, fun _ _ => rfl⟩

theorem Adds.refl (R : List Path) (s : St) : Adds R s s := ⟨Grow.refl R s, rfl⟩

theorem Grow.trans {R : List Path} {s t u : St} (h : Grow R s t) (k : Grow R t u) : Grow R s u :=
  ⟨fun f hf => (k.old f (by rw [h.old f hf]; exact hf)).trans (h.old f hf), fun d hd x => k.reg d hd (h.reg d hd x),
    fun x => k.finite (h.finite x), fun d hd => (k.res d hd).trans (h.res d hd)⟩

theorem Adds.trans {R : List Path} {s t u : St} (h : Adds R s t) (k : Adds R t u) : Adds R s u :=
  ⟨h.toGrow.trans k.toGrow, k.args.trans h.args⟩

/-- A name that was not in use. -/
def New (R : List Path) (s : St) (f : Path) : Prop := s.files f = none ∧ f ∉ R

theorem New.mono {R : List Path} {s t : St} {f : Path} (h : Grow R s t) (k : New R t f) : New R s f :=
  ⟨Classical.byContradiction fun e => e ((h.old f e).symm.trans k.1), k.2⟩

structure Ctx (w : World) (tool : List Sees → Text) (R : List Path) : Prop where
  pure : Pure w tool
  quiet : ∀ k, w.signal k = none
  new : NewNames w
  apart : ∀ pre ext fs, ∀ d ∈ R, ¬Below (w.fresh pre ext fs) d

section
variable {w : World} {tool : List Sees → Text} {R : List Path} (X : Ctx w tool R)
include X

theorem temp_sure (pre ext : Text) (s : St) (hf : Finite s.files) :
    Sure (temporary w pre ext s) (fun f s' => Adds R s s' ∧ New R s f ∧ s'.files f ≠ none) := by
  have hnew : s.files (w.fresh (pre ++ ['-']) ext s.files) = none := X.new _ _ _ _ hf (Or.inl rfl)
  have hap := X.apart (pre ++ ['-']) ext s.files
  unfold temporary
  refine ⟨⟨⟨fun f h => ?_, fun d hd hr => ?_, fun h => h.set _ _, fun d hd => ?_⟩, rfl⟩, ⟨hnew, fun h => hap _ h (Or.inl rfl)⟩, ?_⟩
  · exact if_neg fun e : f = _ => h (by rw [e]; exact hnew)
  · rintro ⟨x, hx, hb⟩
    change x ∈ (if s.args.debug then s.temps else s.temps ++ [w.fresh (pre ++ ['-']) ext s.files]) at hx
    split at hx
    · exact hr ⟨x, hx, hb⟩
    · rcases List.mem_append.1 hx with hx | hx
      · exact hr ⟨x, hx, hb⟩
      · rw [List.mem_singleton.1 hx] at hb
        exact hap d hd hb
  · exact if_neg fun e : d = _ => hap d hd (Or.inl e)
  · show s.files.set _ _ _ ≠ none
    unfold Files.set
    rw [if_pos rfl]
    simp

theorem run_finite (c : List Word) (fs : Files) (h : Finite fs) : Finite (w.run c fs).2 := by
  obtain ⟨l, hl⟩ := h
  refine ⟨l ++ c.filterMap fun x => match x with | .out p => some p | _ => none, fun f hne => ?_⟩
  rw [X.pure.files] at hne
  by_cases e : Word.out f ∈ c
  · exact List.mem_append_right _ (List.mem_filterMap.2 ⟨.out f, e, rfl⟩)
  · rw [if_neg e] at hne
    exact List.mem_append_left _ (hl f hne)

/-- A temporary file and a command that writes it. -/
theorem temp_cmd_sure (pre ext : Text) (c : Path → List Word) (hc : ∀ f p, Word.out p ∈ c f ↔ p = f) (s : St) (hf : Finite s.files) (P : Text → Prop)
    (hP : ∀ f fs, New R s f → (∀ g, s.files g ≠ none → fs g = s.files g) → P (tool ((c f).map (sees fs f)))) :
    Sure ((do let f ← temporary w pre ext; command w (c f); pure f : M Path) s)
      (fun f s' => Adds R s s' ∧ New R s f ∧ ∃ t, s'.files f = some t ∧ P t) := by
  refine post_bind (post_weaken (temp_sure X pre ext s hf) fun f s1 ⟨h1, h2, h3⟩ => ?_)
  refine post_bind (post_weaken (command_sure X.pure X.quiet (c f) s1) fun _ s2 h => ?_)
  show Adds R s s2 ∧ New R s f ∧ _
  have hold : ∀ g, s.files g ≠ none → s2.files g = s.files g := by
    intro g hg
    rw [h]
    show (w.run (c f) s1.files).2 g = _
    rw [X.pure.files, if_neg (fun e => hg (((hc f g).1 e) ▸ h2.1)), h1.old g hg]
  refine ⟨⟨⟨hold, fun d hd hr => ?_, fun k => ?_, fun d hd => ?_⟩, by rw [h]; exact h1.args⟩, h2, _, ?_, hP f s1.files h2 h1.old⟩
  · have := h1.reg d hd hr
    rw [h]
    exact this
  · rw [h]
    exact run_finite X _ _ (h1.finite k)
  · rw [h]
    show (w.run (c f) s1.files).2 d = _
    rw [X.pure.files, if_neg (fun e => h2.2 ((hc f d).1 e ▸ hd)), h1.res d hd]
  · rw [h]
    show (w.run (c f) s1.files).2 f = _
    rw [X.pure.files, if_pos ((hc f f).2 rfl)]

omit X in
/-- A loop over steps of this kind. -/
theorem each_sure {α : Type} {f : α → M Path} {V : α → Text} (s0 : St) (l : List α)
    (hf : ∀ a ∈ l, ∀ s, Finite s.files → Adds R s0 s → Sure (f a s) (fun p s' => Adds R s s' ∧ New R s p ∧ s'.files p = some (V a)))
    (s : St) (h : Finite s.files) (h0 : Adds R s0 s) :
    Sure (forEach f l s) (fun ps s' => Adds R s s' ∧ (∀ p ∈ ps, New R s p) ∧ ps.map s'.files = l.map fun a => some (V a)) := by
  induction l generalizing s with
  | nil => exact ⟨Adds.refl R s, fun _ h => (nomatch h), rfl⟩
  | cons a l ih =>
    refine post_bind (post_weaken (hf a List.mem_cons_self s h h0) fun p s1 ⟨h1, h2, h3⟩ => ?_)
    refine post_bind (post_weaken (ih (fun b hb => hf b (List.mem_cons_of_mem _ hb)) s1 (h1.finite h) (h0.trans h1)) fun ps s2 ⟨k1, k2, k3⟩ => ?_)
    refine ⟨h1.trans k1, fun q hq => ?_, ?_⟩
    · rcases List.mem_cons.1 hq with e | hq
      · exact e ▸ h2
      · exact (k2 q hq).mono h1.toGrow
    · rw [List.map_cons, List.map_cons, k3, k1.old p (by rw [h3]; simp), h3]

end

/-! ### What commands look like to a tool -/

/-- Words that are no files. -/
def Lits (ws : List Word) : Prop := ∀ x ∈ ws, ∃ t, x = .lit t

theorem Lits.append {a b : List Word} (ha : Lits a) (hb : Lits b) : Lits (a ++ b) :=
  fun x hx => (List.mem_append.1 hx).elim (ha x) (hb x)

theorem lits_map (l : List Text) : Lits (l.map .lit) := fun x hx => by
  obtain ⟨t, _, e⟩ := List.mem_map.1 hx
  exact ⟨t, e.symm⟩

theorem lits_L (l : List String) : Lits (l.map L) := fun x hx => by
  obtain ⟨t, _, e⟩ := List.mem_map.1 hx
  exact ⟨_, e.symm⟩

theorem lits_opt (b : Bool) {l : List Word} (h : Lits l) : Lits (opt b l) := by
  unfold opt
  split
  · exact h
  · exact fun x hx => (nomatch hx)

theorem lits_clang (w : World) (a : Args) (lib : Bool) : Lits (clangArgs w a lib) := by
  unfold clangArgs
  have h1 : ∀ t, Lits [.lit t] := fun t x hx => ⟨t, List.mem_singleton.1 hx⟩
  have hm : Lits [memModFlag a.memMod] := fun x hx => by
    rw [List.mem_singleton.1 hx]
    cases a.memMod <;> exact ⟨_, rfl⟩
  refine (((((((Lits.append ?_ (lits_map _)).append hm).append (lits_L _)).append (lits_opt _ (h1 _))).append
    (lits_opt _ (h1 _))).append (lits_opt _ (h1 _))).append (lits_opt _ (h1 _)))
  intro x hx
  simp only [List.mem_cons, List.not_mem_nil, or_false] at hx
  rcases hx with e | e | e | e | e | e | e | e <;> exact ⟨_, e⟩

theorem Lits.sees {ws : List Word} (h : Lits ws) (fs : Files) (f : Path) : ws.map (Run.sees fs f) = flat ws := by
  unfold flat
  refine List.map_congr_left fun x hx => ?_
  obtain ⟨t, e⟩ := h x hx
  rw [e]
  rfl

theorem Lits.out {ws : List Word} (h : Lits ws) (p : Path) : Word.out p ∉ ws := fun hp => by
  obtain ⟨t, e⟩ := h _ hp
  cases e

section
variable {w : World} {tool : List Sees → Text} {R : List Path} (X : Ctx w tool R)
include X

theorem clang_sure (cc : String) (a : Args) (lib : Bool) (input : Path) (src : Text) (s : St) (hf : Finite s.files) (hi : s.files input = some src) :
    Sure (compileToBc w input (llvmBin cc :: clangArgs w a lib) s)
      (fun f s' => Adds R s s' ∧ New R s f ∧ s'.files f = some (compiled w tool a (cc ++ "-12") lib (some src))) := by
  have := temp_cmd_sure X (stem input) ".bc".toList (fun bc => llvmBin cc :: clangArgs w a lib ++ [L "-o", .out bc, .inp input]) (fun f p => ?_) s hf
    (fun t => t = compiled w tool a (cc ++ "-12") lib (some src)) (fun f fs hn hold => ?_)
  · refine post_weaken this fun f s' ⟨h1, h2, t, h3, h4⟩ => ⟨h1, h2, by rw [h3, h4]⟩
  · simp only [List.cons_append, List.mem_cons, List.mem_append, List.not_mem_nil, or_false]
    constructor
    · rintro (e | e | e | e | e)
      · cases e
      · exact absurd e ((lits_clang w a lib).out p)
      · cases e
      · cases e; rfl
      · cases e
    · rintro rfl
      exact Or.inr (Or.inr (Or.inr (Or.inl rfl)))
  · unfold compiled
    rw [List.cons_append, List.map_cons, List.map_append, (lits_clang w a lib).sees]
    simp only [List.map_cons, List.map_nil]
    have h1 : sees fs f (.inp input) = .content (some src) := by
      show Sees.content (fs input) = _
      rw [hold input (by rw [hi]; simp), hi]
    have h2 : sees fs f (.out f) = .this := if_pos rfl
    rw [h1, h2]
    rfl

theorem extern_sure (bcs : List Path) (s : St) (hf : Finite s.files) (hV : ∀ b ∈ bcs, s.files b ≠ none) :
    Sure (externEntryPoints w bcs s) (fun ps s' => Adds R s s' ∧ (∀ p ∈ ps, New R s p) ∧
      ps.map s'.files = bcs.map fun b => some (externed tool s.args (s.files b))) := by
  unfold externEntryPoints
  refine each_sure s bcs (V := fun b => externed tool s.args (s.files b)) (fun b hb s1 h1 h01 => ?_) s hf (Adds.refl R s)
  refine post_bind (m := get) ?_
  change Sure ((temporary w (stem b) ".bc".toList >>= _ : M Path) s1) _
  have hargs : s1.args = s.args := h01.args
  have := temp_cmd_sure X (stem b) ".bc".toList (fun new => [L "extern-statics", L "-in", .inp b, L "-out", .out new] ++
      s1.args.entryPoints.flatMap fun ep => [L "-entry-points", .lit ep]) (fun f p => ?_) s1 h1
    (fun t => t = externed tool s.args (s.files b)) (fun f fs hn hold => ?_)
  · exact post_weaken this fun f s' ⟨h1, h2, t, h3, h4⟩ => ⟨h1, h2, by rw [h3, h4]⟩
  · have hl : Lits (s1.args.entryPoints.flatMap fun ep => [L "-entry-points", .lit ep]) := by
      intro x hx
      obtain ⟨t, _, e⟩ := List.mem_flatMap.1 hx
      simp only [List.mem_cons, List.not_mem_nil, or_false] at e
      rcases e with e | e <;> exact ⟨_, e⟩
    simp only [List.mem_cons, List.mem_append, List.not_mem_nil, or_false]
    constructor
    · rintro ((e | e | e | e | e) | e)
      · cases e
      · cases e
      · cases e
      · cases e
      · cases e; rfl
      · exact absurd e (hl.out p)
    · rintro rfl
      exact Or.inl (Or.inr (Or.inr (Or.inr (Or.inr rfl))))
  · unfold externed
    have hb1 : s1.files b = s.files b := h01.old b (hV b hb)
    rw [List.map_append, hargs]
    have h1 : sees fs f (.inp b) = .content (s.files b) := by
      show Sees.content (fs b) = _
      rw [hold b (by rw [hb1]; exact hV b hb), hb1]
    have h2 : sees fs f (.out f) = .this := if_pos rfl
    simp only [List.map_cons, List.map_nil, h1, h2, List.map_flatMap]
    rfl

theorem defaults_sure (s : St) (hf : Finite s.files) (fs : Files) (hold : ∀ f, fs f ≠ none → s.files f = fs f)
    (hl : ∀ l ∈ libraries s.args, fs (w.lib l.2) ≠ none) :
    Sure (defaultBuildLibs w s) (fun ps s' => Adds R s s' ∧ (∀ p ∈ ps, New R s p) ∧
      ps.map s'.files = ((libraries s.args).filter fun l => l.1 = "clang-12").map fun l => some (compiled w tool s.args l.1 true (fs (w.lib l.2)))) := by
  unfold defaultBuildLibs
  refine post_bind (m := get) ?_
  have hlist : ((libraries s.args).filter fun l => l.1 = "clang-12") = (["smack.c", "stdlib.c", "errno.c", "smack-rust.c"] ++ (if s.args.pthread then ["pthread.c"] else []) ++
    (if s.args.strings then ["string.c"] else []) ++ (if s.args.float then ["math.c", "fenv.c"] else [])).map fun c => ("clang-12", c) := by
    unfold libraries
    cases s.args.pthread <;> cases s.args.strings <;> cases s.args.float <;>
      cases s.args.inputs.any fun i => langOf s.args i = some .cxx <;> rfl
  change Sure (forEach _ (["smack.c", "stdlib.c", "errno.c", "smack-rust.c"] ++ (if s.args.pthread then ["pthread.c"] else []) ++
    (if s.args.strings then ["string.c"] else []) ++ (if s.args.float then ["math.c", "fenv.c"] else [])) s) _
  generalize (["smack.c", "stdlib.c", "errno.c", "smack-rust.c"] ++ (if s.args.pthread then ["pthread.c"] else []) ++
    (if s.args.strings then ["string.c"] else []) ++ (if s.args.float then ["math.c", "fenv.c"] else [])) = cs at hlist ⊢
  rw [hlist]
  refine post_weaken (each_sure (V := fun c => compiled w tool s.args "clang-12" true (fs (w.lib c))) s cs (fun c hc s1 h1 h01 => ?_) s hf (Adds.refl R s)) fun ps s' h => ?_
  · have hmem : ("clang-12", c) ∈ libraries s.args := by
      have : ("clang-12", c) ∈ (libraries s.args).filter fun l => l.1 = "clang-12" := by
        rw [hlist]; exact List.mem_map.2 ⟨c, hc, rfl⟩
      exact (List.mem_filter.1 this).1
    have hne := hl _ hmem
    cases hsrc : fs (w.lib c) with
    | none => exact absurd hsrc hne
    | some src =>
      have h1' : s1.files (w.lib c) = some src := by
        rw [h01.old _ (by rw [hold _ hne]; exact hne), hold _ hne, hsrc]
      have := clang_sure X "clang" s.args true (w.lib c) src s1 h1 h1'
      exact this
  · refine ⟨h.1, h.2.1, ?_⟩
    rw [h.2.2, List.map_map]
    rfl

theorem extras_sure (s : St) (hf : Finite s.files) (fs : Files) (hold : ∀ f, fs f ≠ none → s.files f = fs f)
    (hl : ∀ l ∈ libraries s.args, fs (w.lib l.2) ≠ none) (libs : List Lang)
    (hc : libs = if s.args.inputs.any fun i => langOf s.args i = some .cxx then [.cxx] else []) :
    Sure (forEach (extraLibs w) libs s) (fun ps s' => Adds R s s' ∧ (∀ p ∈ ps.flatten, New R s p) ∧
      ps.flatten.map s'.files = ((libraries s.args).filter fun l => l.1 ≠ "clang-12").map fun l => some (compiled w tool s.args l.1 true (fs (w.lib l.2)))) := by
  rw [hc]
  cases hb : s.args.inputs.any fun i => langOf s.args i = some .cxx with
  | false =>
    have hlist : ((libraries s.args).filter fun l => l.1 ≠ "clang-12") = [] := by
      unfold libraries
      rw [hb]
      cases s.args.pthread <;> cases s.args.strings <;> cases s.args.float <;> rfl
    rw [hlist]
    exact ⟨Adds.refl R s, fun _ h => (nomatch h), rfl⟩
  | true =>
    have hlist : ((libraries s.args).filter fun l => l.1 ≠ "clang-12") = [("clang++-12", "smack.cpp")] := by
      unfold libraries
      rw [hb]
      cases s.args.pthread <;> cases s.args.strings <;> cases s.args.float <;> rfl
    have hmem : ("clang++-12", "smack.cpp") ∈ libraries s.args := by
      have : ("clang++-12", "smack.cpp") ∈ (libraries s.args).filter fun l => l.1 ≠ "clang-12" := by
        rw [hlist]; exact List.mem_singleton.2 rfl
      exact (List.mem_filter.1 this).1
    rw [hlist]
    have hne := hl _ hmem
    cases hsrc : fs (w.lib "smack.cpp") with
    | none => exact absurd hsrc hne
    | some src =>
      refine post_bind (post_bind (m := get) ?_)
      change Sure ((compileToBc w (w.lib "smack.cpp") (llvmBin "clang++" :: clangArgs w s.args true) >>= _ : M (List Path)) s) _
      refine post_bind (post_weaken (clang_sure X "clang++" s.args true (w.lib "smack.cpp") src s hf (by rw [hold _ hne, hsrc])) fun p s' ⟨h1, h2, h3⟩ => ?_)
      refine ⟨h1, fun q hq => ?_, ?_⟩
      · have hq : q ∈ [p] := hq
        rw [List.mem_singleton.1 hq]
        exact h2
      · show [s'.files p] = _
        rw [h3]
        simp only [List.map_cons, List.map_nil, hsrc]
        rfl

end

end Smack.Run
