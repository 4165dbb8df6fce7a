/-
C61: `$initialize` sets up global allocations (with memory safety), then runs static initialisers, then every init function in
module order, each exactly once, before any user code of the entry point.
-/
import Verif.Init.Model

namespace Smack.Init

/-! ### The list of init functions -/

/-- An init function: a defined function with the prefix that is not an entry point. -/
def IsInit (f : Fun) : Prop := f.defined = true ∧ f.entry = false ∧ INIT_FUNC_PREFIX.toList <+: f.name.toList

instance (f : Fun) : Decidable (IsInit f) := by unfold IsInit; infer_instance

theorem hasPrefix_iff (n : String) : hasPrefix n = true ↔ INIT_FUNC_PREFIX.toList <+: n.toList := by
  rw [hasPrefix, List.isPrefixOf_iff_prefix]

theorem genProcs_inits (f : Fun) (ps : List Proc) (g g' : GenSt) (h : ps.foldlM (genProc f) g = some g') :
    g'.inits = g.inits ++ (if f.entry = false ∧ hasPrefix f.name = true then List.replicate ps.length f.name else []) ∧
    g'.decls = g.decls ++ (if f.entry then ps.map (insert (.call INITIALIZE_PROC)) else ps) := by
  induction ps generalizing g with
  | nil =>
    simp only [List.foldlM_nil, pure, Option.some.injEq] at h
    subst h
    cases f.entry <;> cases hasPrefix f.name <;> simp
  | cons p ps ih =>
    rw [List.foldlM_cons] at h
    simp only [bind, Option.bind_eq_some_iff] at h
    obtain ⟨g1, h1, h2⟩ := h
    have := ih g1 h2
    unfold genProc at h1
    cases he : f.entry <;> cases hx : hasPrefix f.name <;> cases hn : f.noSig <;>
      simp only [he, hx, hn, if_true, Bool.false_eq_true, if_false, Option.some.injEq, reduceCtorEq] at h1 <;>
      subst h1 <;> simp only [he, hx, and_self, reduceCtorEq, false_and, and_false, if_true, if_false, true_and,
        Bool.false_eq_true, List.length_cons, List.replicate_succ, List.map_cons] at this ⊢ <;>
      simp [this]

/-- The effect of the loop over all functions. -/
theorem gen_inits (fs : List Fun) (g g' : GenSt) (h : fs.foldlM genFun g = some g') :
    g'.inits = g.inits ++ (fs.filter fun f => decide (IsInit f)).flatMap (fun f => List.replicate f.procs.length f.name) ∧
    g'.decls = g.decls ++ fs.flatMap (fun f =>
      if f.defined ∧ f.entry then f.procs.map (insert (.call INITIALIZE_PROC)) else f.procs) := by
  induction fs generalizing g with
  | nil =>
    simp only [List.foldlM_nil, pure, Option.some.injEq] at h
    subst h
    simp
  | cons f fs ih =>
    rw [List.foldlM_cons] at h
    simp only [bind, Option.bind_eq_some_iff] at h
    obtain ⟨g1, h1, h2⟩ := h
    have := ih g1 h2
    unfold genFun at h1
    cases hd : f.defined
    · simp only [hd, Bool.false_eq_true, if_false, Option.some.injEq] at h1
      subst h1
      have hni : decide (IsInit f) = false := by simp [IsInit, hd]
      simp only [List.filter_cons, hni, Bool.false_eq_true, if_false, List.flatMap_cons, hd, false_and]
      exact ⟨this.1, by rw [this.2]; simp⟩
    · simp only [hd, if_true] at h1
      have hp := genProcs_inits f f.procs g g1 h1
      have hi : decide (IsInit f) = (decide (f.entry = false ∧ hasPrefix f.name = true)) := by
        simp [IsInit, hd, hasPrefix_iff]
      simp only [List.filter_cons, hi, List.flatMap_cons, hd, true_and]
      refine ⟨?_, ?_⟩
      · rw [this.1, hp.1]
        by_cases hc : f.entry = false ∧ hasPrefix f.name = true
        · simp [hc]
        · simp [hc]
      · rw [this.2, hp.2]; simp

/-- **C61, the contents of `$initialize`**: global allocations if memory safety is on, static initialisers, then the init
functions in module order, then the rounding mode. Every init function that is not variadic gives one procedure, so it is
called exactly once. (Partial: functions with variable arguments, `c61_variadic_fails`.) -/
theorem c61_contents_partial (ms fl : Bool) (fs : List Fun) (ps : List Proc) (h : generate ms fl fs = some ps)
    (h1 : ∀ f ∈ fs, f.procs.length = 1) :
    ∃ p ∈ ps, p.name = "$initialize" ∧ ∃ b, p.blocks = [b] ∧ b.succs = [] ∧
      b.stmts = (if ms then [Stmt.call "$global_allocations"] else []) ++ [.call "__SMACK_static_init"] ++
        (fs.filter fun f => decide (IsInit f)).map (fun f => .call f.name) ++ (if fl then [.rmode] else []) := by
  simp only [generate, bind, Option.bind_eq_some_iff, Option.some.injEq] at h
  obtain ⟨g, hg, rfl⟩ := h
  refine ⟨initProc fl g.inits, by simp, rfl, _, rfl, rfl, ?_⟩
  rw [(gen_inits fs _ g hg).1]
  have : (fs.filter fun f => decide (IsInit f)).flatMap (fun f => List.replicate f.procs.length f.name) =
      (fs.filter fun f => decide (IsInit f)).map (fun f => f.name) := by
    have hm : ∀ f ∈ fs.filter (fun f => decide (IsInit f)), f.procs.length = 1 :=
      fun f hf => h1 f (List.mem_filter.mp hf).1
    generalize fs.filter (fun f => decide (IsInit f)) = l at hm
    induction l with
    | nil => rfl
    | cons a l ih =>
      rw [List.flatMap_cons, hm a (by simp), ih fun f hf => hm f (List.mem_cons_of_mem _ hf)]
      rfl
  rw [this]
  cases ms <;> simp [initial, STATIC_INIT_PROC]

/-- **C61, exactly once**: with distinct function names, each init function occurs exactly once in `$initialize`. -/
theorem c61_each_once_partial (ms fl : Bool) (fs : List Fun) (ps : List Proc) (h : generate ms fl fs = some ps)
    (h1 : ∀ f ∈ fs, f.procs.length = 1) (hd : (fs.map Fun.name).Nodup) (f : Fun) (hf : f ∈ fs) (hi : IsInit f) :
    ∃ p ∈ ps, p.name = "$initialize" ∧ ∃ b, p.blocks = [b] ∧ b.stmts.count (.call f.name) = 1 := by
  obtain ⟨p, hp, hn, b, hb, _, hs⟩ := c61_contents_partial ms fl fs ps h h1
  refine ⟨p, hp, hn, b, hb, ?_⟩
  rw [hs]
  have hpre := hi.2.2
  have ne : ∀ s : String, INIT_FUNC_PREFIX.toList.isPrefixOf s.toList = false → (Stmt.call s == Stmt.call f.name) = false := by
    intro s hsn
    simp only [beq_eq_false_iff_ne, ne_eq, Stmt.call.injEq]
    intro he
    subst he
    rw [List.isPrefixOf_iff_prefix.mpr hpre] at hsn
    cases hsn
  have n1 := ne "$global_allocations" (by decide +kernel)
  have n2 := ne "__SMACK_static_init" (by decide +kernel)
  have hcnt : ((fs.filter fun f => decide (IsInit f)).map fun f => Stmt.call f.name).count (.call f.name) = 1 := by
    have : ((fs.filter fun f => decide (IsInit f)).map fun f => Stmt.call f.name) =
        ((fs.filter fun f => decide (IsInit f)).map Fun.name).map Stmt.call := by simp
    rw [this]
    have hnd : ((fs.filter fun f => decide (IsInit f)).map Fun.name).Nodup :=
      hd.sublist (List.Sublist.map _ List.filter_sublist)
    have hmem : f.name ∈ (fs.filter fun f => decide (IsInit f)).map Fun.name :=
      List.mem_map.mpr ⟨f, List.mem_filter.mpr ⟨hf, by simpa using hi⟩, rfl⟩
    have hnd2 : (((fs.filter fun f => decide (IsInit f)).map Fun.name).map Stmt.call).Nodup := by
      rw [List.Nodup, List.pairwise_map]
      exact hnd.imp (fun h e => h (Stmt.call.inj e))
    rw [List.Nodup.count hnd2, if_pos (List.mem_map.mpr ⟨_, hmem, rfl⟩)]
  simp only [List.count_append, hcnt]
  cases ms <;> cases fl <;> simp [n1, n2, List.count_cons]

/-- **C61 fails for variadic functions**: an init function called in two ways (so two procedures) is run twice. -/
theorem c61_variadic_fails : ∃ (f : Fun) (ps : List Proc) (b : Blk), IsInit f ∧ generate false false [f] = some ps ∧
    ps.getLast? = some ⟨"$initialize", [b]⟩ ∧ b.stmts.count (.call f.name) = 2 := by
  refine ⟨⟨"__SMACK_init_func_x", false, true, true, [⟨"__SMACK_init_func_x.i32", [⟨[], []⟩]⟩, ⟨"__SMACK_init_func_x.i64", [⟨[], []⟩]⟩]⟩,
    _, _, by decide +kernel, rfl, rfl, by decide +kernel⟩

end Smack.Init
