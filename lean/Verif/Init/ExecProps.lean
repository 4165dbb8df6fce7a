/-
C61 for executions: what runs before the code of the entry point, and that initialisation runs once.
-/
import Verif.Init.Props

namespace Smack.Init

/-- The statements executed by the outermost activation and by the ones it called, in order. -/
def outer (t : List (Nat × Stmt)) : List (Nat × Stmt) := t.filter fun e => e.1 ≤ 1

theorem outer_append (t u : List (Nat × Stmt)) : outer (t ++ u) = outer t ++ outer u := List.filter_append ..

/-- `a` and `b` agree as far as both go. -/
def Agree {α : Type} (a b : List α) : Prop := a <+: b ∨ b <+: a

/-- Where the execution is: before, inside or after the call of `$initialize`. -/
def Phase (main : Frame) (body : List Stmt) (c : Conf) : Prop :=
  (c.stack = [{ main with rest := .call INITIALIZE_PROC :: main.rest }] ∧ c.trace = []) ∨
  (∃ σ bl done todo, c.stack = σ ++ [⟨bl, todo, []⟩, main] ∧ body = done ++ todo ∧
    outer c.trace = (0, .call INITIALIZE_PROC) :: done.map fun s => (1, s)) ∨
  ((0, .call INITIALIZE_PROC) :: body.map fun s => (1, s)) <+: outer c.trace

theorem phase_step (ps : List Proc) (main : Frame) (body : List Stmt) (p : Proc)
    (hf : find ps INITIALIZE_PROC = some p) (hp : p.blocks = [⟨body, []⟩]) {c d : Conf}
    (hc : Phase main body c) (hs : Step ps c d) : Phase main body d := by
  rcases hc with ⟨h1, h2⟩ | ⟨σ, bl, done, todo, h1, h2, h3⟩ | h
  · cases hs with
    | exec f s r σ t hr hn =>
      simp only [List.cons.injEq] at h1
      obtain ⟨rfl, rfl⟩ := h1
      simp only [List.cons.injEq] at hr
      have := hn INITIALIZE_PROC hr.1.symm
      rw [hf] at this; cases this
    | call f n r σ t q g hr hq hg =>
      simp only [List.cons.injEq] at h1
      obtain ⟨rfl, rfl⟩ := h1
      simp only [List.cons.injEq, Stmt.call.injEq] at hr
      obtain ⟨rfl, rfl⟩ := hr
      rw [hf, Option.some.injEq] at hq
      subst hq
      rw [enter, hp] at hg
      simp only [Option.some.injEq] at hg
      subst hg
      simp only at h2
      subst h2
      exact Or.inr (Or.inl ⟨[], _, [], body, rfl, rfl, rfl⟩)
    | goto f j b σ t hr hj hb =>
      simp only [List.cons.injEq] at h1
      obtain ⟨rfl, rfl⟩ := h1
      cases hr
    | ret f g σ t hr hsu =>
      simp only [List.cons.injEq, reduceCtorEq, and_false] at h1
  · cases σ with
    | cons f0 σ =>
      -- some called procedure is running: nothing of depth at most one happens, or it returns
      have hlen : 2 ≤ (σ ++ [⟨bl, todo, []⟩, main] : List Frame).length := by simp
      refine Or.inr (Or.inl ?_)
      cases hs with
      | exec f s r σ' t hr hn =>
        simp only [List.cons_append, List.cons.injEq] at h1
        obtain ⟨rfl, rfl⟩ := h1
        refine ⟨_ :: σ, bl, done, todo, rfl, h2, ?_⟩
        rw [outer_append, h3]
        have : ¬(σ ++ [⟨bl, todo, []⟩, main] : List Frame).length ≤ 1 := by omega
        simp [outer, -List.length_append, this]
      | call f n r σ' t q g hr hq hg =>
        simp only [List.cons_append, List.cons.injEq] at h1
        obtain ⟨rfl, rfl⟩ := h1
        refine ⟨g :: _ :: σ, bl, done, todo, rfl, h2, ?_⟩
        rw [outer_append, h3]
        have : ¬(σ ++ [⟨bl, todo, []⟩, main] : List Frame).length ≤ 1 := by omega
        simp [outer, -List.length_append, this]
      | goto f j b σ' t hr hj hb =>
        simp only [List.cons_append, List.cons.injEq] at h1
        obtain ⟨rfl, rfl⟩ := h1
        exact ⟨_ :: σ, bl, done, todo, rfl, h2, h3⟩
      | ret f g σ' t hr hsu =>
        simp only [List.cons_append, List.cons.injEq] at h1
        exact ⟨σ, bl, done, todo, h1.2, h2, h3⟩
    | nil =>
      cases hs with
      | exec f s r σ' t hr hn =>
        simp only [List.nil_append, List.cons.injEq] at h1
        obtain ⟨rfl, rfl⟩ := h1
        simp only at hr
        subst hr
        refine Or.inr (Or.inl ⟨[], bl, done ++ [s], r, rfl, by simp [h2], ?_⟩)
        rw [outer_append, h3]
        simp [outer]
      | call f n r σ' t q g hr hq hg =>
        simp only [List.nil_append, List.cons.injEq] at h1
        obtain ⟨rfl, rfl⟩ := h1
        simp only at hr
        subst hr
        refine Or.inr (Or.inl ⟨[g], bl, done ++ [.call n], r, rfl, by simp [h2], ?_⟩)
        rw [outer_append, h3]
        simp [outer]
      | goto f j b σ' t hr hj hb =>
        simp only [List.nil_append, List.cons.injEq] at h1
        obtain ⟨rfl, rfl⟩ := h1
        cases hj
      | ret f g σ' t hr hsu =>
        simp only [List.nil_append, List.cons.injEq] at h1
        obtain ⟨rfl, -⟩ := h1
        simp only at hr
        subst hr
        refine Or.inr (Or.inr ?_)
        simp only at h3
        rw [h3, h2]
        simp
  · refine Or.inr (Or.inr (h.trans ?_))
    cases hs with
    | exec => exact ⟨_, (outer_append _ _).symm⟩
    | call => exact ⟨_, (outer_append _ _).symm⟩
    | goto => exact ⟨[], by simp⟩
    | ret => exact ⟨[], by simp⟩

theorem phase_reach (ps : List Proc) (main : Frame) (body : List Stmt) (p : Proc)
    (hf : find ps INITIALIZE_PROC = some p) (hp : p.blocks = [⟨body, []⟩]) {c d : Conf}
    (hc : Phase main body c) (hr : Reach ps c d) : Phase main body d := by
  induction hr with
  | refl => exact hc
  | step d e _ hs ih => exact phase_step ps main body p hf hp ih hs

theorem phase_agree {main : Frame} {body : List Stmt} {c : Conf} (h : Phase main body c) :
    Agree (outer c.trace) ((0, .call INITIALIZE_PROC) :: body.map fun s => (1, s)) := by
  rcases h with ⟨_, h2⟩ | ⟨σ, bl, done, todo, _, h2, h3⟩ | h
  · rw [h2]; exact Or.inl (List.nil_prefix)
  · rw [h3, h2, List.map_append]
    exact Or.inl ⟨todo.map fun s => (1, s), by simp⟩
  · exact Or.inr h

/-- What initialisation has to do: global allocations with memory safety, static initialisers, the init functions in module
order (once for each procedure made of the function), the rounding mode. -/
def expected (ms fl : Bool) (fs : List Fun) : List Stmt :=
  (if ms then [Stmt.call "$global_allocations"] else []) ++ [Stmt.call "__SMACK_static_init"] ++
    (fs.filter fun f => decide (IsInit f)).flatMap (fun f => List.replicate f.procs.length (Stmt.call f.name)) ++
    (if fl then [Stmt.rmode] else [])

/-- A prefix of the program is searched first. -/
theorem find_append (ps qs : List Proc) (n : String) (h : ∀ p ∈ ps, p.name ≠ n) : find (ps ++ qs) n = find qs n := by
  unfold find
  rw [List.find?_append, List.find?_eq_none.mpr, Option.none_or]
  intro p hp
  simp [h p hp]

theorem insert_name (s : Stmt) (p : Proc) : (insert s p).name = p.name := by
  unfold insert; split <;> rfl

/-- **C61, before any user code.** Take any module in which no function is called `$initialize`, and run any procedure of any
entry point. In every execution, what the outermost activation and the activations it calls execute begins with: the call
of `$initialize`, then in it the calls of `$global_allocations` (memory safety), `__SMACK_static_init`, the init functions
in module order, and the assignment of the rounding mode. In particular any statement of the entry point itself comes
later. -/
theorem c61_order (ms fl : Bool) (fs : List Fun) (ps : List Proc) (h : generate ms fl fs = some ps)
    (hn : ∀ f ∈ fs, ∀ p ∈ f.procs, p.name ≠ "$initialize") (e : Fun) (he : e ∈ fs) (hent : e.entry = true)
    (hdef : e.defined = true) (p : Proc) (hp : p ∈ e.procs) (b : Blk) (bs : List Blk) (hb : p.blocks = b :: bs) :
    ∃ q ∈ ps, q.name = p.name ∧ ∃ start, enter q = some start ∧ ∀ c, Reach ps ⟨[start], []⟩ c →
      Agree (outer c.trace) ((0, .call "$initialize") :: (expected ms fl fs).map fun s => (1, s)) := by
  simp only [generate, bind, Option.bind_eq_some_iff, Option.some.injEq] at h
  obtain ⟨g, hg, rfl⟩ := h
  have hgi := gen_inits fs _ g hg
  have hq : insert (.call INITIALIZE_PROC) p ∈ g.decls := by
    rw [hgi.2]
    refine List.mem_append.mpr (Or.inr (List.mem_flatMap.mpr ⟨e, he, ?_⟩))
    rw [if_pos ⟨hdef, hent⟩]
    exact List.mem_map.mpr ⟨p, hp, rfl⟩
  have hnames : ∀ q ∈ g.decls, q.name ≠ INITIALIZE_PROC := by
    rw [hgi.2]
    intro q hq
    simp only [List.nil_append, List.mem_flatMap] at hq
    obtain ⟨f, hf, hq⟩ := hq
    split at hq
    · obtain ⟨r, hr, rfl⟩ := List.mem_map.mp hq
      rw [insert_name]
      exact hn f hf r hr
    · exact hn f hf q hq
  refine ⟨_, List.mem_append.mpr (Or.inl hq), insert_name _ _,
    ⟨(insert (.call INITIALIZE_PROC) p).blocks, .call INITIALIZE_PROC :: b.stmts, b.succs⟩, ?_, ?_⟩
  · simp [enter, insert, hb]
  · intro c hc
    have hfind : find (g.decls ++ [initProc fl g.inits]) INITIALIZE_PROC = some (initProc fl g.inits) := by
      rw [find_append _ _ _ hnames]
      simp [find, initProc]
    have := phase_agree (phase_reach _ ⟨(insert (.call INITIALIZE_PROC) p).blocks, b.stmts, b.succs⟩
      (g.inits.map .call ++ if fl then [.rmode] else []) (initProc fl g.inits) hfind rfl (Or.inl ⟨rfl, rfl⟩) hc)
    rw [hgi.1] at this
    have e1 : (List.map Stmt.call (initial ms ++ (fs.filter fun f => decide (IsInit f)).flatMap
        fun f => List.replicate f.procs.length f.name)) =
        (if ms then [Stmt.call "$global_allocations"] else []) ++ [.call "__SMACK_static_init"] ++
        (fs.filter fun f => decide (IsInit f)).flatMap (fun f => List.replicate f.procs.length (.call f.name)) := by
      rw [List.map_append, List.map_flatMap]
      cases ms <;> simp [initial, STATIC_INIT_PROC]
    rw [e1] at this
    exact this

/-! ### Exactly once -/

/-- Names whose call would initialise again: `$initialize`, and the procedures of entry points. -/
def Reinit (fs : List Fun) (n : String) : Prop :=
  n = INITIALIZE_PROC ∨ ∃ f ∈ fs, f.entry = true ∧ ∃ p ∈ f.procs, p.name = n

def Clean (fs : List Fun) (l : List Stmt) : Prop := ∀ n, Stmt.call n ∈ l → ¬Reinit fs n

theorem find_some {ps : List Proc} {n : String} {q : Proc} (h : find ps n = some q) : q ∈ ps ∧ q.name = n := by
  unfold find at h
  refine ⟨List.mem_of_find?_eq_some h, ?_⟩
  have := List.find?_some h
  simp only [Bool.and_eq_true, beq_iff_eq] at this
  exact this.1

/-- A frame that can not initialise again. -/
def CleanFrame (fs : List Fun) (f : Frame) : Prop := Clean fs f.rest ∧ ∀ b ∈ f.blocks, Clean fs b.stmts

/-- The outermost frame after its first statement. -/
def CleanMain (fs : List Fun) (f : Frame) : Prop :=
  Clean fs f.rest ∧ 0 ∉ f.succs ∧ (∀ b ∈ f.blocks, 0 ∉ b.succs) ∧ ∀ b ∈ f.blocks.drop 1, Clean fs b.stmts

def inits (t : List (Nat × Stmt)) : Nat := (t.map (·.2)).count (.call INITIALIZE_PROC)

theorem inits_append (t : List (Nat × Stmt)) (d : Nat) (s : Stmt) (h : s ≠ .call INITIALIZE_PROC) :
    inits (t ++ [(d, s)]) = inits t := by
  simp [inits, h]

def Once (fs : List Fun) (c : Conf) : Prop :=
  ∃ σ m, c.stack = σ ++ [m] ∧ (∀ f ∈ σ, CleanFrame fs f) ∧ CleanMain fs m ∧ inits c.trace = 1

theorem clean_tail {fs : List Fun} {s : Stmt} {r : List Stmt} (h : Clean fs (s :: r)) : Clean fs r :=
  fun n hn => h n (List.mem_cons_of_mem _ hn)

theorem clean_ne {fs : List Fun} {s : Stmt} {r : List Stmt} (h : Clean fs (s :: r)) : s ≠ .call INITIALIZE_PROC := by
  intro e
  subst e
  exact h _ (List.mem_cons_self ..) (Or.inl rfl)

theorem mem_drop_one {α : Type} {l : List α} {j : Nat} {a : α} (h : l[j]? = some a) (hj : j ≠ 0) : a ∈ l.drop 1 := by
  cases l with
  | nil => simp at h
  | cons x l =>
    cases j with
    | zero => exact (hj rfl).elim
    | succ j => exact List.mem_of_getElem? (by simpa using h)

theorem once_step (fs : List Fun) (ps : List Proc)
    (hl : ∀ n q, find ps n = some q → ¬Reinit fs n → ∀ b ∈ q.blocks, Clean fs b.stmts) {c d : Conf}
    (hc : Once fs c) (hs : Step ps c d) : Once fs d := by
  obtain ⟨σ, m, h1, h2, h3, h4⟩ := hc
  have hcall : ∀ n r q g, Clean fs (.call n :: r) → find ps n = some q → enter q = some g → CleanFrame fs g := by
    intro n r q g hcl hq hg
    have hb := hl n q hq (hcl n (List.mem_cons_self ..))
    unfold enter at hg
    cases hbl : q.blocks with
    | nil => rw [hbl] at hg; cases hg
    | cons b bs =>
      rw [hbl] at hg
      simp only [Option.some.injEq] at hg
      subst hg
      rw [hbl] at hb
      exact ⟨hb b (List.mem_cons_self ..), hb⟩
  cases σ with
  | nil =>
    cases hs with
    | exec f s r σ' t hr hn =>
      simp only [List.nil_append, List.cons.injEq] at h1
      obtain ⟨rfl, rfl⟩ := h1
      have hcl := h3.1
      rw [hr] at hcl
      exact ⟨[], _, rfl, nofun, ⟨clean_tail hcl, h3.2⟩, by rw [inits_append _ _ _ (clean_ne hcl)]; exact h4⟩
    | call f n r σ' t q g hr hq hg =>
      simp only [List.nil_append, List.cons.injEq] at h1
      obtain ⟨rfl, rfl⟩ := h1
      have hcl := h3.1
      rw [hr] at hcl
      refine ⟨[g], _, rfl, ?_, ⟨clean_tail hcl, h3.2⟩, by rw [inits_append _ _ _ (clean_ne hcl)]; exact h4⟩
      intro f' hf'
      rw [List.mem_singleton] at hf'
      subst hf'
      exact hcall n r q f' hcl hq hg
    | goto f j b σ' t hr hj hb =>
      simp only [List.nil_append, List.cons.injEq] at h1
      obtain ⟨rfl, rfl⟩ := h1
      have hj0 : j ≠ 0 := fun e => h3.2.1 (e ▸ hj)
      exact ⟨[], _, rfl, nofun, ⟨h3.2.2.2 b (mem_drop_one hb hj0), h3.2.2.1 b (List.mem_of_getElem? hb), h3.2.2⟩, h4⟩
    | ret f g σ' t hr hsu =>
      simp only [List.nil_append, List.cons.injEq, reduceCtorEq, and_false] at h1
  | cons f0 σ =>
    have hf0 := h2 f0 (List.mem_cons_self ..)
    have hσ : ∀ f ∈ σ, CleanFrame fs f := fun f hf => h2 f (List.mem_cons_of_mem _ hf)
    cases hs with
    | exec f s r σ' t hr hn =>
      simp only [List.cons_append, List.cons.injEq] at h1
      obtain ⟨rfl, rfl⟩ := h1
      have hcl := hf0.1
      rw [hr] at hcl
      refine ⟨_ :: σ, m, rfl, ?_, h3, by rw [inits_append _ _ _ (clean_ne hcl)]; exact h4⟩
      intro f' hf'
      rcases List.mem_cons.mp hf' with rfl | hf'
      · exact ⟨clean_tail hcl, hf0.2⟩
      · exact hσ f' hf'
    | call f n r σ' t q g hr hq hg =>
      simp only [List.cons_append, List.cons.injEq] at h1
      obtain ⟨rfl, rfl⟩ := h1
      have hcl := hf0.1
      rw [hr] at hcl
      refine ⟨g :: _ :: σ, m, rfl, ?_, h3, by rw [inits_append _ _ _ (clean_ne hcl)]; exact h4⟩
      intro f' hf'
      rcases List.mem_cons.mp hf' with rfl | hf'
      · exact hcall n r q f' hcl hq hg
      rcases List.mem_cons.mp hf' with rfl | hf'
      · exact ⟨clean_tail hcl, hf0.2⟩
      · exact hσ f' hf'
    | goto f j b σ' t hr hj hb =>
      simp only [List.cons_append, List.cons.injEq] at h1
      obtain ⟨rfl, rfl⟩ := h1
      refine ⟨_ :: σ, m, rfl, ?_, h3, h4⟩
      intro f' hf'
      rcases List.mem_cons.mp hf' with rfl | hf'
      · exact ⟨hf0.2 b (List.mem_of_getElem? hb), hf0.2⟩
      · exact hσ f' hf'
    | ret f g σ' t hr hsu =>
      simp only [List.cons_append, List.cons.injEq] at h1
      exact ⟨σ, m, h1.2, hσ, h3, h4⟩

/-- **C61, exactly once** (partial: no function calls an entry point, see `c61_recursion_fails`). In every execution of an
entry point `$initialize` is called once, as the first statement, and never again. The other hypotheses hold for every LLVM
module: the entry block has no predecessors, and no function is called `$initialize`; entry points are not called like the
initialisation procedures. -/
theorem c61_once_partial (ms fl : Bool) (fs : List Fun) (ps : List Proc) (h : generate ms fl fs = some ps)
    (hn : ∀ f ∈ fs, ∀ p ∈ f.procs, p.name ≠ "$initialize")
    (hcalls : ∀ f ∈ fs, ∀ p ∈ f.procs, ∀ b ∈ p.blocks, Clean fs b.stmts)
    (hinit : Clean fs (expected ms fl fs))
    (e : Fun) (he : e ∈ fs) (hent : e.entry = true)
    (hdef : e.defined = true) (p : Proc) (hp : p ∈ e.procs) (b : Blk) (bs : List Blk) (hb : p.blocks = b :: bs)
    (hpred : ∀ x ∈ p.blocks, 0 ∉ x.succs) :
    ∃ q ∈ ps, q.name = p.name ∧ ∃ start, enter q = some start ∧ ∀ c, Reach ps ⟨[start], []⟩ c →
      c.trace = [] ∨ (c.trace.head? = some (0, .call "$initialize") ∧ (c.trace.map (·.2)).count (.call "$initialize") = 1) := by
  simp only [generate, bind, Option.bind_eq_some_iff, Option.some.injEq] at h
  obtain ⟨g, hg, rfl⟩ := h
  have hgi := gen_inits fs _ g hg
  have hq : insert (.call INITIALIZE_PROC) p ∈ g.decls := by
    rw [hgi.2]
    refine List.mem_append.mpr (Or.inr (List.mem_flatMap.mpr ⟨e, he, ?_⟩))
    rw [if_pos ⟨hdef, hent⟩]
    exact List.mem_map.mpr ⟨p, hp, rfl⟩
  have hnames : ∀ q ∈ g.decls, q.name ≠ INITIALIZE_PROC := by
    rw [hgi.2]
    intro q hq
    simp only [List.nil_append, List.mem_flatMap] at hq
    obtain ⟨f, hf, hq⟩ := hq
    split at hq
    · obtain ⟨r, hr, rfl⟩ := List.mem_map.mp hq
      rw [insert_name]
      exact hn f hf r hr
    · exact hn f hf q hq
  have hfind : find (g.decls ++ [initProc fl g.inits]) INITIALIZE_PROC = some (initProc fl g.inits) := by
    rw [find_append _ _ _ hnames]
    simp [find, initProc]
  have hlook : ∀ n q, find (g.decls ++ [initProc fl g.inits]) n = some q → ¬Reinit fs n → ∀ b ∈ q.blocks, Clean fs b.stmts := by
    intro n q hq hre
    obtain ⟨hmem, hname⟩ := find_some hq
    rcases List.mem_append.mp hmem with hm | hm
    · rw [hgi.2] at hm
      simp only [List.nil_append, List.mem_flatMap] at hm
      obtain ⟨f, hf, hm⟩ := hm
      split at hm
      · rename_i hcond
        obtain ⟨r, hr, rfl⟩ := List.mem_map.mp hm
        rw [insert_name] at hname
        exact (hre (Or.inr ⟨f, hf, hcond.2, r, hr, hname⟩)).elim
      · exact hcalls f hf q hm
    · rw [List.mem_singleton] at hm
      subst hm
      exact (hre (Or.inl hname.symm)).elim
  have e1 : (List.map Stmt.call g.inits ++ if fl then [Stmt.rmode] else []) = expected ms fl fs := by
    rw [hgi.1, List.map_append, List.map_flatMap]
    cases ms <;> simp [initial, STATIC_INIT_PROC, expected]
  refine ⟨_, List.mem_append.mpr (Or.inl hq), insert_name _ _,
    ⟨(insert (.call INITIALIZE_PROC) p).blocks, .call INITIALIZE_PROC :: b.stmts, b.succs⟩, ?_, ?_⟩
  · simp [enter, insert, hb]
  · have hins : (insert (.call INITIALIZE_PROC) p).blocks = { b with stmts := .call INITIALIZE_PROC :: b.stmts } :: bs := by
      simp [insert, hb]
    have hmain : CleanMain fs ⟨(insert (.call INITIALIZE_PROC) p).blocks, b.stmts, b.succs⟩ := by
      rw [hb] at hpred
      refine ⟨hcalls e he p hp b (by simp [hb]), hpred b (by simp), ?_, ?_⟩
      · simp only [hins]
        intro x hx
        rcases List.mem_cons.mp hx with rfl | hx
        · exact hpred b (by simp)
        · exact hpred x (by simp [hx])
      · simp only [hins, List.drop_one, List.tail_cons]
        intro x hx
        exact hcalls e he p hp x (by simp [hb, hx])
    intro c hc
    have key : (c.stack = [⟨(insert (.call INITIALIZE_PROC) p).blocks, .call INITIALIZE_PROC :: b.stmts, b.succs⟩] ∧
        c.trace = []) ∨ (Once fs c ∧ c.trace.head? = some (0, .call INITIALIZE_PROC)) := by
      induction hc with
      | refl => exact Or.inl ⟨rfl, rfl⟩
      | step d c' _ hs ih =>
        rcases ih with ⟨h1, h2⟩ | ⟨h1, h2⟩
        · right
          cases hs with
          | exec f s r σ t hr hn' =>
            simp only [List.cons.injEq] at h1
            obtain ⟨rfl, rfl⟩ := h1
            simp only [List.cons.injEq] at hr
            have := hn' INITIALIZE_PROC hr.1.symm
            rw [hfind] at this; cases this
          | call f n r σ t q g' hr hq' hg' =>
            simp only [List.cons.injEq] at h1
            obtain ⟨rfl, rfl⟩ := h1
            simp only [List.cons.injEq, Stmt.call.injEq] at hr
            obtain ⟨rfl, rfl⟩ := hr
            rw [hfind, Option.some.injEq] at hq'
            subst hq'
            simp only [enter, initProc, Option.some.injEq] at hg'
            subst hg'
            simp only at h2
            subst h2
            refine ⟨⟨[_], _, rfl, ?_, hmain, rfl⟩, rfl⟩
            intro f hf
            rw [List.mem_singleton] at hf
            subst hf
            simp only [CleanFrame, List.mem_singleton, forall_eq, e1]
            exact ⟨hinit, hinit⟩
          | goto f j b' σ t hr hj hb' =>
            simp only [List.cons.injEq] at h1
            obtain ⟨rfl, rfl⟩ := h1
            cases hr
          | ret f g' σ t hr hsu =>
            simp only [List.cons.injEq, reduceCtorEq, and_false] at h1
        · refine Or.inr ⟨once_step fs _ hlook h1 hs, ?_⟩
          cases hs with
          | exec => simp only at h2 ⊢; rw [List.head?_append, h2]; rfl
          | call => simp only at h2 ⊢; rw [List.head?_append, h2]; rfl
          | goto => exact h2
          | ret => exact h2
    rcases key with ⟨_, h⟩ | ⟨⟨_, _, _, _, _, h⟩, h'⟩
    · exact Or.inl h
    · exact Or.inr ⟨h', h⟩

/-- A module that meets the hypotheses: an init function, an entry point with two blocks that calls a helper. -/
def exMod : List Fun :=
  [⟨"__SMACK_init_func_a", false, true, true, [⟨"__SMACK_init_func_a", [⟨[.other 0], []⟩]⟩]⟩,
   ⟨"main", true, true, false, [⟨"main", [⟨[.other 1, .call "f"], [1]⟩, ⟨[.other 2], []⟩]⟩]⟩,
   ⟨"f", false, true, false, [⟨"f", [⟨[.other 3], []⟩]⟩]⟩]

example : ∃ ps, generate true true exMod = some ps ∧ (∀ f ∈ exMod, ∀ p ∈ f.procs, p.name ≠ "$initialize") ∧
    (∀ f ∈ exMod, ∀ p ∈ f.procs, ∀ b ∈ p.blocks, Clean exMod b.stmts) ∧ Clean exMod (expected true true exMod) := by
  have hre : ∀ n, Reinit exMod n ↔ n = "$initialize" ∨ n = "main" := by
    intro n
    constructor
    · rintro (rfl | ⟨f, hf, hfe, p, hp, rfl⟩)
      · exact Or.inl rfl
      · right
        have : ∀ f ∈ exMod, f.entry = true → ∀ p ∈ f.procs, p.name = "main" := by decide
        exact this f hf hfe p hp
    · rintro (rfl | rfl)
      · exact Or.inl rfl
      · exact Or.inr ⟨_, List.mem_cons_of_mem _ (List.mem_cons_self ..), rfl, _, List.mem_singleton.mpr rfl, rfl⟩
  have hcl : ∀ l, Clean exMod l ↔ Stmt.call "$initialize" ∉ l ∧ Stmt.call "main" ∉ l := by
    intro l
    refine ⟨fun h => ⟨fun hm => h _ hm ((hre _).mpr (Or.inl rfl)), fun hm => h _ hm ((hre _).mpr (Or.inr rfl))⟩, ?_⟩
    rintro ⟨h1, h2⟩ n hn hr
    rcases (hre n).mp hr with rfl | rfl
    · exact h1 hn
    · exact h2 hn
  simp only [hcl]
  exact ⟨_, rfl, by decide, by decide, by decide +kernel⟩

/-- **C61 fails when the entry point is called by the program** (C allows a recursive `main`): initialisation runs again, so
global variables get their initial values a second time. -/
theorem c61_recursion_fails : ∃ (fs : List Fun) (ps : List Proc) (start : Frame) (c : Conf),
    generate false false fs = some ps ∧ (find ps "main").bind enter = some start ∧ Reach ps ⟨[start], []⟩ c ∧
    (c.trace.map (·.2)).count (.call "$initialize") = 2 := by
  let main : List Blk := [⟨[.call "$initialize", .call "main"], []⟩]
  let init : List Blk := [⟨[.call "__SMACK_static_init"], []⟩]
  let ps : List Proc := [⟨"main", main⟩, ⟨"$initialize", init⟩]
  let t : List (Nat × Stmt) := [(0, .call "$initialize"), (1, .call "__SMACK_static_init"), (0, .call "main")]
  have r1 : Reach ps ⟨[⟨main, [.call "$initialize", .call "main"], []⟩], []⟩
      ⟨[⟨init, [.call "__SMACK_static_init"], []⟩, ⟨main, [.call "main"], []⟩], t.take 1⟩ :=
    .step _ _ .refl (.call _ _ _ _ _ _ _ rfl rfl rfl)
  have r2 := Reach.step _ _ r1 (.exec _ _ _ _ _ rfl (by rintro n ⟨rfl⟩; rfl))
  have r3 := Reach.step _ _ r2 (.ret _ _ _ _ rfl rfl)
  have r4 := Reach.step _ _ r3 (.call _ _ _ _ _ _ ⟨main, [.call "$initialize", .call "main"], []⟩ rfl rfl rfl)
  have r5 := Reach.step _ _ r4 (.call _ _ _ _ _ _ ⟨init, [.call "__SMACK_static_init"], []⟩ rfl rfl rfl)
  exact ⟨[⟨"main", true, true, false, [⟨"main", [⟨[.call "main"], []⟩]⟩]⟩], ps, _, _, rfl, rfl, r5, rfl⟩

/-! ### The memory model -/

/-- **The order lets user init functions run before the memory model is set up.** The libraries are linked behind the user's
files (frontend.py:490-492), so an init function of the user precedes `__SMACK_init_func_memory_model`, which sets
`$CurrAddr` to 1024 and the allocation counter to 0. A block allocated by the former can have the same address as the next
block allocated by the program, although it was never freed, in both memory models without reuse, with and without memory
safety. -/
theorem c61_memory_model_fails (c : Alloc.Cfg) (hc : c.model ≠ .reuse) (user : String)
    (hu : INIT_FUNC_PREFIX.toList <+: user.toList) (pu pm : Proc) :
    (∃ ps, generate c.safety false
        [⟨user, false, true, true, [pu]⟩, ⟨"__SMACK_init_func_memory_model", false, true, true, [pm]⟩] = some ps ∧
      ∃ p ∈ ps, p.name = "$initialize" ∧ ∃ b l, p.blocks = [b] ∧
        b.stmts = l ++ [.call user, .call "__SMACK_init_func_memory_model"]) ∧
    ∃ (I : Alloc.Interp) (s0 s1 s2 s3 : Alloc.St) (p q : Int),
      Alloc.mallocRel c I 8 p s0 s1 ∧                       -- the user's init function
      s2 = { s1 with curr := 1024, counter := 0 } ∧ Alloc.Init c s2 ∧   -- __SMACK_init_func_memory_model
      Alloc.mallocRel c I 8 q s2 s3 ∧ p = q ∧ (c.safety = true → s2.alloc p = true) := by
  constructor
  · have hx : hasPrefix user = true := (hasPrefix_iff user).mpr hu
    have hm : hasPrefix "__SMACK_init_func_memory_model" = true := by decide +kernel
    refine ⟨[pu, pm, initProc false (initial c.safety ++ [user] ++ ["__SMACK_init_func_memory_model"])], ?_,
      initProc false (initial c.safety ++ [user] ++ ["__SMACK_init_func_memory_model"]), by simp, rfl, _,
      (initial c.safety).map .call, rfl, by simp⟩
    simp [generate, genFun, genProc, hx, hm, List.foldlM, bind, pure]
  · obtain ⟨m, sf⟩ := c
    refine ⟨⟨fun _ => 1024, fun _ => 8, 100000⟩, ⟨fun _ => false, fun _ => 0, 1024, 0⟩,
      ⟨fun q => if sf = true ∧ q = 1024 then true else false, fun _ => 0, 1032, if sf then 1 else 0⟩, _,
      ⟨fun q => if sf = true ∧ q = 1024 then true else false, fun _ => 0, 1032, if sf then 1 else 0⟩, 1024, 1024,
      ?_, rfl, ⟨fun _ => rfl, fun _ => rfl⟩, ?_, rfl, fun h => by simpa using h⟩
    all_goals
      cases m <;> cases sf <;> simp [Alloc.mallocRel, Alloc.allocRel, Alloc.allocImpls, Alloc.allocImplsSafe,
        Alloc.allocNoReuse, Alloc.allocNoReuseSafe] at hc ⊢
    all_goals try (funext q; by_cases hq : q = 1024 <;> simp [hq])
    all_goals try (intro q hq hq'; exact (hq hq').elim)

end Smack.Init
