/-
Property C64: the pass MemorySafetyChecker turns exactly the illegal memory accesses of the selected functions, and leaks at the
end of entry points, into assertion failures.
-/
import Verif.MemSafe.Lemmas
import Verif.Alloc.Props
import Verif.Naming.Props
import Verif.Cfg.Props
import Verif.Graphs.Props

namespace Smack.MemSafe

open Smack.Cfg Smack.Cfg.Spec Smack.MemSafe.Spec

variable {M : Type}

/-- Which functions are instrumented: those without `__SMACK_` in their name that are selected by `--checked-functions` (every
function if the option is absent, otherwise those whose whole name is matched). -/
theorem c64_selected (opts : Opts) (name : Naming.Str) :
    instrumented opts name = true ↔
      (¬ ∃ a b, name = a ++ "__SMACK_".toList ++ b) ∧ Naming.shouldCheckFunction opts.checked name = true := by
  unfold instrumented isSmackName
  rw [Bool.not_eq_true', Bool.or_eq_false_iff, Bool.not_eq_false']
  refine and_congr ?_ Iff.rfl
  rw [show (∃ a b, name = a ++ "__SMACK_".toList ++ b) ↔ Graphs.hasInfix "__SMACK_".toList name = true from
    (Graphs.hasInfix_iff _ _).symm, Bool.not_eq_true]

/-- C64 for one function: the executions of the instrumented function are the executions of the original one in which an access to
memory that must not be accessed, and (in an entry point) a return with unreleased memory, is a failure. The other effects, results
and memories are the same. What may be accessed (`S`) and what the operations do (`P`) is arbitrary. The function has no atomic
instructions. -/
theorem c64_function_partial (O : Ops) (hO : O.leak ≠ O.check) (opts : Opts) (name : Naming.Str) (S : Safety M) (P : Params Int M) (fn : Fn Int)
    (hw : WfFn O fn) (ha : NoAtomics O fn) (hi : instrumented opts name = true) (ρ : Env Int) (m : M) (r : Res M) :
    (∃ o, Run { P with sem := withChecks O S P.sem } (runOnFunction O opts name fn) 0 ρ m o ∧ Res.of o = r) ↔
      GRun { P with sem := guarded O S P.sem } S (decide (name ∈ opts.entryPoints)) fn 0 ρ m r := by
  have he : Naming.isEntryPoint opts.entryPoints name = decide (name ∈ opts.entryPoints) := by
    unfold Naming.isEntryPoint
    rw [Bool.eq_iff_iff, List.any_eq_true]
    simp
  unfold runOnFunction
  rw [if_pos hi, he]
  constructor
  · rintro ⟨o, h, rfl⟩
    exact run_visit hO hw ha h
  · exact visit_run hO hw ha

/-- C64 for modules, with calls nested to any depth: after the pass, a call of any function has exactly the results it has before
the pass when illegal accesses in selected functions and leaks of entry points are failures. -/
theorem c64_module_partial (O : Ops) (hO : O.leak ≠ O.check) (opts : Opts) (S : Safety M) (P : Params Int M) (callee : Nat → Option Nat)
    (base : Sem M) (mod : List Func) (hw : ∀ F ∈ mod, WfFn O F.code) (ha : ∀ F ∈ mod, NoAtomics O F.code) (n op : Nat) (args : List Int)
    (m : M) (r : Option (Int × M)) :
    deep callee base (plainRun O S P) (runOnModule O opts mod) n op args m r ↔
      deep callee base (guardedRun O opts S P) mod n op args m r := by
  suffices h : deep callee base (plainRun O S P) (runOnModule O opts mod) n = deep callee base (guardedRun O opts S P) mod n by
    rw [h]
  clear r m args op
  induction n with
  | zero => rfl
  | succ n ih =>
    funext op args m r
    unfold deep
    cases hc : callee op with
    | none => rfl
    | some f =>
      simp only
      rw [ih]
      generalize deep callee base (guardedRun O opts S P) mod n = sem
      apply propext
      have key : ∀ F ∈ mod, ∀ res, plainRun O S P { F with code := runOnFunction O opts F.name F.code } sem args m res ↔
          guardedRun O opts S P F sem args m res := by
        intro F hF res
        unfold plainRun guardedRun
        by_cases hi : instrumented opts F.name = true
        · rw [if_pos hi]
          have := c64_function_partial O hO opts F.name S { P with sem := sem } F.code (hw F hF) (ha F hF) hi (bindArgs F.params args) m res
          rw [← this]
          constructor
          · rintro ⟨o, h1, rfl⟩; exact ⟨o, h1, rfl⟩
          · rintro ⟨o, h1, rfl⟩; exact ⟨o, h1, rfl⟩
        · rw [if_neg hi]
          simp only [runOnFunction, if_neg hi]
          rw [run_plain (hw F hF)]
          constructor
          · rintro ⟨o, h1, rfl⟩; exact ⟨o, h1, rfl⟩
          · rintro ⟨o, h1, rfl⟩; exact ⟨o, h1, rfl⟩
      constructor
      · rintro ⟨F', res, h1, h2, h3⟩
        unfold runOnModule at h1
        rw [List.getElem?_map] at h1
        cases hf : mod[f]? with
        | none => rw [hf] at h1; cases h1
        | some F =>
          rw [hf] at h1
          cases h1
          exact ⟨F, res, rfl, (key F (List.mem_of_getElem? hf) res).1 h2, h3⟩
      · rintro ⟨F, res, h1, h2, h3⟩
        refine ⟨_, res, ?_, (key F (List.mem_of_getElem? h1) res).2 h2, h3⟩
        unfold runOnModule
        rw [List.getElem?_map, h1]
        rfl

/-! ### With the allocator -/

open Smack.Alloc in
/-- A memory together with how its allocator state came about. -/
structure HeapMem (D : Type) (c : Alloc.Cfg) (I : Interp) (s0 : Alloc.St) where
  data : D
  st : Alloc.St
  hist : List Ev
  run : Alloc.Run c I s0 hist st
  globals : GlobalsOk hist
  noNull : c.model ≠ .impls → NoNullFree hist
  frees : LegalHeapFrees hist

/-- What the two procedures called by the inserted instructions assert. -/
def codeSafety (D : Type) (c : Alloc.Cfg) (I : Alloc.Interp) (s0 : Alloc.St) : Safety (HeapMem D c I s0) :=
  ⟨fun m p n => Alloc.check c I m.st p n, fun m => Alloc.leakCheck m.st⟩

/-- What C programmers expect, except that stack storage is never released (`c20_use_after_return_fails`) and empty accesses are
left to the check (`c20_empty_access_fails`, `c20_negative_length_fails`): an access lies in one live block, and no heap block is
live at the end. -/
def heapSafety (D : Type) (c : Alloc.Cfg) (I : Alloc.Interp) (s0 : Alloc.St) : Safety (HeapMem D c I s0) :=
  ⟨fun m p n => (1 ≤ n ∧ Alloc.Inside (Alloc.live (m.hist.filter fun e => match e with | .leave _ => false | _ => true)) p n) ∨
      (n < 1 ∧ Alloc.check c I m.st p n),
   fun m => ∀ b ∈ Alloc.live m.hist, b.kind ≠ .heap⟩

open Smack.Alloc in
theorem run_filter {c : Alloc.Cfg} {I : Interp} {s0 s : Alloc.St} {evs : List Ev} (h : Alloc.Run c I s0 evs s) :
    Alloc.Run c I s0 (evs.filter fun e => match e with | .leave _ => false | _ => true) s := by
  induction h with
  | nil => exact .nil
  | @snoc evs s e s' _ hs ih =>
    rw [List.filter_append]
    cases e with
    | leave p =>
      have hs : s' = s := hs
      rw [hs]
      simpa using ih
    | galloc a n => exact .snoc ih hs
    | stack n p => exact .snoc ih hs
    | malloc n p => exact .snoc ih hs
    | free p => exact .snoc ih hs

open Smack.Alloc in
theorem ever_filter (evs : List Ev) : ever (evs.filter fun e => match e with | .leave _ => false | _ => true) = ever evs := by
  unfold ever
  induction evs with
  | nil => rfl
  | cons e evs ih =>
    cases e <;> simp only [List.filter_cons, if_true, Bool.false_eq_true, if_false, List.filterMap_cons, ih, created]

/-- C64 with the memory models of the library: after the pass, a module fails or returns exactly as before the pass when accesses
outside the live blocks are failures (in the selected functions) and entry points must release all heap blocks. -/
theorem c64_heap_partial (D : Type) (c : Alloc.Cfg) (hc : c.safety = true) (I : Alloc.Interp) (s0 : Alloc.St) (h0 : Alloc.Init c s0)
    (he : Alloc.Empty s0) (O : Ops) (hO : O.leak ≠ O.check) (opts : Opts) (P : Params Int (HeapMem D c I s0)) (callee : Nat → Option Nat)
    (base : Sem (HeapMem D c I s0)) (mod : List Func) (hw : ∀ F ∈ mod, WfFn O F.code) (ha : ∀ F ∈ mod, NoAtomics O F.code)
    (n op : Nat) (args : List Int) (m : HeapMem D c I s0) (r : Option (Int × HeapMem D c I s0)) :
    deep callee base (plainRun O (codeSafety D c I s0) P) (runOnModule O opts mod) n op args m r ↔
      deep callee base (guardedRun O opts (heapSafety D c I s0) P) mod n op args m r := by
  have hs : codeSafety D c I s0 = heapSafety D c I s0 := by
    unfold codeSafety heapSafety
    congr 1
    · funext m p n
      apply propext
      by_cases hn : 1 ≤ n
      · have hr := run_filter m.run
        have hg : Alloc.GlobalsOk (m.hist.filter fun e => match e with | .leave _ => false | _ => true) := by
          have := m.globals
          unfold Alloc.GlobalsOk at this ⊢
          rw [ever_filter]
          exact this
        have h2 := Alloc.c20_check_exact_partial c hc I s0 m.st _ h0 he hr hg
          (fun h => fun hm => m.noNull h ((List.mem_filter.1 hm).1))
          (fun p hm => by
            have := (List.mem_filter.1 hm).2
            simp at this)
          p n hn
        rw [h2]
        constructor
        · intro h; exact .inl ⟨hn, h⟩
        · rintro (⟨_, h⟩ | ⟨h, _⟩)
          · exact h
          · omega
      · constructor
        · intro h; exact .inr ⟨by omega, h⟩
        · rintro (⟨h, _⟩ | ⟨_, h⟩)
          · omega
          · exact h
    · funext m
      apply propext
      exact Alloc.c21_leak_check_partial c hc I s0 m.st m.hist h0 m.run m.globals (fun h => m.noNull (by rw [h]; decide)) m.frees
  rw [hs]
  exact c64_module_partial O hO opts (heapSafety D c I s0) P callee base mod hw ha n op args m r

/-! ### With the translation to Boogie -/

section ssa
variable {O : Ops} {entry : Bool} {fn : Fn Int}

theorem edge_visit (b t : Nat) : Edge (fn.map (visitBlock O entry)) b t ↔ Edge fn b t := by
  unfold Edge
  constructor
  · rintro ⟨blk', h1, h2⟩
    obtain ⟨blk, h3, rfl⟩ := get_visit.1 h1
    exact ⟨blk, h3, h2⟩
  · rintro ⟨blk, h1, h2⟩
    exact ⟨_, get_visit.2 ⟨blk, h1, rfl⟩, h2⟩

theorem dsts_append (a b : List (Instr Int)) : dsts (a ++ b) = dsts a ++ dsts b := List.filterMap_append ..

theorem dsts_visitInstr (i : Instr Int) : dsts (visitInstr O i) = dsts [i] := by
  unfold visitInstr
  rw [dsts_append]
  have : dsts ((checksOf (O.kind i.op) i.args).map (checkInstr O)) = [] := by
    unfold dsts
    rw [List.filterMap_eq_nil_iff]
    intro a ha
    obtain ⟨b, _, rfl⟩ := List.mem_map.1 ha
    rfl
  rw [this, List.nil_append]

theorem dsts_flat (is : List (Instr Int)) : dsts (is.flatMap (visitInstr O)) = dsts is := by
  induction is with
  | nil => rfl
  | cons i is ih =>
    rw [List.flatMap_cons, dsts_append, ih, dsts_visitInstr, ← dsts_append]
    rfl

theorem dsts_visitBlock (blk : Block Int) : dsts (visitBlock O entry blk).body = dsts blk.body := by
  unfold visitBlock
  rw [dsts_append, dsts_flat]
  split
  · rw [show dsts [leakInstr O] = [] from rfl, List.append_nil]
  · rw [show dsts ([] : List (Instr Int)) = [] from rfl, List.append_nil]

theorem defIn_visit (x : Var) (d : Nat) : DefIn (fn.map (visitBlock O entry)) x d ↔ DefIn fn x d := by
  unfold DefIn
  constructor
  · rintro ⟨blk', h1, h2⟩
    obtain ⟨blk, h3, rfl⟩ := get_visit.1 h1
    rw [dsts_visitBlock] at h2
    exact ⟨blk, h3, h2⟩
  · rintro ⟨blk, h1, h2⟩
    refine ⟨_, get_visit.2 ⟨blk, h1, rfl⟩, ?_⟩
    rw [dsts_visitBlock]
    exact h2

theorem avoid_visit (d b : Nat) : Avoid (fn.map (visitBlock O entry)) d b ↔ Avoid fn d b := by
  constructor
  · intro h
    induction h with
    | entry h => exact .entry h
    | step b t _ h2 h3 ih => exact .step b t ih ((edge_visit b t).1 h2) h3
  · intro h
    induction h with
    | entry h => exact .entry h
    | step b t _ h2 h3 ih => exact .step b t ih ((edge_visit b t).2 h2) h3

theorem dom_visit (d b : Nat) : Dom (fn.map (visitBlock O entry)) d b ↔ Dom fn d b := not_congr (avoid_visit d b)

theorem reach_visit (b : Nat) : Reach (fn.map (visitBlock O entry)) b ↔ Reach fn b := by
  constructor
  · intro h
    induction h with
    | entry => exact .entry
    | step b t _ h2 ih => exact .step b t ih ((edge_visit b t).1 h2)
  · intro h
    induction h with
    | entry => exact .entry
    | step b t _ h2 ih => exact .step b t ih ((edge_visit b t).2 h2)

theorem availEnd_visit (b : Nat) (x : Var) : AvailEnd (fn.map (visitBlock O entry)) b x ↔ AvailEnd fn b x := by
  unfold AvailEnd
  constructor
  · intro h d hd; exact (dom_visit d b).1 (h d ((defIn_visit x d).2 hd))
  · intro h d hd; exact (dom_visit d b).2 (h d ((defIn_visit x d).1 hd))

/-- An instruction of an instrumented block: its operands are operands of an instruction of the original block, before which the
same variables are defined. -/
theorem flat_index (is : List (Instr Int)) : ∀ (j : Nat) (ins : Instr Int), (is.flatMap (visitInstr O))[j]? = some ins →
    ∃ (k : Nat) (old : Instr Int), is[k]? = some old ∧ (∀ o ∈ ins.args, o ∈ old.args ∨ ∃ v, o = .const v) ∧
      dsts ((is.flatMap (visitInstr O)).take j) = dsts (is.take k) := by
  induction is with
  | nil => intro j ins h; simp at h
  | cons i is ih =>
    intro j ins h
    rw [List.flatMap_cons] at h ⊢
    by_cases hj : j < (visitInstr O i).length
    · rw [List.getElem?_append_left hj] at h
      refine ⟨0, i, rfl, ?_, ?_⟩
      · have hm := List.mem_of_getElem? h
        unfold visitInstr at hm
        rcases List.mem_append.1 hm with h1 | h1
        · obtain ⟨a, h2, rfl⟩ := List.mem_map.1 h1
          intro o ho
          have ho : o = a.1 ∨ o = a.2 := by simpa [checkInstr] using ho
          revert h2
          generalize O.kind i.op = k
          generalize i.args = args
          intro h2
          unfold checksOf at h2
          split at h2
          · simp only [List.mem_singleton] at h2; subst h2
            rcases ho with rfl | rfl
            · exact .inl (List.mem_cons_self ..)
            · exact .inr ⟨_, rfl⟩
          · simp only [List.mem_singleton] at h2; subst h2
            rcases ho with rfl | rfl
            · exact .inl (by simp)
            · exact .inr ⟨_, rfl⟩
          · simp only [List.mem_singleton] at h2; subst h2
            rcases ho with rfl | rfl <;> exact .inl (by simp)
          · simp only [List.mem_cons, List.not_mem_nil, or_false] at h2
            rcases h2 with rfl | rfl <;> rcases ho with rfl | rfl <;> exact .inl (by simp)
          · simp at h2
        · rw [List.mem_singleton] at h1
          subst h1
          intro o ho
          exact .inl ho
      · have : dsts ((visitInstr O i ++ is.flatMap (visitInstr O)).take j) = [] := by
          rw [List.take_append_of_le_length (Nat.le_of_lt hj)]
          unfold dsts
          rw [List.filterMap_eq_nil_iff]
          intro a ha
          have hl : j ≤ ((checksOf (O.kind i.op) i.args).map (checkInstr O)).length := by
            unfold visitInstr at hj
            rw [List.length_append, List.length_singleton] at hj
            omega
          unfold visitInstr at ha
          rw [List.take_append_of_le_length hl] at ha
          obtain ⟨b, _, rfl⟩ := List.mem_map.1 (List.mem_of_mem_take ha)
          rfl
        rw [this]
        rfl
    · have hj : (visitInstr O i).length ≤ j := by omega
      rw [List.getElem?_append_right hj] at h
      obtain ⟨k, old, h1, h2, h3⟩ := ih _ ins h
      refine ⟨k + 1, old, by simpa using h1, h2, ?_⟩
      rw [List.take_append, dsts_append, List.take_of_length_le hj, h3, dsts_visitInstr, List.take_succ_cons, ← dsts_append]
      rfl

theorem ssa_visit (hs : Ssa fn) : Ssa (fn.map (visitBlock O entry)) := by
  constructor
  · rw [List.length_map]; exact hs.nonempty
  · intro x d d' h1 h2
    exact hs.unique x d d' ((defIn_visit x d).1 h1) ((defIn_visit x d').1 h2)
  · intro b blk' h
    obtain ⟨blk, h3, rfl⟩ := get_visit.1 h
    rw [dsts_visitBlock]
    exact hs.nodup b blk h3
  · intro b blk' i ins h1 h2 o ho
    obtain ⟨blk, h3, rfl⟩ := get_visit.1 h1
    have key : ∃ (k : Nat) (old : Instr Int), blk.body[k]? = some old ∧ (∀ o ∈ ins.args, o ∈ old.args ∨ ∃ v, o = .const v) ∧
        ∀ x, x ∈ dsts (blk.body.take k) → x ∈ dsts ((visitBlock O entry blk).body.take i) := by
      have h2' := h2
      unfold visitBlock at h2 ⊢
      by_cases hi : i < (blk.body.flatMap (visitInstr O)).length
      · rw [List.getElem?_append_left hi] at h2
        obtain ⟨k, old, h4, h5, h6⟩ := flat_index _ i ins h2
        refine ⟨k, old, h4, h5, ?_⟩
        intro x hx
        rw [List.take_append_of_le_length (Nat.le_of_lt hi), h6]
        exact hx
      · rw [List.getElem?_append_right (by omega)] at h2
        exfalso
        have hm := List.mem_of_getElem? h2
        split at hm
        · rw [List.mem_singleton] at hm
          subst hm
          simp [leakInstr] at ho
        · simp at hm
    obtain ⟨k, old, h4, h5, h6⟩ := key
    rcases h5 o ho with h7 | ⟨v, rfl⟩
    · have := hs.body b blk k old h3 h4 o h7
      cases o with
      | const v => trivial
      | var x =>
        intro d hd
        rcases this d ((defIn_visit x d).1 hd) with ⟨h8, h9⟩ | ⟨h8, blk2, h9, h10⟩
        · exact .inl ⟨h8, (dom_visit d b).2 h9⟩
        · rw [h3] at h9
          cases h9
          exact .inr ⟨h8, _, h1, h10.imp id (h6 x)⟩
    · trivial
  · intro b blk' h o ho
    obtain ⟨blk, h3, rfl⟩ := get_visit.1 h
    have := hs.term b blk h3 o ho
    cases o with
    | const v => trivial
    | var x => exact (availEnd_visit b x).2 this
  · intro b t blk' h1 h2 p hp
    obtain ⟨blk, h3, rfl⟩ := get_visit.1 h2
    obtain ⟨o, h4, h5⟩ := hs.phi b t blk ((edge_visit b t).1 h1) h3 p hp
    refine ⟨o, h4, ?_⟩
    cases o with
    | const v => trivial
    | var x => exact (availEnd_visit b x).2 h5
  · intro t blk' h p hp q hq
    obtain ⟨blk, h3, rfl⟩ := get_visit.1 h
    exact (edge_visit _ _).2 (hs.phiPreds t blk h3 p hp q hq)
  · intro b t h
    rw [List.length_map]
    exact hs.succs b t ((edge_visit b t).1 h)
  · intro b h
    exact hs.entry b ((edge_visit b 0).1 h)

theorem plain_visit (hp : Plain fn) : Plain (fn.map (visitBlock O entry)) := by
  constructor
  · intro b blk' c cs d h
    obtain ⟨blk, h3, rfl⟩ := get_visit.1 h
    exact hp.noSwitch b blk c cs d h3
  · intro b blk' h
    obtain ⟨blk, h3, rfl⟩ := get_visit.1 h
    exact hp.distinct b blk h3
  · intro b blk' n u h1 h2 t ht blk2' h4
    obtain ⟨blk, h3, rfl⟩ := get_visit.1 h1
    obtain ⟨blk2, h5, rfl⟩ := get_visit.1 h4
    exact hp.invoke b blk n u h3 h2 t ht blk2 h5

theorem normalised_visit (hn : Normalised fn) : Normalised (fn.map (visitBlock O entry)) := by
  intro b blk' t blk2' h1 h2 h3 h4 h5 h6
  obtain ⟨blk, h7, rfl⟩ := get_visit.1 h2
  obtain ⟨blk2, h8, rfl⟩ := get_visit.1 h5
  rw [dom_visit]
  exact hn b blk t blk2 ((reach_visit b).1 h1) h7 h3 h4 h8 h6

end ssa

/-- C64 together with C26: the Boogie code generated for the instrumented function fails or returns exactly like the original LLVM
function in which illegal accesses and leaks are failures. (The pass runs after NormalizeLoops.) -/
theorem c64_boogie_partial (O : Ops) (hO : O.leak ≠ O.check) (opts : Opts) (name : Naming.Str) (S : Safety M) (P : Params Int M) (fn : Fn Int)
    (hw : WfFn O fn) (ha : NoAtomics O fn) (hi : instrumented opts name = true) (hs : Ssa fn) (hp : Plain fn) (hn : Normalised fn)
    (ρ : Env Int) (m : M) (r : Res M) :
    (∃ n o, BRun { P with sem := withChecks O S P.sem } (translate (runOnFunction O opts name fn)) n
        (translate (runOnFunction O opts name fn) (.real 0)) ⟨ρ, m, none⟩ o ∧ Res.of o = r) ↔
      GRun { P with sem := guarded O S P.sem } S (decide (name ∈ opts.entryPoints)) fn 0 ρ m r := by
  rw [← c64_function_partial O hO opts name S P fn hw ha hi ρ m r]
  have hr : runOnFunction O opts name fn = fn.map (visitBlock O (Naming.isEntryPoint opts.entryPoints name)) := by
    unfold runOnFunction
    rw [if_pos hi]
  have hc := fun o => c26_executions { P with sem := withChecks O S P.sem } (runOnFunction O opts name fn)
    (by rw [hr]; exact ssa_visit hs) (by rw [hr]; exact plain_visit hp) (by rw [hr]; exact normalised_visit hn) ρ ρ m
    (fun _ _ => rfl) o
  constructor
  · rintro ⟨n, o, h1, h2⟩
    exact ⟨o, (hc o).2 ⟨n, h1⟩, h2⟩
  · rintro ⟨o, h1, h2⟩
    obtain ⟨n, h3⟩ := (hc o).1 h1
    exact ⟨n, o, h3, h2⟩

/-! ### Hypotheses are met -/

/-- Operations: 0 is `load i32`, 1 is `store i32`, 2 is `memcpy`, 3 is `atomicrmw` on i32, 4 is `call f`, 8 and 9 are the checks. -/
def exOps : Ops where
  kind
    | 0 => .load 4
    | 1 => .store 4
    | 2 => .memTransfer
    | 3 => .atomic 4
    | _ => .other
  check := 8
  leak := 9

/-- `main(p, q) { memcpy(p, q, 16); x = *q; *p = x; return x; }` -/
def exMain : Func := ⟨"main".toList, [0, 1],
  [⟨[], [⟨none, 2, [.var 0, .var 1, .const 16, .const 0]⟩, ⟨some 2, 0, [.var 1]⟩, ⟨none, 1, [.var 2, .var 0]⟩], .ret (some (.var 2))⟩]⟩

def exOpts : Opts := ⟨["main".toList], []⟩

example : exOps.leak ≠ exOps.check ∧ WfFn exOps exMain.code ∧ NoAtomics exOps exMain.code ∧
    instrumented exOpts exMain.name = true := by
  refine ⟨by decide, ?_, ?_, by decide⟩
  · intro blk hb i hi
    simp only [exMain, List.mem_singleton] at hb
    subst hb
    simp only [List.mem_cons, List.not_mem_nil, or_false] at hi
    rcases hi with rfl | rfl | rfl <;> exact ⟨by decide, by decide, rfl⟩
  · intro blk hb i hi n
    simp only [exMain, List.mem_singleton] at hb
    subst hb
    simp only [List.mem_cons, List.not_mem_nil, or_false] at hi
    rcases hi with rfl | rfl | rfl <;> simp [exOps]

/-- The instrumented function: destination and source are checked before the copy, then the load, the store and the leak check. -/
example : ((runOnFunction exOps exOpts exMain.name exMain.code).map fun b => b.body.map fun i => (i.op, i.args)) =
    [[(8, [.var 0, .const 16]), (8, [.var 1, .const 16]), (2, [.var 0, .var 1, .const 16, .const 0]),
      (8, [.var 1, .const 4]), (0, [.var 1]), (8, [.var 0, .const 4]), (1, [.var 2, .var 0]), (9, [])]] := by
  decide

example : Ssa exMain.code ∧ Plain exMain.code ∧ Normalised exMain.code := by
  have hget : ∀ (b : Nat) blk, exMain.code[b]? = some blk → b = 0 ∧ blk = ⟨[], [⟨none, 2, [.var 0, .var 1, .const 16, .const 0]⟩,
      ⟨some 2, 0, [.var 1]⟩, ⟨none, 1, [.var 2, .var 0]⟩], .ret (some (.var 2))⟩ := by
    intro b blk h
    match b, h with
    | 0, h => exact ⟨rfl, by cases h; rfl⟩
  have hedge : ∀ b t, ¬ Edge exMain.code b t := by
    rintro b t ⟨blk, h, ht⟩
    obtain ⟨rfl, rfl⟩ := hget b blk h
    simp [Term.succs] at ht
  have hdef : ∀ x d, DefIn exMain.code x d → d = 0 ∧ x = 2 := by
    rintro x d ⟨blk, h, hx⟩
    obtain ⟨rfl, rfl⟩ := hget d blk h
    simpa [dsts] using hx
  have hdom : Dom exMain.code 0 0 := by
    intro h
    cases h with
    | entry h => exact h rfl
    | step b t _ h => exact hedge _ _ h
  refine ⟨⟨by decide, ?_, ?_, ?_, ?_, ?_, ?_, ?_, ?_⟩, ⟨?_, ?_, ?_⟩, ?_⟩
  · intro x d d' h h'; rw [(hdef x d h).1, (hdef x d' h').1]
  · intro b blk h; obtain ⟨rfl, rfl⟩ := hget b blk h; decide
  · intro b blk i ins h hi o ho
    obtain ⟨rfl, rfl⟩ := hget b blk h
    cases o with
    | const v => trivial
    | var x =>
      intro d hd
      obtain ⟨rfl, rfl⟩ := hdef x d hd
      refine .inr ⟨rfl, _, h, .inr ?_⟩
      match i, hi with
      | 0, hi => cases hi; simp at ho
      | 1, hi => cases hi; simp at ho
      | 2, hi => decide
      | i + 3, hi => simp at hi
  · intro b blk h o ho
    obtain ⟨rfl, rfl⟩ := hget b blk h
    cases o with
    | const v => trivial
    | var x => intro d hd; rw [(hdef x d hd).1]; exact hdom
  · intro b t blk h; exact absurd h (hedge b t)
  · intro t blk h p hp; obtain ⟨rfl, rfl⟩ := hget t blk h; simp at hp
  · intro b t h; exact absurd h (hedge b t)
  · intro b h; exact hedge b 0 h
  · intro b blk c cs d h; obtain ⟨rfl, rfl⟩ := hget b blk h; simp
  · intro b blk h; obtain ⟨rfl, rfl⟩ := hget b blk h; decide
  · intro b blk n u h h2; obtain ⟨rfl, rfl⟩ := hget b blk h; simp at h2
  · intro b blk t blk' _ h h2; obtain ⟨rfl, rfl⟩ := hget b blk h; simp [Term.succs] at h2

/-- A memory after `malloc(8)` in the default model. -/
example : HeapMem Unit ⟨.impls, true⟩ Alloc.I0 Alloc.st0 where
  data := ()
  st := _
  hist := [.malloc 8 1024]
  run := Alloc.run_malloc_impls
  globals := ⟨by simp [Alloc.ever, Alloc.created], by simp [Alloc.ever, Alloc.created]⟩
  noNull := fun h => absurd rfl h
  frees := by
    intro pre p post h
    exfalso
    match pre, h with
    | [], h => simp at h
    | [_], h => simp at h
    | _ :: _ :: _, h => simp at h

/-! ### Where it fails -/

/-- C64 fails for atomic instructions: a function that consists of an atomic instruction is not changed by the pass (but for the leak
check), so it executes the access without failing although the access is illegal. -/
theorem c64_atomic_fails (O : Ops) (S : Safety M) (P : Params Int M) (op size : Nat) (hk : O.kind op = .atomic size)
    (h1 : op ≠ O.check) (h2 : op ≠ O.leak) (p : Int) (x v : Int) (m m' : M) (hbad : ¬ S.ok m p size)
    (hsem : P.sem op [p, x] m (some (v, m'))) (opts : Opts) (name : Naming.Str) (hne : name ∉ opts.entryPoints) (ρ : Env Int) :
    let fn : Fn Int := [⟨[], [⟨some 0, op, [.const p, .const x]⟩], .ret none⟩]
    (∃ o, Run { P with sem := withChecks O S P.sem } (runOnFunction O opts name fn) 0 ρ m o ∧
      Res.of o = .ret none (P.setExn false m')) ∧
    ¬ GRun { P with sem := guarded O S P.sem } S (decide (name ∈ opts.entryPoints)) fn 0 ρ m (.ret none (P.setExn false m')) := by
  intro fn
  have hfn : runOnFunction O opts name fn = fn := by
    unfold runOnFunction
    split
    · have he : Naming.isEntryPoint opts.entryPoints name = false := by
        unfold Naming.isEntryPoint
        rw [List.any_eq_false]
        intro ep hep
        simp only [decide_eq_true_eq]
        rintro rfl
        exact hne hep
      rw [he]
      simp [fn, visitBlock, visitInstr, hk, checksOf]
    · rfl
  constructor
  · rw [hfn]
    refine ⟨.ret none (P.setExn false m'), .leave 0 _ ρ m _ m' _ rfl (.cons _ _ _ _ v m' _ _ ?_ (.nil _ _)) rfl, rfl⟩
    show withChecks O S P.sem op [p, x] m _
    rw [sem_other _ h1 h2]
    exact hsem
  · have hno : ∀ r, ¬ guarded O S P.sem op [p, x] m (some r) := by
      rintro r (⟨_, h⟩ | ⟨h, _⟩)
      · cases h
      · refine h ⟨(p, size), ?_, hbad⟩
        rw [hk]
        exact List.mem_singleton.2 rfl
    have hex : ∀ ρ₁ m₁ (blk : Block Int), fn[0]? = some blk → ¬ Exec { P with sem := guarded O S P.sem } blk.body ρ m ρ₁ m₁ := by
      intro ρ₁ m₁ blk hb h
      cases hb
      obtain ⟨v', m'', h3, _⟩ := exec_cons.1 h
      exact hno _ h3
    intro h
    generalize hr : Res.ret none (P.setExn false m') = r at h
    cases h with
    | fail b blk ρ m o hb hf => cases hr
    | leak b blk ρ m ρ₁ m₁ hb he => exact hex _ _ _ hb he
    | leave b blk ρ m ρ₁ m₁ o hb he => exact hex _ _ _ hb he
    | step b blk ρ m ρ₁ m₁ t blk' r hb he => exact hex _ _ _ hb he

/-- The hypotheses of `c64_atomic_fails` are met by `exOps`. -/
example : exOps.kind 3 = .atomic 4 ∧ (3 : Nat) ≠ exOps.check ∧ 3 ≠ exOps.leak ∧ "f".toList ∉ exOpts.entryPoints := by decide

end Smack.MemSafe
