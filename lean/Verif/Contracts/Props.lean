/-
C80: contract expressions mean what the arguments of the contract calls mean, and the rest of the function is unchanged.
-/
import Verif.Contracts.Region
import Verif.Emit.Props

namespace Smack.Contracts

open Spec

variable {S : Type} {I : Interp S}

/-- C80: splitting the blocks at the contract calls changes no execution: the same contract calls with the same values, the same result. -/
theorem c80_split (F : List Block) (hF : Fresh F) (hT : ∀ B ∈ F, ∀ s : S, ∀ b, next I B.term s = some b → b.2 = 0) (b : Name) (hb : b.2 = 0)
    (s s' : S) (tr : List (Kind × Bool)) : Result I F b s tr s' ↔ Result I (splitFn F) b s tr s' := by
  constructor
  · exact result_to_split hF
  · intro h
    have hC : ∃ C, find (splitFn F) b = some C := by
      cases h with
      | ret hf _ => exact ⟨_, hf⟩
      | go hf _ _ => exact ⟨_, hf⟩
    obtain ⟨C, hC⟩ := hC
    obtain ⟨h1, h2⟩ := find_some hC
    obtain ⟨B, hB, hCB⟩ := List.mem_flatMap.1 h1
    have e := (splitBlock_names _ _ _ _ C hCB).1
    have hb1 : b = (B.name.1, 0) := by
      rw [← h2] at hb ⊢
      exact Prod.ext e hb
    have hb2 : b = B.name := hb1.trans (Prod.ext rfl (hF.2 B hB).symm)
    have hf : find F b = some B := by rw [hb2]; exact find_mem hF.1 hB
    exact (result_iff_rest hf).2 (result_from_split hF hT h B hB 0 B.instrs hb1 (fun D hD => mem_splitFn hB hD))

/-- C80: after splitting, every contract call is the last instruction of its block. -/
theorem c80_split_last (F : List Block) : Ready (splitFn F) := splitFn_ready F

/-- C80: the value of the contract expression for an invocation of a region is the value of the argument when the invocation is first reached, and
true when the region is left, or the function returns, without reaching it. -/
theorem c80_expr (R : List Block) (hr : Ready R) (ii : Name) (Bi : Block) (x : List Instr) (k : Kind) (a : Nat) (hi : find R ii = some Bi)
    (ei : Bi.instrs = x ++ [.contract k a]) (ht : Bi.term ≠ .ret) (e : Name) (s : S) (v : Bool) :
    Eval I (exprFn R ii) e s v ↔ ExprValue I R ii e s v :=
  ⟨exprValue_of_eval hr hi ei ht rfl, eval_of_exprValue hr hi ei ht⟩

/-! ### Which invocations become clauses -/

theorem through_mem {l : Name} {F : List Block} {B : Block} (h : B ∈ through l F) : B ∈ F := by
  induction F with
  | nil => cases h
  | cons b r ih =>
    rw [through] at h
    split at h
    · rw [List.mem_singleton.1 h]; exact List.mem_cons_self ..
    · rcases List.mem_cons.1 h with rfl | h
      · exact List.mem_cons_self ..
      · exact List.mem_cons_of_mem _ (ih h)

theorem through_append {l : Name} {A C : List Block} (h : ∀ B ∈ A, B.name ≠ l) : through l (A ++ C) = A ++ through l C := by
  induction A with
  | nil => rfl
  | cons b A ih =>
    rw [List.cons_append, through, if_neg (h b (List.mem_cons_self ..)), ih (fun B hB => h B (List.mem_cons_of_mem _ hB))]
    rfl

theorem through_before {l : Name} {A C : List Block} {D : Block} (h : ∀ B ∈ A, B.name ≠ l) (hD : D.name = l) :
    through l (A ++ D :: C) = A ++ [D] := by
  rw [through_append h, through, if_pos hD]

/-- The recorded blocks are those with a contract call. -/
theorem recorded_iff (n : Nat) (t : Term) (k : Nat) (is : List Instr) (B : Block) (hB : B ∈ splitBlock n k is t) :
    (B.name ∈ (splitBlock n k is t).dropLast.map (·.name)) ↔ ∃ k a, Instr.contract k a ∈ B.instrs := by
  induction k, is using split_induction with
  | h0 k is h =>
    rw [splitBlock_none h] at hB ⊢
    cases List.mem_singleton.1 hB
    constructor
    · intro h; cases h
    · rintro ⟨k', a', h'⟩
      exact absurd h' (splitFirst_none h k' a')
  | h1 k is a b h ih =>
    have nd := splitBlock_nodup n t k is
    rw [splitBlock_some h] at hB nd ⊢
    have hne : splitBlock n (k + 1) b t ≠ [] := by
      cases h' : splitFirst b with
      | none => rw [splitBlock_none h']; nofun
      | some p => rw [splitBlock_some (a := p.1) (b := p.2) h']; nofun
    rw [List.dropLast_cons_of_ne_nil hne, List.map_cons, List.mem_cons]
    rw [List.map_cons, List.nodup_cons] at nd
    rcases List.mem_cons.1 hB with rfl | hB
    · obtain ⟨_, x, k', c, e, _⟩ := splitFirst_spec h
      refine ⟨fun _ => ⟨k', c, ?_⟩, fun _ => .inl rfl⟩
      show _ ∈ a
      rw [e]; simp
    · rw [← ih hB]
      constructor
      · rintro (h' | h')
        · exact absurd (List.mem_map.2 ⟨B, hB, h'⟩) nd.1
        · exact h'
      · exact .inr

theorem split_at_last {l : Name} {L : List Block} (h : ∃ D ∈ L, D.name = l) : ∃ A D C, L = A ++ D :: C ∧ D.name = l ∧ ∀ B ∈ A, B.name ≠ l := by
  induction L with
  | nil => obtain ⟨D, hD, _⟩ := h; cases hD
  | cons b L ih =>
    by_cases hb : b.name = l
    · exact ⟨[], b, L, rfl, hb, by simp⟩
    · obtain ⟨D, hD, e⟩ := h
      rcases List.mem_cons.1 hD with rfl | hD
      · exact absurd e hb
      · obtain ⟨A, D, C, rfl, h1, h2⟩ := ih ⟨D, hD, e⟩
        refine ⟨b :: A, D, C, rfl, h1, ?_⟩
        intro B hB
        rcases List.mem_cons.1 hB with rfl | hB
        · exact hb
        · exact h2 B hB

/-- The recorded names in layout order are a sublist of the names of the blocks. -/
theorem recorded_sub (lo : Loops) (F : List Block) (P : Nat → Bool) :
    List.Sublist (F.flatMap fun b => if P b.name.1 then recorded b else []) ((splitFn F).map (·.name)) := by
  induction F with
  | nil => exact .slnil
  | cons b F ih =>
    show List.Sublist ((if P b.name.1 then recorded b else []) ++ _) (((splitBlock b.name.1 0 b.instrs b.term) ++ splitFn F).map (·.name))
    rw [List.map_append]
    refine List.Sublist.append ?_ ih
    split
    · unfold recorded
      exact (List.dropLast_sublist _).map _
    · exact List.nil_sublist _

/-- The block of a contract call whose loop satisfies `P` is recorded. -/
theorem mem_recorded {F : List Block} {P : Nat → Bool} {B : Block} (hB : B ∈ splitFn F) (hP : P B.name.1 = true)
    (hc : ∃ k a, Instr.contract k a ∈ B.instrs) : B.name ∈ F.flatMap fun b => if P b.name.1 then recorded b else [] := by
  obtain ⟨b, hb, hBb⟩ := List.mem_flatMap.1 hB
  refine List.mem_flatMap.2 ⟨b, hb, ?_⟩
  rw [← (splitBlock_names _ _ _ _ B hBb).1, if_pos hP]
  exact (recorded_iff _ _ _ _ B hBb).2 hc

/-- If `l` is the last of the names `ns`, which are in the order of `L`, then every block with a name in `ns` comes through `l`. -/
theorem prefix_mem {ns : List Name} {L : List Block} (hs : List.Sublist ns (L.map (·.name))) (hnd : (L.map (·.name)).Nodup) {B : Block} (hB : B ∈ L)
    (hn : B.name ∈ ns) : B ∈ blockPrefix ns L := by
  unfold blockPrefix
  cases hl : ns.getLast? with
  | none => rw [List.getLast?_eq_none_iff.1 hl] at hn; cases hn
  | some l =>
    dsimp only
    obtain ⟨ns', rfl⟩ : ∃ ns', ns = ns' ++ [l] := by
      obtain ⟨ns', h⟩ := List.getLast?_eq_some_iff.1 hl
      exact ⟨ns', h⟩
    have hlm : l ∈ L.map (·.name) := hs.subset (by simp)
    obtain ⟨D, hD, hDl⟩ := List.mem_map.1 hlm
    obtain ⟨A, D', C, rfl, h1, h2⟩ := split_at_last ⟨D, hD, hDl⟩
    rw [through_before h2 h1]
    rcases List.mem_append.1 hB with hBA | hBC
    · exact List.mem_append_left _ hBA
    · rcases List.mem_cons.1 hBC with rfl | hBC
      · simp
      · exfalso
        -- `B` comes after `l` in `L`, but before or at `l` in `ns`
        rw [List.map_append, List.map_cons, h1] at hs hnd
        rw [List.nodup_append] at hnd
        have hBl : B.name ≠ l := by
          intro h
          exact (List.nodup_cons.1 hnd.2.1).1 (List.mem_map.2 ⟨B, hBC, h⟩)
        have hn' : B.name ∈ ns' := by
          rcases List.mem_append.1 hn with h | h
          · exact h
          · exact absurd (List.mem_singleton.1 h) hBl
        obtain ⟨u, v, rfl⟩ := List.append_of_mem hn'
        have hs' : List.Sublist [B.name, l] (A.map (·.name) ++ l :: C.map (·.name)) := by
          refine List.Sublist.trans ?_ hs
          have h3 : List.Sublist [B.name, l] (B.name :: (v ++ [l])) := .cons_cons _ (List.sublist_append_right _ _)
          have : u ++ B.name :: v ++ [l] = u ++ (B.name :: (v ++ [l])) := by simp
          rw [this]
          exact h3.trans (List.sublist_append_right _ _)
        have hBA : B.name ∉ A.map (·.name) := by
          intro h
          exact hnd.2.2 _ h _ (List.mem_cons_of_mem _ (List.mem_map.2 ⟨B, hBC, rfl⟩)) rfl
        have key : ∀ (A : List Name), B.name ∉ A → ¬ List.Sublist [B.name, l] (A ++ l :: C.map (·.name)) := by
          intro A
          induction A with
          | nil =>
            intro _ h
            rw [List.nil_append] at h
            cases h with
            | cons _ h => exact (List.nodup_cons.1 hnd.2.1).1 (h.subset (by simp))
            | cons_cons => exact hBl rfl
          | cons c A ih =>
            intro hc h
            rw [List.cons_append] at h
            cases h with
            | cons _ h => exact ih (fun h' => hc (List.mem_cons_of_mem _ h')) h
            | cons_cons => exact hc (List.mem_cons_self ..)
        exact key _ hBA hs'

theorem clauses_mem {R : List Block} {B : Block} (hB : B ∈ R) {x : List Instr} {k : Kind} {a : Nat} (e : B.instrs = x ++ [.contract k a])
    (h : ∀ k a, Instr.contract k a ∉ x) : (k, B.name) ∈ clauses R := by
  unfold clauses
  refine List.mem_filterMap.2 ⟨B, hB, ?_⟩
  rw [e, findContract_last h]

/-- C80: every contract call outside of loops becomes a clause of its kind. -/
theorem c80_clauses (lo : Loops) (F : List Block) (hF : Fresh F) (B : Block) (hB : B ∈ splitFn F) (hl : lo.loopFor B.name.1 = none)
    (x : List Instr) (k : Kind) (a : Nat) (e : B.instrs = x ++ [.contract k a]) : (k, B.name) ∈ clauses (contractRegion lo F) := by
  have hx := ready_contract (ready_one (splitFn_ready F) hB) e
  refine clauses_mem ?_ e hx
  unfold contractRegion
  exact prefix_mem (recorded_sub lo F fun n => (lo.loopFor n).isNone) (splitFn_nodup hF) hB
    (mem_recorded (P := fun n => (lo.loopFor n).isNone) hB (by rw [hl]; rfl) ⟨k, a, by rw [e]; simp⟩)

/-- C80: `requires` and `ensures` are kept apart, and keep their order. -/
theorem c80_kinds (cs : List (Kind × Name)) (n : Name) :
    (n ∈ procRequires cs ↔ (.requires_, n) ∈ cs) ∧ (n ∈ procEnsures cs ↔ (.ensures_, n) ∈ cs) ∧ (n ∈ headerAsserts cs ↔ (.invariant_, n) ∈ cs) := by
  refine ⟨?_, ?_, ?_⟩
  · unfold procRequires
    rw [List.mem_filterMap]
    constructor
    · rintro ⟨⟨k, n'⟩, h, e⟩
      by_cases hk : k = .requires_
      · subst hk; simp only [if_true] at e; cases e; exact h
      · simp only [if_neg hk] at e; cases e
    · exact fun h => ⟨_, h, rfl⟩
  · unfold procEnsures
    rw [List.mem_filterMap]
    constructor
    · rintro ⟨⟨k, n'⟩, h, e⟩
      by_cases hk : k = .ensures_
      · subst hk; simp only [if_true] at e; cases e; exact h
      · simp only [if_neg hk] at e; cases e
    · exact fun h => ⟨_, h, rfl⟩
  · unfold headerAsserts
    have gen : ∀ (cs : List (Kind × Name)) acc, n ∈ cs.foldl (fun acc c => if c.1 = .invariant_ then c.2 :: acc else acc) acc ↔
        n ∈ acc ∨ (Kind.invariant_, n) ∈ cs := by
      intro cs
      induction cs with
      | nil => simp
      | cons c cs ih =>
        intro acc
        obtain ⟨k, n'⟩ := c
        rw [List.foldl_cons, ih]
        by_cases hk : k = .invariant_
        · subst hk
          simp only [if_true, List.mem_cons, Prod.mk.injEq, true_and]
          constructor
          · rintro ((h | h) | h)
            · exact .inr (.inl h)
            · exact .inl h
            · exact .inr (.inr h)
          · rintro (h | h | h)
            · exact .inl (.inr h)
            · exact .inl (.inl h)
            · exact .inr h
        · have : ¬ (Kind.invariant_ = k) := fun h => hk h.symm
          simp only [if_neg hk, List.mem_cons, Prod.mk.injEq, this, false_and, false_or]
    rw [gen]
    simp

/-! ### The function after the extraction -/

/-- C80: when the code of the region has no effects, the function without the region has the same results, and its clauses hold exactly when
all contract calls of the execution hold. -/
theorem c80_extracted_partial (F R : List Block) (hF : Fresh F) (e nxt : Name) (hx : Extractable I (splitFn F) R e nxt)
    (hp : ∀ B ∈ R, ∀ s, exec I B.instrs s = s) (s s' : S) (tr : List (Kind × Bool)) (h : Result I (splitFn F) e s tr s') :
    ∃ tr', XResult I R (extracted F R nxt) e s tr' s' ∧ (AllTrue tr' ↔ AllTrue tr) := by
  have nd := splitFn_nodup hF
  have hr : Ready R := fun B hB => splitFn_ready F B (hx.sub.subset hB)
  have hndR : (R.map (·.name)).Nodup := (hx.sub.map _).nodup nd
  have hout : find R nxt = none := find_none.2 hx.outside
  obtain ⟨B0, R', hR, h0⟩ := hx.entry
  have hentry : xfind (extracted F R nxt) e = some (.clauses e (clauses R) nxt) := by
    rw [hR, ← h0]; exact xfind_entry F R' B0 nxt
  have close : ∀ {s s' : S} {tr1 tr2 : List (Kind × Bool)}, Leaves I R nxt s e tr1 →
      (∃ tr2', XResult I R (extracted F R nxt) nxt s tr2' s' ∧ (AllTrue tr2' ↔ AllTrue tr2)) →
      ∃ tr', XResult I R (extracted F R nxt) e s tr' s' ∧ (AllTrue tr' ↔ AllTrue (tr1 ++ tr2)) := by
    rintro s s' tr1 tr2 hl ⟨tr2', h1, h2⟩
    obtain ⟨vs, v1, v2, v3⟩ := vals_exist hr hndR hx.noRet hp hout hl (fun _ h => h)
    refine ⟨vs ++ tr2', .clauses hentry v1 h1, ?_⟩
    rw [allTrue_append, allTrue_append, h2]
    refine and_congr ⟨?_, v2⟩ Iff.rfl
    intro hv c hc
    cases hcv : c.2 with
    | true => rfl
    | false =>
      obtain ⟨ii, Bi, x, k, a, hi, ei, he⟩ := leaves_false hr hx.noRet hp hl hc hcv
      obtain ⟨hm, hn⟩ := find_some hi
      subst hn
      exact absurd hv (v3 Bi hm x k a ei he)
  have inR : ∀ {b B}, find (splitFn F) b = some B → (∃ B' ∈ R, B'.name = b) → find R b = some B := by
    rintro b B hf ⟨B', hB', e1⟩
    have := find_mem nd (hx.sub.subset hB')
    rw [e1, hf] at this
    cases this
    rw [← e1]
    exact find_mem hndR hB'
  have main : ∀ {b : Name} {s s' : S} {tr : List (Kind × Bool)}, Result I (splitFn F) b s tr s' →
      ((∀ B' ∈ R, B'.name ≠ b) → ∃ tr', XResult I R (extracted F R nxt) b s tr' s' ∧ (AllTrue tr' ↔ AllTrue tr)) ∧
      ((∃ B' ∈ R, B'.name = b) → ∃ tr1 tr2, tr = tr1 ++ tr2 ∧ Leaves I R nxt s b tr1 ∧
        ∃ tr2', XResult I R (extracted F R nxt) nxt s tr2' s' ∧ (AllTrue tr2' ↔ AllTrue tr2)) := by
    intro b s s' tr h
    induction h with
    | @ret b B s hf hn =>
      constructor
      · intro hb
        exact ⟨_, .ret (xfind_other nd hx hb hf) hn, Iff.rfl⟩
      · intro hb
        have := inR hf hb
        exact absurd (next_none hn) (hx.noRet B (find_some this).1)
    | @go b B s b' tr s' hf hn hr' ih =>
      constructor
      · intro hb
        have hB : B ∉ R := fun h => hb B h (find_some hf).2
        have hxf := xfind_other nd hx hb hf
        have step : ∀ tr2, (∃ tr', XResult I R (extracted F R nxt) b' (exec I B.instrs s) tr' s' ∧ (AllTrue tr' ↔ AllTrue tr2)) →
            ∃ tr', XResult I R (extracted F R nxt) b s tr' s' ∧ (AllTrue tr' ↔ AllTrue (trace I B.instrs s ++ tr2)) := by
          rintro tr2 ⟨tr', h1, h2⟩
          exact ⟨_, .go hxf hn h1, by rw [allTrue_append, allTrue_append, h2]⟩
        rcases hx.single B (find_some hf).1 hB _ _ hn with h1 | h1
        · obtain ⟨tr1, tr2, e2, hl, h3⟩ := ih.2 (by rw [h1, hR]; exact ⟨B0, List.mem_cons_self .., h0⟩)
          rw [e2]
          apply step
          rw [h1] at hl ⊢
          exact close hl h3
        · exact step _ (ih.1 h1)
      · intro hb
        have hfR := inR hf hb
        have hBs := hp B (find_some hfR).1 s
        rw [hBs] at hn ih
        rcases hx.exit B (find_some hfR).1 _ _ hn with rfl | h1
        · refine ⟨_, tr, rfl, .last hfR hn, ih.1 ?_⟩
          exact hx.outside
        · obtain ⟨tr1, tr2, e2, hl, h3⟩ := ih.2 h1
          exact ⟨_, tr2, by rw [e2, List.append_assoc], .go hfR hn hl, h3⟩
  obtain ⟨tr1, tr2, e2, hl, h3⟩ := (main h).2 (by rw [hR]; exact ⟨B0, List.mem_cons_self .., h0⟩)
  rw [e2]
  exact close hl h3

/-- What the function does after the clauses. -/
theorem extracted_entry {F R : List Block} {e nxt : Name} (hx : Extractable I (splitFn F) R e nxt) {s s' : S} {tr : List (Kind × Bool)}
    (h : XResult I R (extracted F R nxt) e s tr s') : ∃ tr', XResult I R (extracted F R nxt) nxt s tr' s' := by
  obtain ⟨B0, R', hR, h0⟩ := hx.entry
  have hentry : xfind (extracted F R nxt) e = some (.clauses e (clauses R) nxt) := by
    rw [hR, ← h0]; exact xfind_entry F R' B0 nxt
  cases h with
  | clauses h1 _ h3 => rw [hentry] at h1; cases h1; exact ⟨_, h3⟩
  | ret h1 _ => rw [hentry] at h1; cases h1
  | go h1 _ _ => rw [hentry] at h1; cases h1

/-- C80 fails for code before a contract call that has effects: after the extraction the function continues after the region in the state in which
it was entered, so none of the effects of the code before the last contract call remain. -/
theorem c80_effects_fails (F R : List Block) (hF : Fresh F) (e nxt : Name) (hx : Extractable I (splitFn F) R e nxt) (B : Block)
    (hB : find (splitFn F) nxt = some B) (hret : B.term = .ret) (s s' : S) (tr : List (Kind × Bool))
    (h : XResult I R (extracted F R nxt) e s tr s') : s' = exec I B.instrs s := by
  obtain ⟨tr', h'⟩ := extracted_entry hx h
  have := xfind_other (splitFn_nodup hF) hx hx.outside hB
  cases h' with
  | clauses h1 _ _ => rw [this] at h1; cases h1
  | ret h1 _ => rw [this] at h1; cases h1; rfl
  | go h1 h2 _ => rw [this] at h1; cases h1; rw [hret] at h2; cases h2

/-! ### Loops -/

theorem hrun_instrs {R : List Block} {e : Name} {l : List Instr} {s s' : S} {vs : List (Name × Bool)} (h : HRun I R e (l.map .instr) s vs s') :
    vs = [] ∧ s' = exec I l s := by
  induction l generalizing s with
  | nil => cases h; exact ⟨rfl, rfl⟩
  | cons i l ih =>
    cases h with
    | instr h =>
      obtain ⟨h1, h2⟩ := ih h
      refine ⟨h1, ?_⟩
      rw [h2]
      exact (exec_append [i] l s).symm

/-- C80: at the header of a loop every invariant is asserted once; when the instructions of the header have no effects, with the value it has where
it is written (`c80_expr`). -/
theorem c80_invariant_partial (R : List Block) (e : Name) (H : Block) (s s' : S) (vs : List (Name × Bool)) (hpure : exec I H.instrs s = s)
    (h : HRun I R e (headerStmts (clauses R) H) s vs s') :
    s' = s ∧ (∀ n, (∃ v, (n, v) ∈ vs) ↔ (.invariant_, n) ∈ clauses R) ∧
      ∀ n v, (n, v) ∈ vs → Eval I (exprFn R n) e (exec I H.instrs s) v := by
  unfold headerStmts at h
  have gen : ∀ (ns : List Name) (vs : List (Name × Bool)), HRun I R e (ns.map .assert ++ H.instrs.map .instr) s vs s' →
      s' = s ∧ vs.map (·.1) = ns ∧ ∀ n v, (n, v) ∈ vs → Eval I (exprFn R n) e s v := by
    intro ns
    induction ns with
    | nil =>
      intro vs h
      obtain ⟨h1, h2⟩ := hrun_instrs h
      subst h1
      exact ⟨by rw [h2, hpure], rfl, fun n v h => by cases h⟩
    | cons n ns ih =>
      intro vs h
      cases h with
      | assert h1 h2 =>
        obtain ⟨h3, h4, h5⟩ := ih _ h2
        refine ⟨h3, by rw [List.map_cons, h4], ?_⟩
        intro n' v' hm
        rcases List.mem_cons.1 hm with e1 | hm
        · cases e1; exact h1
        · exact h5 n' v' hm
  obtain ⟨h1, h2, h3⟩ := gen _ _ h
  refine ⟨h1, ?_, by rw [hpure]; exact h3⟩
  intro n
  rw [← (c80_kinds (clauses R) n).2.2, ← h2, List.mem_map]
  constructor
  · rintro ⟨v, hv⟩
    exact ⟨_, hv, rfl⟩
  · rintro ⟨⟨n', v⟩, hv, rfl⟩
    exact ⟨v, hv⟩

/-- The states of the examples are numbers; instruction `i` sets the state to `i`, and value `i` is whether the state is `i`. -/
def exI : Interp Nat := ⟨fun i _ => i, fun i s => decide (s = i)⟩

/-- C80 fails for invariants on values computed in the header: the assertion is evaluated before the instructions of the header. For
`while ((x = next()) == 1) invariant(x == 1)` the invariant holds wherever it is reached, and fails at the header. -/
theorem c80_invariant_fails : ∃ (R : List Block) (e ii : Name) (H : Block) (k : Kind) (a : Nat), Ready R ∧
    find R ii = some ⟨ii, [.contract k a], .br H.name⟩ ∧ e = ii ∧
    (∀ s v, Eval exI (exprFn R ii) e (exec exI H.instrs s) v → v = true) ∧
    HRun exI R e (headerStmts (clauses R) H) 0 [(ii, false)] 1 := by
  refine ⟨[⟨(2, 0), [.contract .invariant_ 1], .br (1, 0)⟩], (2, 0), (2, 0), ⟨(1, 0), [.op 1], .cond 1 (2, 0) (3, 0)⟩, .invariant_, 1, ?_, rfl, rfl, ?_, ?_⟩
  · intro b hb
    rw [List.mem_singleton.1 hb]
    exact .inr ⟨[], .invariant_, 1, rfl, by simp⟩
  · intro s v h
    exact (eval_self (R := [⟨(2, 0), [.contract .invariant_ 1], .br (1, 0)⟩]) (x := []) (k := .invariant_) (a := 1) (by
      intro b hb
      rw [List.mem_singleton.1 hb]
      exact .inr ⟨[], .invariant_, 1, rfl, by simp⟩) rfl rfl (by intro h; cases h)).1 h
  · exact .assert (.retArg (B := ⟨(2, 0), [], .retArg 1⟩) rfl rfl) (.instr .nil)

theorem through_absent {l : Name} {F : List Block} (h : ∀ B ∈ F, B.name ≠ l) : through l F = F := by
  have := through_append (C := []) h
  simpa [through] using this

/-- C80 fails for an invariant in the header of a loop (`do { invariant(…); … } while (…)`): the header is not in the region, so the
call does not become an assertion, but all other blocks of the loop are, and they are removed. -/
theorem c80_header_fails (lo : Loops) (F : List Block) (l : Nat)
    (hrec : (F.flatMap fun b => if lo.loopFor b.name.1 = some l then recorded b else []) = [(lo.header l, 0)]) :
    invariantRegion lo F l = (loopBlocks lo F l).filter (fun b => decide (b.name ≠ (lo.header l, 0))) ∧
    ∀ k, (k, (lo.header l, 0)) ∉ clauses (invariantRegion lo F l) := by
  have h1 : invariantRegion lo F l = (loopBlocks lo F l).filter (fun b => decide (b.name ≠ (lo.header l, 0))) := by
    unfold invariantRegion blockPrefix
    rw [hrec]
    refine through_absent ?_
    intro B hB
    simpa using (List.mem_filter.1 hB).2
  refine ⟨h1, ?_⟩
  intro k hk
  rw [h1] at hk
  unfold clauses at hk
  obtain ⟨B, hB, e⟩ := List.mem_filterMap.1 hk
  have : B.name ≠ (lo.header l, 0) := by simpa using (List.mem_filter.1 hB).2
  cases hc : findContract B.instrs with
  | none => rw [hc] at e; cases e
  | some p =>
    rw [hc] at e
    exact this (congrArg Prod.snd (Option.some.inj e))

theorem split_nil (n k : Nat) (t : Term) : splitBlock n k [] t = [⟨(n, k), [], t⟩] := splitBlock_none rfl
theorem split_op (n k i : Nat) (t : Term) : splitBlock n k [.op i] t = [⟨(n, k), [.op i], t⟩] := splitBlock_none rfl
theorem split_contract (n k a : Nat) (c : Kind) (r : List Instr) (t : Term) :
    splitBlock n k (.contract c a :: r) t = ⟨(n, k), [.contract c a], .br (n, k + 1)⟩ :: splitBlock n (k + 1) r t := splitBlock_some rfl
theorem split_op_contract (n k i a : Nat) (c : Kind) (r : List Instr) (t : Term) :
    splitBlock n k (.op i :: .contract c a :: r) t = ⟨(n, k), [.op i, .contract c a], .br (n, k + 1)⟩ :: splitBlock n (k + 1) r t :=
  splitBlock_some rfl

/-- The loop `for (…; …; 7) { invariant(1); invariant(2); 3 }`: header 1, body 2, increment 7. -/
def exLoop : List Block :=
  [⟨(0, 0), [], .br (1, 0)⟩, ⟨(1, 0), [], .cond 5 (2, 0) (9, 0)⟩,
    ⟨(2, 0), [.contract .invariant_ 1, .contract .invariant_ 2, .op 3], .br (7, 0)⟩, ⟨(7, 0), [.op 4], .br (1, 0)⟩, ⟨(9, 0), [], .ret⟩]

def exLo : Loops := ⟨fun n => if n = 1 ∨ n = 2 ∨ n = 7 then some 0 else none, fun _ => 1, fun _ => [1, 2, 7]⟩

/-- C80 fails for two invariants in a loop: the new blocks are at the end of the list of the blocks of the loop, so the increment is in the region,
which then has two entries. -/
theorem c80_two_invariants_fails : (invariantRegion exLo exLoop 0).map (·.name) = [(2, 0), (7, 0), (2, 1)] ∧
    ∃ B ∈ splitFn exLoop, B ∉ invariantRegion exLo exLoop 0 ∧ B.term = .br (7, 0) := by
  have h : splitFn exLoop = [⟨(0, 0), [], .br (1, 0)⟩, ⟨(1, 0), [], .cond 5 (2, 0) (9, 0)⟩,
    ⟨(2, 0), [.contract .invariant_ 1], .br (2, 1)⟩, ⟨(2, 1), [.contract .invariant_ 2], .br (2, 2)⟩, ⟨(2, 2), [.op 3], .br (7, 0)⟩,
    ⟨(7, 0), [.op 4], .br (1, 0)⟩, ⟨(9, 0), [], .ret⟩] := by
    simp [splitFn, exLoop, split_nil, split_op, split_contract, split_op_contract]
  have h2 : (exLoop.flatMap fun b => if exLo.loopFor b.name.1 = some 0 then recorded b else []) = [(2, 0), (2, 1)] := by
    simp [exLoop, recorded, exLo, split_nil, split_op, split_contract, split_op_contract]
  have h3 : invariantRegion exLo exLoop 0 = [⟨(2, 0), [.contract .invariant_ 1], .br (2, 1)⟩, ⟨(7, 0), [.op 4], .br (1, 0)⟩,
      ⟨(2, 1), [.contract .invariant_ 2], .br (2, 2)⟩] := by
    unfold invariantRegion loopBlocks
    rw [h2, h]
    decide
  refine ⟨by rw [h3]; rfl, ⟨(2, 2), [.op 3], .br (7, 0)⟩, by rw [h]; decide, by rw [h3]; decide, rfl⟩

theorem through_prefix (l : Name) (F : List Block) : ∃ C, F = through l F ++ C := by
  induction F with
  | nil => exact ⟨[], rfl⟩
  | cons b r ih =>
    rw [through]
    split
    · exact ⟨r, rfl⟩
    · obtain ⟨C, h⟩ := ih
      exact ⟨C, by rw [List.cons_append, ← h]⟩

/-- C80 fails for a loop that comes before a `requires` or `ensures`: its invariants are taken out of the loop, as clauses of the function. (The
generator then has no loop to put them in.) -/
theorem c80_loop_before_fails (lo : Loops) (F : List Block) (hF : Fresh F) (u v : List Block) (B D : Block) (hs : splitFn F = u ++ B :: v)
    (hD : D ∈ v) (hl : lo.loopFor D.name.1 = none) (hc : ∃ k a, Instr.contract k a ∈ D.instrs)
    (x : List Instr) (a : Nat) (e : B.instrs = x ++ [.contract .invariant_ a]) : (.invariant_, B.name) ∈ clauses (contractRegion lo F) := by
  have nd := splitFn_nodup hF
  have hBm : B ∈ splitFn F := by rw [hs]; simp
  have hDm : D ∈ splitFn F := by rw [hs]; simp [hD]
  have hDr : D ∈ contractRegion lo F := prefix_mem (recorded_sub lo F fun n => (lo.loopFor n).isNone) nd hDm
    (mem_recorded (P := fun n => (lo.loopFor n).isNone) hDm (by rw [hl]; rfl) hc)
  refine clauses_mem ?_ e (ready_contract (ready_one (splitFn_ready F) hBm) e)
  obtain ⟨C, hC⟩ : ∃ C, splitFn F = contractRegion lo F ++ C := by
    unfold contractRegion blockPrefix
    split
    · exact ⟨_, rfl⟩
    · exact through_prefix _ _
  rw [hs] at hC
  rcases List.append_eq_append_iff.1 hC with ⟨w, h1, h2⟩ | ⟨w, h1, h2⟩
  · rw [h1]
    cases w with
    | nil =>
      exfalso
      rw [h1, List.append_nil] at hDr
      rw [hs, List.map_append, List.nodup_append] at nd
      exact nd.2.2 _ (List.mem_map.2 ⟨D, hDr, rfl⟩) _ (List.mem_map.2 ⟨D, List.mem_cons_of_mem _ hD, rfl⟩) rfl
    | cons c w =>
      cases h2
      simp
  · exfalso
    rw [hs, List.map_append, List.nodup_append] at nd
    refine nd.2.2 D.name (List.mem_map.2 ⟨D, ?_, rfl⟩) D.name (List.mem_map.2 ⟨D, List.mem_cons_of_mem _ hD, rfl⟩) rfl
    rw [h1]
    exact List.mem_append_left _ hDr

/-! ### The Boogie function -/

/-- C80: the value returned by the Boogie function of a contract expression is a truth value, when integers are mathematical. -/
theorem c80_code_type_partial (m : PreludeTy.Mode) (hm : m.Ok) (hb : m.bp = false) (Γ : String → Option PreludeTy.TName)
    (hr : Γ "$r" = some (Emit.tyName m (.int 1))) : PreludeTy.HasTy ⟨PreludeTy.typeDecls m, PreludeTy.decls m⟩ Γ codeReturn .bool := by
  have h1 : (1 : Nat) ∈ Emit.widths := by decide
  have := (Emit.c72_type_names (t := .int 1) hm h1 .int).2 (by unfold Emit.boogieTy; rw [hb]; rfl)
  exact .eq rfl (.var hr this) (.int 0)

/-- C80 fails with bit-vector integers: the function is not well typed, because the result is compared with the integer 0. -/
theorem c80_code_type_fails (m : PreludeTy.Mode) (hm : m.Ok) (hb : m.bp = true) (Γ : String → Option PreludeTy.TName)
    (hr : Γ "$r" = some (Emit.tyName m (.int 1))) : ¬ ∃ T, PreludeTy.HasTy ⟨PreludeTy.typeDecls m, PreludeTy.decls m⟩ Γ codeReturn T := by
  have h1 : (1 : Nat) ∈ Emit.widths := by decide
  have key : ¬ PreludeTy.HasTy ⟨PreludeTy.typeDecls m, PreludeTy.decls m⟩ Γ (.var "$r") .int := by
    intro h
    cases h with
    | var hx hres =>
      rw [hr] at hx
      cases hx
      have := (Emit.c72_type_names (t := .int 1) hm h1 .int).1 hres
      unfold Emit.boogieTy at this
      rw [hb] at this
      cases this
  rintro ⟨T, h⟩
  cases h with
  | eq _ hl hr' => cases hr' with | int => exact key hl
  | rel _ hl _ => exact key hl
  | arith _ hl _ => exact key hl
  | conn _ _ hr' => cases hr'

/-! ### A function -/

/-- `1; requires(1); return` – the instruction before the contract sets the state to 1. -/
def exF : List Block := [⟨(0, 0), [.op 1, .contract .requires_ 1], .br (5, 0)⟩, ⟨(5, 0), [], .ret⟩]
def exR : List Block := [⟨(0, 0), [.op 1, .contract .requires_ 1], .br (0, 1)⟩]

theorem exF_split : splitFn exF = [⟨(0, 0), [.op 1, .contract .requires_ 1], .br (0, 1)⟩, ⟨(0, 1), [], .br (5, 0)⟩, ⟨(5, 0), [], .ret⟩] := by
  simp [splitFn, exF, split_nil, split_op, split_contract, split_op_contract]

theorem exF_fresh : Fresh exF := ⟨by decide, by decide⟩

theorem exF_region : contractRegion ⟨fun _ => none, fun _ => 0, fun _ => []⟩ exF = exR := by
  unfold contractRegion
  rw [exF_split]
  simp [exF, recorded, blockPrefix, through, exR, split_nil, split_op, split_contract, split_op_contract]

theorem exF_extractable : Extractable exI (splitFn exF) exR (0, 0) (0, 1) := by
  rw [exF_split]
  refine ⟨by decide, ⟨_, [], rfl, rfl⟩, by decide, ?_, by decide, ?_⟩
  · intro B hB s b hb
    rw [List.mem_singleton.1 hB] at hb
    cases hb
    exact .inl rfl
  · intro B hB hn s b hb
    right
    intro B' hB'
    rw [List.mem_singleton.1 hB']
    simp only [List.mem_cons, List.not_mem_nil, or_false] at hB
    rcases hB with rfl | rfl | rfl
    · exact absurd (by decide) hn
    · cases hb; decide
    · cases hb

-- the hypotheses of `c80_clauses` and of `c80_effects_fails`: the function returned 1, and returns 0 after the extraction
example : (.requires_, (0, 0)) ∈ clauses (contractRegion ⟨fun _ => none, fun _ => 0, fun _ => []⟩ exF) :=
  c80_clauses _ exF exF_fresh ⟨(0, 0), [.op 1, .contract .requires_ 1], .br (0, 1)⟩ (by rw [exF_split]; decide) rfl [.op 1] _ 1 rfl
example : Result exI (splitFn exF) (0, 0) 0 [(.requires_, true)] 1 := by
  rw [exF_split]
  have h5 : Result exI (splitFn exF) (5, 0) 1 [] 1 := by
    rw [exF_split]
    exact .ret (B := ⟨(5, 0), [], .ret⟩) rfl rfl
  have h1 : Result exI (splitFn exF) (0, 1) 1 [] 1 := by
    rw [exF_split] at h5 ⊢
    exact .go (B := ⟨(0, 1), [], .br (5, 0)⟩) (tr := []) rfl rfl h5
  rw [exF_split] at h1
  exact .go (B := ⟨(0, 0), [.op 1, .contract .requires_ 1], .br (0, 1)⟩) (tr := []) rfl rfl h1
example : XResult exI exR (extracted exF exR (0, 1)) (0, 0) 0 [(.requires_, true)] 0 := by
  have hx : extracted exF exR (0, 1) = [.clauses (0, 0) [(.requires_, (0, 0))] (0, 1), .block ⟨(0, 1), [], .br (5, 0)⟩,
      .block ⟨(5, 0), [], .ret⟩] := by
    unfold extracted
    rw [exF_split]
    decide
  rw [hx]
  have h5 : XResult exI exR [.clauses (0, 0) [(.requires_, (0, 0))] (0, 1), .block ⟨(0, 1), [], .br (5, 0)⟩,
      .block ⟨(5, 0), [], .ret⟩] (5, 0) 0 [] 0 := .ret (B := ⟨(5, 0), [], .ret⟩) rfl rfl
  exact .clauses (tr := []) rfl (.cons (.retArg (B := ⟨(0, 0), [.op 1], .retArg 1⟩) rfl rfl) .nil) (.go (B := ⟨(0, 1), [], .br (5, 0)⟩) (tr := []) rfl rfl h5)

/-- `requires(1); return`. -/
def exF2 : List Block := [⟨(0, 0), [.contract .requires_ 1], .br (5, 0)⟩, ⟨(5, 0), [], .ret⟩]
def exR2 : List Block := [⟨(0, 0), [.contract .requires_ 1], .br (0, 1)⟩]

theorem exF2_split : splitFn exF2 = [⟨(0, 0), [.contract .requires_ 1], .br (0, 1)⟩, ⟨(0, 1), [], .br (5, 0)⟩, ⟨(5, 0), [], .ret⟩] := by
  simp [splitFn, exF2, split_nil, split_contract]

-- the hypotheses of `c80_extracted_partial`: called in state 0 the precondition is violated, before and after the extraction
example : ∃ tr', XResult exI exR2 (extracted exF2 exR2 (0, 1)) (0, 0) 0 tr' 0 ∧ ¬ AllTrue tr' := by
  have hx : Extractable exI (splitFn exF2) exR2 (0, 0) (0, 1) := by
    rw [exF2_split]
    refine ⟨by decide, ⟨_, [], rfl, rfl⟩, by decide, ?_, by decide, ?_⟩
    · intro B hB s b hb
      rw [List.mem_singleton.1 hB] at hb
      cases hb
      exact .inl rfl
    · intro B hB hn s b hb
      right
      intro B' hB'
      rw [List.mem_singleton.1 hB']
      simp only [List.mem_cons, List.not_mem_nil, or_false] at hB
      rcases hB with rfl | rfl | rfl
      · exact absurd (by decide) hn
      · cases hb; decide
      · cases hb
  have hr : Result exI (splitFn exF2) (0, 0) 0 [(.requires_, false)] 0 := by
    rw [exF2_split]
    have h5 : Result exI [⟨(0, 0), [.contract .requires_ 1], .br (0, 1)⟩, ⟨(0, 1), [], .br (5, 0)⟩, ⟨(5, 0), [], .ret⟩] (5, 0) 0 [] 0 :=
      .ret (B := ⟨(5, 0), [], .ret⟩) rfl rfl
    have h1 : Result exI [⟨(0, 0), [.contract .requires_ 1], .br (0, 1)⟩, ⟨(0, 1), [], .br (5, 0)⟩, ⟨(5, 0), [], .ret⟩] (0, 1) 0 [] 0 :=
      .go (B := ⟨(0, 1), [], .br (5, 0)⟩) (tr := []) rfl rfl h5
    exact .go (B := ⟨(0, 0), [.contract .requires_ 1], .br (0, 1)⟩) (tr := []) rfl rfl h1
  obtain ⟨tr', h1, h2⟩ := c80_extracted_partial exF2 exR2 ⟨by decide, by decide⟩ (0, 0) (0, 1) hx (by
    intro B hB s
    rw [List.mem_singleton.1 hB]
    rfl) 0 0 _ hr
  exact ⟨tr', h1, fun h => by have := h2.1 h (.requires_, false) (by simp); cases this⟩

-- the hypotheses of `c80_expr`
example : Eval exI (exprFn exR (0, 0)) (0, 0) 0 true ↔ ExprValue exI exR (0, 0) (0, 0) 0 true :=
  c80_expr exR (by intro b hb; rw [List.mem_singleton.1 hb]; exact .inr ⟨[.op 1], .requires_, 1, rfl, by simp⟩) (0, 0) _ [.op 1] .requires_ 1 rfl rfl
    (by intro h; cases h) (0, 0) 0 true

/-- `do { invariant(1); 3 } while (5)`: header 1, and a block 2 of the body. -/
def exDo : List Block :=
  [⟨(0, 0), [], .br (1, 0)⟩, ⟨(1, 0), [.contract .invariant_ 1], .br (2, 0)⟩, ⟨(2, 0), [.op 3], .cond 5 (1, 0) (9, 0)⟩, ⟨(9, 0), [], .ret⟩]

-- the hypothesis of `c80_header_fails`: the region is the body, without the invariant
example : (clauses (invariantRegion ⟨fun n => if n = 1 ∨ n = 2 then some 0 else none, fun _ => 1, fun _ => [1, 2]⟩ exDo 0) = []) := by
  have hs : splitFn exDo = [⟨(0, 0), [], .br (1, 0)⟩, ⟨(1, 0), [.contract .invariant_ 1], .br (1, 1)⟩, ⟨(1, 1), [], .br (2, 0)⟩,
      ⟨(2, 0), [.op 3], .cond 5 (1, 0) (9, 0)⟩, ⟨(9, 0), [], .ret⟩] := by
    simp [splitFn, exDo, split_nil, split_op, split_contract]
  rw [(c80_header_fails ⟨fun n => if n = 1 ∨ n = 2 then some 0 else none, fun _ => 1, fun _ => [1, 2]⟩ exDo 0 (by
    simp [exDo, recorded, split_nil, split_op, split_contract])).1]
  unfold loopBlocks
  rw [hs]
  decide

-- the hypotheses of `c80_loop_before_fails`: a loop with an invariant, and then `requires(2)`
example : ∃ F u v B D, Fresh F ∧ splitFn F = u ++ B :: v ∧ D ∈ v ∧ (fun n => if n = 1 ∨ n = 2 then some 0 else none) D.name.1 = (none : Option Nat) ∧
    Instr.contract .requires_ 2 ∈ D.instrs ∧ B.instrs = [] ++ [.contract .invariant_ 1] :=
  ⟨[⟨(1, 0), [], .cond 5 (2, 0) (3, 0)⟩, ⟨(2, 0), [.contract .invariant_ 1], .br (1, 0)⟩, ⟨(3, 0), [.contract .requires_ 2], .ret⟩],
    [⟨(1, 0), [], .cond 5 (2, 0) (3, 0)⟩], [⟨(2, 1), [], .br (1, 0)⟩, ⟨(3, 0), [.contract .requires_ 2], .br (3, 1)⟩, ⟨(3, 1), [], .ret⟩],
    ⟨(2, 0), [.contract .invariant_ 1], .br (2, 1)⟩, ⟨(3, 0), [.contract .requires_ 2], .br (3, 1)⟩, ⟨by decide, by decide⟩,
    by simp [splitFn, split_nil, split_contract], by decide, by decide, by decide, rfl⟩

end Smack.Contracts
