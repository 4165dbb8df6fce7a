/-
Lemmas: the code that the generator leaves in each Boogie block.
-/
import Verif.Cfg.Spec

namespace Smack.Cfg

open Spec

variable {V M : Type}

/-! ## What a block contributes -/

/-- The labels a terminator dispatches to. -/
def dispLabels (fn : Fn V) (b : Nat) : List (Cond V × Nat) → Nat → List Label
  | [], _ => []
  | (_, t) :: ts, i => (if uniquePred fn t = some b then .real t else .disp b i) :: dispLabels fn b ts (i + 1)

/-- The assumes that targets `ts` of block `b` put at the front of block `t`. -/
def insOf (fn : Fn V) (b : Nat) (ts : List (Cond V × Nat)) (t : Nat) : List (Stmt V) :=
  if uniquePred fn t = some b then ((ts.filter fun p => p.2 = t).map fun p => .assume p.1).reverse else []

/-- The code of dispatch block `j`, for targets numbered from `i`. -/
def dispCode (fn : Fn V) (b : Nat) : List (Cond V × Nat) → Nat → Nat → List (Stmt V)
  | [], _, _ => []
  | (c, t) :: ts, i, j =>
    (if j = i ∧ uniquePred fn t ≠ some b then [.assume c, .goto [.real t]] else []) ++ dispCode fn b ts (i + 1) j

theorem gotoLoop_labels (fn : Fn V) (b : Nat) : ∀ ts i g ds, (gotoLoop fn b ts i g ds).2 = ds ++ dispLabels fn b ts i
  | [], i, g, ds => by simp [gotoLoop, dispLabels]
  | (c, t) :: ts, i, g, ds => by
    unfold gotoLoop dispLabels
    split
    · rw [gotoLoop_labels]; simp
    · rw [gotoLoop_labels]; simp

theorem upd_same (g : Gen V) (l : Label) (s : List (Stmt V)) : g.upd l s l = s := if_pos rfl

theorem upd_other (g : Gen V) {l l' : Label} (s : List (Stmt V)) (h : l' ≠ l) : g.upd l s l' = g l' := if_neg h

theorem gotoLoop_real (fn : Fn V) (b t : Nat) : ∀ ts i g ds,
    (gotoLoop fn b ts i g ds).1 (.real t) = insOf fn b ts t ++ g (.real t)
  | [], i, g, ds => by simp [gotoLoop, insOf]
  | (c, t') :: ts, i, g, ds => by
    unfold gotoLoop
    by_cases hu : uniquePred fn t' = some b
    · rw [if_pos hu, gotoLoop_real]
      unfold insOf insert
      by_cases ht : t' = t
      · subst ht
        rw [upd_same, if_pos hu, if_pos hu]
        simp
      · rw [upd_other _ _ (fun e => ht (Label.real.inj e).symm)]
        simp [ht]
    · rw [if_neg hu, gotoLoop_real]
      unfold addStmt
      rw [upd_other _ _ (by intro e; cases e), upd_other _ _ (by intro e; cases e)]
      unfold insOf
      by_cases ht : t' = t
      · subst ht; rw [if_neg hu, if_neg hu]
      · simp [ht]

theorem gotoLoop_disp (fn : Fn V) (b b' j : Nat) : ∀ ts i g ds,
    (gotoLoop fn b ts i g ds).1 (.disp b' j) = g (.disp b' j) ++ (if b' = b then dispCode fn b ts i j else [])
  | [], i, g, ds => by simp [gotoLoop, dispCode]
  | (c, t) :: ts, i, g, ds => by
    unfold gotoLoop
    by_cases hu : uniquePred fn t = some b
    · rw [if_pos hu, gotoLoop_disp]
      unfold insert
      rw [upd_other _ _ (by intro e; cases e)]
      congr 1
      conv => rhs; rw [dispCode]
      simp [hu]
    · rw [if_neg hu, gotoLoop_disp]
      unfold addStmt
      by_cases hl : Label.disp b' j = Label.disp b i
      · obtain ⟨rfl, rfl⟩ := Label.disp.inj hl
        rw [upd_same, upd_same, if_pos rfl, if_pos rfl]
        conv => rhs; rw [dispCode]
        simp [hu]
      · rw [upd_other _ _ hl, upd_other _ _ hl]
        congr 1
        by_cases hb : b' = b
        · subst hb
          have hj : j ≠ i := fun e => hl (by rw [e])
          rw [if_pos rfl, if_pos rfl]
          conv => rhs; rw [dispCode]
          simp [hj]
        · rw [if_neg hb, if_neg hb]

/-- The assignments for the phi nodes. -/
def phiCode (fn : Fn V) (b : Nat) (term : Term V) : List (Var × Opd V) :=
  term.succs.flatMap fun s => match fn[s]? with
    | some blk => phiPairs b blk.phis
    | none => []

/-- The statement for the phi nodes. -/
def phiStmt (fn : Fn V) (b : Nat) (term : Term V) : List (Stmt V) :=
  if (phiCode fn b term).isEmpty then [] else [.assign (phiCode fn b term)]

def gotoCode (fn : Fn V) (b : Nat) (ts : List (Cond V × Nat)) : List (Stmt V) :=
  if ts.length > 1 then [.goto (dispLabels fn b ts 0)] else match ts with
    | (_, t) :: _ => [.goto [.real t]]
    | [] => []

/-- The code of a terminator. -/
def termCode (fn : Fn V) (b : Nat) : Term V → List (Stmt V)
  | .ret v => (match v with | some o => [.setRet o] | none => []) ++ [.setExn false, .return_]
  | .br t => phiStmt fn b (.br t) ++ gotoCode fn b (targets (.br t))
  | .cbr c t f => phiStmt fn b (.cbr c t f) ++ [.annot (some c)] ++ gotoCode fn b (targets (.cbr c t f))
  | .switch c cs d => phiStmt fn b (.switch c cs d) ++ [.annot (some c)] ++ gotoCode fn b (targets (.switch c cs d))
  | .invoke n u => [.annot none] ++ gotoCode fn b (targets (.invoke n u : Term V))
  | .resume v => [.setExn true, .setExnVal v, .return_]
  | .unreachable => [.assume .ff]

/-- The statements a block emits into its own Boogie block. -/
def own (fn : Fn V) (b : Nat) : List (Stmt V) :=
  match fn[b]? with
  | some blk => blk.body.map .instr ++ termCode fn b blk.term
  | none => []

/-- The statements a block puts at the front of block `t`. -/
def ins (fn : Fn V) (b t : Nat) : List (Stmt V) :=
  match fn[b]? with
  | some blk => if (targets blk.term).length > 1 then insOf fn b (targets blk.term) t else []
  | none => []

/-- The code a block puts in its dispatch blocks. -/
def disp (fn : Fn V) (b j : Nat) : List (Stmt V) :=
  match fn[b]? with
  | some blk => if (targets blk.term).length > 1 then dispCode fn b (targets blk.term) 0 j else []
  | none => []

theorem addStmt_same (g : Gen V) (l : Label) (s : Stmt V) : addStmt g l s l = g l ++ [s] := if_pos rfl

theorem addStmt_other (g : Gen V) {l l' : Label} (s : Stmt V) (h : l' ≠ l) : addStmt g l s l' = g l' := if_neg h

theorem addStmt_real (g : Gen V) (b t : Nat) (s : Stmt V) :
    addStmt g (.real b) s (.real t) = g (.real t) ++ (if t = b then [s] else []) := by
  by_cases h : t = b
  · subst h; rw [addStmt_same, if_pos rfl]
  · rw [addStmt_other _ _ (fun e => h (Label.real.inj e)), if_neg h, List.append_nil]

theorem addStmt_disp (g : Gen V) (b b' j : Nat) (s : Stmt V) : addStmt g (.real b) s (.disp b' j) = g (.disp b' j) :=
  addStmt_other _ _ (by intro e; cases e)

theorem phiAssigns_real (fn : Fn V) (b t : Nat) (term : Term V) (g : Gen V) :
    generatePhiAssigns fn b term g (.real t) = g (.real t) ++ (if t = b then phiStmt fn b term else []) := by
  show (if (phiCode fn b term).isEmpty = true then g else addStmt g (.real b) (.assign (phiCode fn b term))) (.real t) = _
  unfold phiStmt
  by_cases h : (phiCode fn b term).isEmpty = true
  · rw [if_pos h, if_pos h]; simp
  · rw [if_neg h, if_neg h, addStmt_real]

theorem phiAssigns_disp (fn : Fn V) (b b' j : Nat) (term : Term V) (g : Gen V) :
    generatePhiAssigns fn b term g (.disp b' j) = g (.disp b' j) := by
  show (if (phiCode fn b term).isEmpty = true then g else addStmt g (.real b) (.assign (phiCode fn b term))) (.disp b' j) = _
  by_cases h : (phiCode fn b term).isEmpty = true
  · rw [if_pos h]
  · rw [if_neg h, addStmt_disp]

theorem gotoStmts_real (fn : Fn V) (b t : Nat) (ts : List (Cond V × Nat)) (g : Gen V) :
    generateGotoStmts fn b ts g (.real t) =
      (if ts.length > 1 then insOf fn b ts t else []) ++ g (.real t) ++ (if t = b then gotoCode fn b ts else []) := by
  unfold generateGotoStmts gotoCode
  by_cases h : ts.length > 1
  · simp only [if_pos h]
    rw [addStmt_real, gotoLoop_real, gotoLoop_labels]
    simp
  · simp only [if_neg h]
    cases ts with
    | nil => simp
    | cons p ts => simp only [List.nil_append]; rw [addStmt_real]

theorem gotoStmts_disp (fn : Fn V) (b b' j : Nat) (ts : List (Cond V × Nat)) (g : Gen V) :
    generateGotoStmts fn b ts g (.disp b' j) =
      g (.disp b' j) ++ (if b' = b then (if ts.length > 1 then dispCode fn b ts 0 j else []) else []) := by
  unfold generateGotoStmts
  by_cases h : ts.length > 1
  · simp only [if_pos h]
    rw [addStmt_disp, gotoLoop_disp]
  · simp only [if_neg h]
    cases ts with
    | nil => simp
    | cons p ts => simp only; rw [addStmt_disp]; simp

theorem body_real (b t : Nat) (is : List (Instr V)) (g : Gen V) :
    is.foldl (fun g i => addStmt g (.real b) (.instr i)) g (.real t) = g (.real t) ++ (if t = b then is.map .instr else []) := by
  induction is generalizing g with
  | nil => simp
  | cons i is ih =>
    rw [List.foldl_cons, ih, addStmt_real]
    by_cases h : t = b <;> simp [h]

theorem body_disp (b b' j : Nat) (is : List (Instr V)) (g : Gen V) :
    is.foldl (fun g i => addStmt g (.real b) (.instr i)) g (.disp b' j) = g (.disp b' j) := by
  induction is generalizing g with
  | nil => rfl
  | cons i is ih => rw [List.foldl_cons, ih, addStmt_disp]

theorem visitTerm_real (fn : Fn V) (b t : Nat) (term : Term V) (g : Gen V) : visitTerm fn b term g (.real t) =
    (if (targets term).length > 1 then insOf fn b (targets term) t else []) ++ g (.real t) ++
      (if t = b then termCode fn b term else []) := by
  cases term with
  | ret v =>
    unfold visitTerm termCode
    cases v
    · simp only [addStmt_real, targets]
      by_cases h : t = b <;> simp [h]
    · simp only [addStmt_real, targets]
      by_cases h : t = b <;> simp [h]
  | br t' =>
    unfold visitTerm termCode
    simp only [gotoStmts_real, phiAssigns_real]
    by_cases h : t = b <;> simp [h]
  | cbr c t' f =>
    unfold visitTerm termCode
    simp only [gotoStmts_real, phiAssigns_real, addStmt_real]
    by_cases h : t = b <;> simp [h]
  | switch c cs d =>
    unfold visitTerm termCode
    simp only [gotoStmts_real, phiAssigns_real, addStmt_real]
    by_cases h : t = b <;> simp [h]
  | invoke n u =>
    unfold visitTerm termCode
    simp only [gotoStmts_real, addStmt_real]
    by_cases h : t = b <;> simp [h]
  | resume v =>
    unfold visitTerm termCode
    simp only [addStmt_real, targets]
    by_cases h : t = b <;> simp [h]
  | unreachable =>
    unfold visitTerm termCode
    simp only [addStmt_real, targets]
    by_cases h : t = b <;> simp [h]

theorem visitTerm_disp (fn : Fn V) (b b' j : Nat) (term : Term V) (g : Gen V) : visitTerm fn b term g (.disp b' j) =
    g (.disp b' j) ++ (if b' = b then (if (targets term).length > 1 then dispCode fn b (targets term) 0 j else []) else []) := by
  cases term with
  | ret v =>
    unfold visitTerm
    cases v <;> simp [addStmt_disp, targets]
  | br t' =>
    unfold visitTerm
    simp only [gotoStmts_disp, phiAssigns_disp]
  | cbr c t' f =>
    unfold visitTerm
    simp only [gotoStmts_disp, phiAssigns_disp, addStmt_disp]
  | switch c cs d =>
    unfold visitTerm
    simp only [gotoStmts_disp, phiAssigns_disp, addStmt_disp]
  | invoke n u =>
    unfold visitTerm
    simp only [gotoStmts_disp, addStmt_disp]
  | resume v => unfold visitTerm; simp [addStmt_disp, targets]
  | unreachable => unfold visitTerm; simp [addStmt_disp, targets]

theorem visitBlock_real (fn : Fn V) (b t : Nat) (g : Gen V) :
    visitBlock fn g b (.real t) = ins fn b t ++ g (.real t) ++ (if t = b then own fn b else []) := by
  unfold visitBlock ins own
  cases fn[b]? with
  | none => simp
  | some blk =>
    simp only
    rw [visitTerm_real, body_real]
    by_cases h : t = b <;> simp [h]

theorem visitBlock_disp (fn : Fn V) (b b' j : Nat) (g : Gen V) :
    visitBlock fn g b (.disp b' j) = g (.disp b' j) ++ (if b' = b then disp fn b j else []) := by
  unfold visitBlock disp
  cases fn[b]? with
  | none => simp
  | some blk =>
    simp only
    rw [visitTerm_disp, body_disp]

theorem fold_real (fn : Fn V) (t : Nat) (L : List Nat) (g : Gen V) : L.foldl (visitBlock fn) g (.real t) =
    L.reverse.flatMap (fun b => ins fn b t) ++ g (.real t) ++ L.flatMap (fun b => if t = b then own fn b else []) := by
  induction L generalizing g with
  | nil => simp
  | cons b L ih =>
    rw [List.foldl_cons, ih, visitBlock_real]
    simp

theorem fold_disp (fn : Fn V) (b' j : Nat) (L : List Nat) (g : Gen V) : L.foldl (visitBlock fn) g (.disp b' j) =
    g (.disp b' j) ++ L.flatMap (fun b => if b' = b then disp fn b j else []) := by
  induction L generalizing g with
  | nil => simp
  | cons b L ih =>
    rw [List.foldl_cons, ih, visitBlock_disp]
    simp

theorem flatMap_nil_of {α β : Type} (L : List α) (f : α → List β) (h : ∀ b ∈ L, f b = []) : L.flatMap f = [] := by
  induction L with
  | nil => rfl
  | cons b L ih => rw [List.flatMap_cons, h b (by simp), ih fun b hb => h b (by simp [hb])]; rfl

theorem flatMap_one {α β : Type} (L : List α) (hn : L.Nodup) (p : α) (f : α → List β) (hp : p ∈ L) (h : ∀ b, b ≠ p → f b = []) :
    L.flatMap f = f p := by
  induction L with
  | nil => cases hp
  | cons b L ih =>
    rw [List.flatMap_cons]
    rw [List.nodup_cons] at hn
    by_cases hb : b = p
    · subst hb
      rw [flatMap_nil_of L f fun c hc => h c fun e => hn.1 (e ▸ hc), List.append_nil]
    · rw [h b hb, List.nil_append]
      exact ih hn.2 ((List.mem_cons.mp hp).resolve_left fun e => hb e.symm)

theorem ins_nil {fn : Fn V} {b t : Nat} (h : uniquePred fn t ≠ some b) : ins fn b t = [] := by
  unfold ins
  cases fn[b]? with
  | none => rfl
  | some blk => simp only; unfold insOf; rw [if_neg h]; simp

/-- The block a basic block is translated to. -/
theorem translate_real (fn : Fn V) (t : Nat) (ht : t < fn.length) :
    translate fn (.real t) = (match uniquePred fn t with | some p => (if p < fn.length then ins fn p t else []) | none => []) ++ own fn t := by
  unfold translate
  rw [fold_real, List.append_nil]
  congr 1
  · cases hu : uniquePred fn t with
    | none =>
      apply flatMap_nil_of
      intro b _
      exact ins_nil (by rw [hu]; simp)
    | some p =>
      simp only
      by_cases hp : p < fn.length
      · rw [if_pos hp]
        refine flatMap_one (f := fun b => ins fn b t) _ (List.pairwise_reverse.mpr (List.Pairwise.imp (fun h => Ne.symm h) List.nodup_range)) p ?_ ?_
        · simpa using hp
        · intro b hb
          exact ins_nil (by rw [hu]; intro e; exact hb (Option.some.inj e).symm)
      · rw [if_neg hp]
        apply flatMap_nil_of
        intro b hb
        refine ins_nil ?_
        rw [hu]
        intro e
        have := Option.some.inj e
        subst this
        simp at hb
        exact hp hb
  · have := flatMap_one (List.range fn.length) List.nodup_range t (fun b => if t = b then own fn b else []) (by simpa using ht)
      (fun b hb => if_neg fun e => hb e.symm)
    rw [this, if_pos rfl]

theorem translate_disp (fn : Fn V) (b j : Nat) (hb : b < fn.length) : translate fn (.disp b j) = disp fn b j := by
  unfold translate
  rw [fold_disp]
  have := flatMap_one (List.range fn.length) List.nodup_range b (fun b' => if b = b' then disp fn b' j else []) (by simpa using hb)
    (fun b' hb' => if_neg fun e => hb' e.symm)
  rw [this, if_pos rfl]
  rfl

end Smack.Cfg
