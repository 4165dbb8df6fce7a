/-
C84: the pass RewriteBitwiseOps on whole functions.
-/
import Verif.BwPass.Sim

namespace Smack.BwPass

open Smack.Cfg Smack.Cfg.Spec Smack.Bitwise Smack.BwPass.Spec

section

variable {M : Type} {P : Params Val M} {tab : Table} {present : Lib → Bool} {fn : Fn Val}

/-- C84: every execution of a function is one of the function after the pass, with the same result, unless an execution reaches an
instance at which the value changes. The claim is that the pass preserves all executions. -/
theorem c84_complete_partial (hsh : Shape tab fn) {fn' : Fn Val} (hp : pass tab present false fn = some fn') (ρ : Env Val) (m : M)
    (hr : ¬ Reaches P tab fn ρ m) (out : Outcome Val M) (h : Run (llvm P tab) fn 0 ρ m out) :
    Run (after P tab) fn' 0 ρ m (renamed out) := by
  rcases run_fwd hsh hp h with h | h
  · exact absurd h hr
  · exact h

/-- C84: and every execution after the pass is one of the function. -/
theorem c84_sound_partial (hsh : Shape tab fn) {fn' : Fn Val} (hp : pass tab present false fn = some fn') (ρ : Env Val) (m : M)
    (hr : ¬ Reaches P tab fn ρ m) (out' : Outcome Val M) (h : Run (after P tab) fn' 0 ρ m out') :
    ∃ out, out' = renamed out ∧ Run (llvm P tab) fn 0 ρ m out := by
  rcases run_bwd hsh hp h with h | h
  · exact absurd h hr
  · exact h

/-- C84 fails at every instance that differs: in whatever function, the new instruction never has the value of the old one, if that is
defined. So the condition of the two theorems above cannot be weakened for single instructions. -/
theorem c84_differs_fails (hsh : Shape tab fn) {fn' : Fn Val} (hp : pass tab present false fn = some fn') (b n : Nat)
    (blk blk' : Block Val) (i i' : Instr Val) (hb : fn[b]? = some blk) (hb' : fn'[b]? = some blk') (hi : blk.body[n]? = some i)
    (hi' : blk'.body[n]? = some i') (ρ : Env Val) (hd : Differs tab i.op (i.args.map (eval ρ)))
    (hdef : ∀ s w (a : BitVec w), tab i.op = .shift s w (some a) → a.toNat < w) (m : M) (r : Option (Val × M))
    (h : (llvm P tab).sem i.op (i.args.map (eval ρ)) m r) : ¬ (after P tab).sem i'.op (i'.args.map (eval ρ)) m r := by
  have hp : fn.mapM (passBlock tab present) = some fn' := hp
  obtain ⟨blk₂, h1, h2⟩ := (mapM_get hp b).1 blk hb
  rw [hb'] at h1
  injection h1 with h1
  subst h1
  obtain ⟨_, _, hbody⟩ := passBlock_some h2
  obtain ⟨i₂, h3, h4⟩ := (mapM_get hbody n).1 i hi
  rw [hi'] at h3
  injection h3 with h3
  subst h3
  exact rewrite_differs hsh hb (List.mem_of_getElem? hi) h4 ρ hd hdef m r h

/-- C84: which instructions the pass replaces. Every block keeps its phi nodes and its terminator, every instruction its result; an
instruction is the old one exactly if it is one of those that stay. -/
theorem c84_replaced (hsh : Shape tab fn) {fn' : Fn Val} (hp : pass tab present false fn = some fn') (b : Nat) (blk : Block Val)
    (hb : fn[b]? = some blk) : ∃ blk', fn'[b]? = some blk' ∧ blk'.phis = blk.phis ∧ blk'.term = blk.term ∧
      blk'.body.length = blk.body.length ∧ ∀ (n : Nat) (i : Instr Val), blk.body[n]? = some i → ∃ i' : Instr Val, blk'.body[n]? = some i' ∧
        i'.dst = i.dst ∧ (i' = ⟨i.dst, 16 * i.op, i.args⟩ ↔ Stays (tab i.op)) := by
  have hp : fn.mapM (passBlock tab present) = some fn' := hp
  obtain ⟨blk', h1, h2⟩ := (mapM_get hp b).1 blk hb
  obtain ⟨h3, h4, hbody⟩ := passBlock_some h2
  refine ⟨blk', h1, h3, h4, ?_, ?_⟩
  · have : ∀ (as : List (Instr Val)) bs, as.mapM (rewrite tab present) = some bs → bs.length = as.length := by
      intro as
      induction as with
      | nil => intro bs h; rw [mapM_nil_some h]
      | cons a as ih =>
        intro bs h
        obtain ⟨b, bs', _, h2, rfl⟩ := mapM_cons_some.1 h
        simp [ih _ h2]
    exact this _ _ hbody
  · intro n i hi
    obtain ⟨i', h5, h6⟩ := (mapM_get hbody n).1 i hi
    refine ⟨i', h5, rewrite_dst h6, ?_⟩
    have himem := List.mem_of_getElem? hi
    rcases rewrite_cases hsh hb himem h6 with ⟨hk, hnd⟩ | ⟨s, w, a, lhs, ht, hw, ha, rfl⟩ | ⟨w, c, r, rhs, ht, hw, ha, hm, rfl⟩ |
      ⟨w, c, x, y, j, ht, hw, hr, hc, rfl, ho⟩ | ⟨w, x, y, j, ht, hr, ha, rfl⟩
    · refine ⟨fun _ => ?_, fun _ => hk⟩
      subst hk
      -- the instruction was left alone
      cases ht : tab i.op with
      | shift s w a =>
        cases a with
        | none => rfl
        | some a =>
          exfalso
          obtain ⟨_, hl⟩ := hsh.shift b blk i s w (some a) hb himem ht rfl
          obtain ⟨x, hx⟩ := List.length_eq_one_iff.1 hl
          unfold rewrite at h6
          rw [ht, hx] at h6
          have h7 : (constInstr i.op i.dst x (rewriteShift s a)).op = (keep i).op := by simp only [Option.some.injEq] at h6; rw [h6]
          cases s <;> simp [rewriteShift, constInstr, keep, roleMul, roleSDiv] at h7
      | and w c =>
        obtain ⟨hw, hl⟩ := hsh.and b blk i w c hb himem ht
        have hop : ∀ {r : Option Nat} {f : Lib} {as : List (Opd Val)}, libCall present f r i as = some (keep i) → r = none ∨ r = some 0 := by
          intro r f as h
          unfold libCall at h
          cases r with
          | none => exact .inl rfl
          | some j =>
            right
            simp only at h
            split at h
            · simp only [Option.some.injEq, keep, Instr.mk.injEq, true_and] at h
              exact congrArg some (by omega)
            · cases h
        have hnone : roleAnd w = none ∨ roleAnd w = some 0 → roleAnd w = none := by
          rintro (h | h)
          · exact h
          · rcases roleAnd_some h with ⟨_, h⟩ | ⟨_, h⟩ | ⟨_, h⟩ | ⟨_, h⟩ <;> omega
        unfold rewrite at h6
        cases c with
        | none =>
          match hx : i.args, hl with
          | [x, y], _ =>
            rw [ht, hx] at h6
            exact ⟨roleAnd_none.1 (hnone (hop h6)), fun b j h => by cases h⟩
        | some c =>
          obtain ⟨x, hx⟩ := List.length_eq_one_iff.1 (by simpa using hl)
          rw [ht, hx] at h6
          simp only at h6
          cases hm : rewriteAnd c with
          | some r =>
            exfalso
            rw [hm] at h6
            have h7 : (constInstr i.op i.dst x r).op = (keep i).op := by simp only [Option.some.injEq] at h6; rw [h6]
            cases r <;> simp [constInstr, keep, roleMul, roleSDiv, roleURem] at h7
          | none =>
            rw [hm] at h6
            exact ⟨roleAnd_none.1 (hnone (hop h6)), (noMask hw).1 fun b h => by injection h with h; rw [← h]; exact hm⟩
      | or w =>
        have hl := hsh.or b blk i w hb himem ht
        unfold rewrite at h6
        match hx : i.args, hl with
        | [x, y], _ =>
          rw [ht, hx] at h6
          simp only [libCall] at h6
          cases hr : roleOr w with
          | none => exact roleOr_none.1 hr
          | some j =>
            exfalso
            rw [hr] at h6
            simp only at h6
            split at h6
            · simp only [Option.some.injEq, keep, Instr.mk.injEq, true_and] at h6
              rcases roleOr_some hr with ⟨_, h⟩ | ⟨_, h⟩ | ⟨_, h⟩ | ⟨_, h⟩ <;> omega
            · cases h6
      | vector => exact trivial
      | other => exact trivial
    · rw [ht]
      refine ⟨fun h => ?_, fun h => by cases h⟩
      have : (constInstr i.op i.dst lhs (rewriteShift s a)).op = 16 * i.op := by rw [h]
      cases s <;> simp [rewriteShift, constInstr, roleMul, roleSDiv] at this
    · rw [ht]
      refine ⟨fun h => ?_, fun h => ?_⟩
      · have : (constInstr i.op i.dst rhs r).op = 16 * i.op := by rw [h]
        cases r <;> simp [constInstr, roleMul, roleSDiv, roleURem] at this
      · have := (noMask hw).2 h.2 c rfl
        rw [hm] at this; cases this
    · rw [ht]
      refine ⟨fun h => ?_, fun h => ?_⟩
      · have : 16 * i.op + j = 16 * i.op := congrArg Instr.op h
        rcases roleAnd_some hr with ⟨_, h⟩ | ⟨_, h⟩ | ⟨_, h⟩ | ⟨_, h⟩ <;> omega
      · have := roleAnd_none.2 h.1
        rw [hr] at this; cases this
    · rw [ht]
      refine ⟨fun h => ?_, fun h => ?_⟩
      · have : 16 * i.op + j = 16 * i.op := congrArg Instr.op h
        rcases roleOr_some hr with ⟨_, h⟩ | ⟨_, h⟩ | ⟨_, h⟩ | ⟨_, h⟩ <;> omega
      · have := roleOr_none.2 h
        rw [hr] at this; cases this

theorem rewrite_isSome (hsh : Shape tab fn) {b : Nat} {blk : Block Val} {i : Instr Val} (hb : fn[b]? = some blk) (hi : i ∈ blk.body) :
    (rewrite tab present i).isSome = true ↔ tab i.op ≠ .vector ∧
      (∀ w (c : Option (BitVec w)), tab i.op = .and w c → w ∈ [8, 16, 32, 64] → (∀ b j, c = some b → j < w → b.toNat ≠ 2 ^ j - 1) →
        present (.and w) = true) ∧
      (∀ w, tab i.op = .or w → w ∈ [8, 16, 32, 64] → present (.or w) = true) := by
  have hlib : ∀ (f : Lib) (r : Option Nat) (as : List (Opd Val)), (libCall present f r i as).isSome = true ↔ (r ≠ none → present f = true) := by
    intro f r as
    unfold libCall
    cases r with
    | none => simp
    | some j => cases present f <;> simp
  unfold rewrite
  cases ht : tab i.op with
  | shift s w a =>
    cases a with
    | none => simp
    | some a =>
      obtain ⟨_, hl⟩ := hsh.shift b blk i s w (some a) hb hi ht rfl
      obtain ⟨x, hx⟩ := List.length_eq_one_iff.1 hl
      rw [hx]; simp
  | and w c =>
    obtain ⟨hw, hl⟩ := hsh.and b blk i w c hb hi ht
    have h1 : roleAnd w ≠ none ↔ w ∈ [8, 16, 32, 64] := by rw [Ne, roleAnd_none, Decidable.not_not]
    cases c with
    | none =>
      match hx : i.args, hl with
      | [x, y], _ =>
        simp only [hlib, h1]
        constructor
        · intro h
          refine ⟨by simp, ?_, by simp⟩
          intro w' c' he hm _
          injection he with h1 h2
          subst h1
          exact h hm
        · rintro ⟨_, h, _⟩ hm
          exact h w none rfl hm (fun b j h => by cases h)
    | some c =>
      obtain ⟨x, hx⟩ := List.length_eq_one_iff.1 (by simpa using hl)
      rw [hx]
      simp only
      cases hm : rewriteAnd c with
      | some r =>
        simp only [Option.isSome_some, true_iff]
        refine ⟨by simp, ?_, by simp⟩
        intro w' c' he _ hn
        injection he with h1 h2
        subst h1
        have h2 := eq_of_heq h2
        subst h2
        have := (noMask hw).2 hn c rfl
        rw [hm] at this; cases this
      | none =>
        simp only [hlib, h1]
        constructor
        · intro h
          refine ⟨by simp, ?_, by simp⟩
          intro w' c' he hmem _
          injection he with h1 h2
          subst h1
          exact h hmem
        · rintro ⟨_, h, _⟩ hmem
          exact h w (some c) rfl hmem ((noMask hw).1 fun b h => by injection h with h; rw [← h]; exact hm)
  | or w =>
    have hl := hsh.or b blk i w hb hi ht
    have h1 : roleOr w ≠ none ↔ w ∈ [8, 16, 32, 64] := by rw [Ne, roleOr_none, Decidable.not_not]
    match hx : i.args, hl with
    | [x, y], _ =>
      simp only [hlib, h1]
      constructor
      · intro h
        refine ⟨by simp, by simp, ?_⟩
        intro w' he hm
        injection he with h1
        subst h1
        exact h hm
      · rintro ⟨_, _, h⟩ hm
        exact h w rfl hm
  | vector => simp
  | other => simp

/-- C84: the pass can be completed exactly for the functions with a SMACK name and those without bitwise operations of vectors
whose library functions are in the module; any other function stops the translation. -/
theorem c84_defined (hsh : Shape tab fn) (smackName : Bool) :
    (pass tab present smackName fn).isSome = true ↔ smackName = true ∨ Handled tab present fn := by
  unfold pass
  cases smackName with
  | true => simp
  | false =>
    simp only [Bool.false_eq_true, if_false, false_or]
    have hpb : ∀ b : Block Val, (passBlock tab present b).isSome = (b.body.mapM (rewrite tab present)).isSome := by
      intro b
      unfold passBlock
      cases b.body.mapM (rewrite tab present) <;> rfl
    rw [mapM_isSome]
    have hget : ∀ {b : Nat} {blk : Block Val}, fn[b]? = some blk → blk ∈ fn := fun h => List.mem_of_getElem? h
    constructor
    · intro h
      have h' : ∀ (b : Nat) blk i, fn[b]? = some blk → i ∈ blk.body → (rewrite tab present i).isSome = true := by
        intro b blk i hb hi
        have := h blk (hget hb)
        rw [hpb, mapM_isSome] at this
        exact this i hi
      exact ⟨fun b blk i hb hi => ((rewrite_isSome hsh hb hi).1 (h' b blk i hb hi)).1,
        fun b blk i w c hb hi ht hw hc => ((rewrite_isSome hsh hb hi).1 (h' b blk i hb hi)).2.1 w c ht hw hc,
        fun b blk i w hb hi ht hw => ((rewrite_isSome hsh hb hi).1 (h' b blk i hb hi)).2.2 w ht hw⟩
    · intro h blk hblk
      obtain ⟨b, hlt, he⟩ := List.getElem_of_mem hblk
      have hb : fn[b]? = some blk := by rw [← he]; exact List.getElem?_eq_getElem _
      rw [hpb, mapM_isSome]
      intro i hi
      exact (rewrite_isSome hsh hb hi).2 ⟨h.vector b blk i hb hi, fun w c ht hw hc => h.and b blk i w c hb hi ht hw hc,
        fun w ht hw => h.or b blk i w hb hi ht hw⟩

theorem keep_exec {is : List (Instr Val)} {ρ ρ₁ : Env Val} {m m₁ : M} :
    Exec (llvm P tab) is ρ m ρ₁ m₁ ↔ Exec (after P tab) (is.map keep) ρ m ρ₁ m₁ := by
  induction is generalizing ρ m with
  | nil => constructor <;> (intro h; cases h; exact .nil _ _)
  | cons i is ih =>
    constructor
    · rintro (_ | ⟨_, _, _, _, v, m', _, _, hs, h⟩)
      exact .cons (keep i) _ ρ m v m' _ _ ((after_keep i.op _ m _).2 hs) (ih.1 h)
    · intro h
      cases h with
      | cons _ _ _ _ v m' _ _ hs h => exact .cons i _ ρ m v m' _ _ ((after_keep i.op _ m _).1 hs) (ih.2 h)

theorem keep_fail {is : List (Instr Val)} {ρ : Env Val} {m : M} {out : Outcome Val M} (h : ExecFail (llvm P tab) is ρ m out) :
    ExecFail (after P tab) (is.map keep) ρ m (renamed out) := by
  induction h with
  | here i is ρ m hs => exact .here (keep i) _ ρ m ((after_keep i.op _ m _).2 hs)
  | there i is ρ m v m' o hs _ ih => exact .there (keep i) _ ρ m v m' _ ((after_keep i.op _ m _).2 hs) ih

theorem keep_fail_back {is : List (Instr Val)} {ρ : Env Val} {m : M} {out' : Outcome Val M}
    (h : ExecFail (after P tab) (is.map keep) ρ m out') : ∃ out, out' = renamed out ∧ ExecFail (llvm P tab) is ρ m out := by
  induction is generalizing ρ m with
  | nil => cases h
  | cons i is ih =>
    cases h with
    | here _ _ _ _ hs => exact ⟨_, rfl, .here i is ρ m ((after_keep i.op _ m _).1 hs)⟩
    | there _ _ _ _ v m' _ hs h =>
      obtain ⟨out, h1, h2⟩ := ih h
      exact ⟨out, h1, .there i is ρ m v m' out ((after_keep i.op _ m _).1 hs) h2⟩

/-- C84: a function whose name contains `__SMACK_` keeps its executions, and gets no others. -/
theorem c84_smack_name : ∃ fn', pass tab present true fn = some fn' ∧ ∀ (ρ : Env Val) (m : M) (out' : Outcome Val M),
    Run (after P tab) fn' 0 ρ m out' ↔ ∃ out, out' = renamed out ∧ Run (llvm P tab) fn 0 ρ m out := by
  refine ⟨_, rfl, ?_⟩
  generalize (0 : Nat) = b
  intro ρ m out'
  have hget : ∀ {b : Nat} {blk : Block Val}, fn[b]? = some blk →
      (fn.map fun b => ({ b with body := b.body.map keep } : Block Val))[b]? = some { blk with body := blk.body.map keep } := by
    intro b blk hb; rw [List.getElem?_map, hb]; rfl
  have hback : ∀ {b : Nat} {blk' : Block Val}, (fn.map fun b => ({ b with body := b.body.map keep } : Block Val))[b]? = some blk' →
      ∃ blk, fn[b]? = some blk ∧ blk' = { blk with body := blk.body.map keep } := by
    intro b blk' hb
    rw [List.getElem?_map, Option.map_eq_some_iff] at hb
    obtain ⟨blk, h1, h2⟩ := hb
    exact ⟨blk, h1, h2.symm⟩
  constructor
  · intro h
    induction h with
    | fail b blk' ρ m out hb hf =>
      obtain ⟨blk, h1, rfl⟩ := hback hb
      obtain ⟨out, h2, h3⟩ := keep_fail_back hf
      exact ⟨out, h2, .fail b blk ρ m out h1 h3⟩
    | leave b blk' ρ m ρ₁ m₁ out hb he hl =>
      obtain ⟨blk, h1, rfl⟩ := hback hb
      rw [leave_after] at hl
      refine ⟨out, ?_, .leave b blk ρ m ρ₁ m₁ out h1 (keep_exec.2 he) (by rw [leave_llvm]; exact hl)⟩
      cases ht : blk.term <;> simp only [ht, leave, Option.some.injEq, reduceCtorEq] at hl <;> subst hl <;> rfl
    | step b blk' ρ m ρ₁ m₁ t blk₂ out hb he hn ht _ ih =>
      obtain ⟨blk, h1, rfl⟩ := hback hb
      obtain ⟨blk₃, h2, rfl⟩ := hback ht
      obtain ⟨o, h3, h4⟩ := ih
      exact ⟨o, h3, .step b blk ρ m ρ₁ m₁ t blk₃ o h1 (keep_exec.2 he)
        (by rw [next_llvm, ← next_after (P := P) (tab := tab)]; exact hn) h2 h4⟩
  · rintro ⟨out, rfl, h⟩
    induction h with
    | fail b blk ρ m out hb hf => exact .fail b _ ρ m _ (hget hb) (keep_fail hf)
    | leave b blk ρ m ρ₁ m₁ out hb he hl =>
      refine .leave b _ ρ m ρ₁ m₁ _ (hget hb) (keep_exec.1 he) ?_
      rw [leave_after]
      rw [leave_llvm] at hl
      cases ht : blk.term <;> rw [ht] at hl <;> simp only [leave, Option.some.injEq, reduceCtorEq] at hl ⊢ <;> subst hl <;> rfl
    | step b blk ρ m ρ₁ m₁ t blk₂ out hb he hn ht _ ih =>
      exact .step b _ ρ m ρ₁ m₁ t _ _ (hget hb) (keep_exec.1 he)
        (by rw [next_after, ← next_llvm (P := P) (tab := tab)]; exact hn) (hget ht) ih

/-- C84: there is no result for a function with a bitwise operation of vectors. -/
theorem c84_vector_fails (b : Nat) (blk : Block Val) (i : Instr Val) (hb : fn[b]? = some blk) (hi : i ∈ blk.body)
    (ht : tab i.op = .vector) : pass tab present false fn = none := by
  unfold pass
  simp only [Bool.false_eq_true, if_false]
  cases h : fn.mapM (passBlock tab present) with
  | none => rfl
  | some fn' =>
    exfalso
    obtain ⟨blk', _, h2⟩ := (mapM_get h b).1 blk hb
    obtain ⟨n, hlt, he⟩ := List.getElem_of_mem hi
    obtain ⟨i', _, h4⟩ := (mapM_get (passBlock_some h2).2.2 n).1 i (by rw [← he]; exact List.getElem?_eq_getElem _)
    unfold rewrite at h4
    rw [ht] at h4
    cases h4

end

/-! ## Examples -/

namespace Ex

/-- `((x << 3) & 255) >> 1` in 32 bits. -/
def tab : Table
  | 0 => .shift .shl 32 (some 3#32)
  | 1 => .and 32 (some 255#32)
  | 2 => .shift .lshr 32 (some 1#32)
  | 3 => .and 32 none
  | 4 => .vector
  | _ => .other

def blk : Block Val := ⟨[], [⟨some 1, 0, [.var 0]⟩, ⟨some 2, 1, [.var 1]⟩, ⟨some 3, 2, [.var 2]⟩], .ret (some (.var 3))⟩

def params : Params Val Unit where
  one := .word 1 1#1
  exn := fun _ => false
  setExn := fun _ m => m
  setExnVal := fun _ m => m
  sem := fun _ _ m r => r = some (.other 0, m)

theorem get {b : Nat} {blk' c : Block Val} (h : [c][b]? = some blk') : blk' = c := by
  cases b with
  | zero => simpa using h.symm
  | succ b => simp at h

theorem shape : Shape tab [blk] where
  shift := by
    intro b blk' i s w a hb hi ht ha
    rw [get hb] at hi
    simp only [blk, List.mem_cons, List.not_mem_nil, or_false] at hi
    rcases hi with rfl | rfl | rfl <;> simp [tab] at ht
    all_goals (obtain ⟨_, rfl, _⟩ := ht; simp)
  and := by
    intro b blk' i w c hb hi ht
    rw [get hb] at hi
    simp only [blk, List.mem_cons, List.not_mem_nil, or_false] at hi
    rcases hi with rfl | rfl | rfl <;> simp [tab] at ht
    obtain ⟨rfl, rfl⟩ := ht
    simp
  or := by
    intro b blk' i w hb hi ht
    rw [get hb] at hi
    simp only [blk, List.mem_cons, List.not_mem_nil, or_false] at hi
    rcases hi with rfl | rfl | rfl <;> simp [tab] at ht

/-- No execution reaches an instance that differs: the operand of the right shift is never negative. -/
theorem calm (x : BitVec 32) (ρ : Env Val) (hρ : ρ 0 = .word 32 x) : ¬ Reaches params tab [blk] ρ () := by
  rintro ⟨k, args, m₁, hd, hr⟩
  have h0 : ¬ Differs tab 0 [.word 32 x] := by
    unfold Differs; simp only [tab]
    rintro ⟨_, _, h⟩
    exact h (by decide)
  have step : ∀ {k args m r}, (watched params tab).sem k args m r → ¬ Differs tab k args → (llvm params tab).sem k args m r := by
    rintro k args m r (⟨h, _⟩ | ⟨_, h⟩) hn
    · exact absurd h hn
    · exact h
  have body : ∀ out, ExecFail (watched params tab) blk.body ρ () out → False := by
    intro out hf
    cases hf with
    | here _ _ _ _ hs =>
      have hs : (watched params tab).sem 0 [ρ 0] () none := hs
      rw [hρ] at hs
      have := step hs h0
      unfold llvm at this
      simp only [tab] at this
      obtain ⟨_, _, _, _, _, h⟩ := this
      cases h
    | there _ _ _ _ v m' _ hs hf =>
      have hs : (watched params tab).sem 0 [ρ 0] () (some (v, m')) := hs
      rw [hρ] at hs
      have := step hs h0
      rw [llvm_shift (s := .shl) (w := 32) (a := 3#32) rfl] at this
      obtain ⟨x', y, _, _, h⟩ := this
      simp only [Option.some.injEq, Prod.mk.injEq] at h
      obtain ⟨rfl, _⟩ := h
      have h1 : ∀ y : BitVec 32, ¬ Differs tab 1 [.word 32 y] := by
        intro y hd
        unfold Differs at hd
        simp only [tab] at hd
        exact hd.2.1 255#32 8 rfl (by decide) (by decide)
      cases hf with
      | here _ _ _ _ hs =>
        have hs : (watched params tab).sem 1 [.word 32 y] _ none := hs
        have := step hs (h1 y)
        rw [llvm_and (w := 32) (c := some 255#32) rfl _ (.word 32 255#32) (.word 32 y) rfl] at this
        obtain ⟨_, _, _, _, h⟩ := this
        cases h
      | there _ _ _ _ v m' _ hs hf =>
        have hs : (watched params tab).sem 1 [.word 32 y] _ (some (v, m')) := hs
        have := step hs (h1 y)
        rw [llvm_and (w := 32) (c := some 255#32) rfl _ (.word 32 255#32) (.word 32 y) rfl] at this
        obtain ⟨c, z, hc, _, h⟩ := this
        have := word_inj hc
        subst this
        simp only [Option.some.injEq, Prod.mk.injEq] at h
        obtain ⟨rfl, _⟩ := h
        have h2 : ¬ Differs tab 2 [.word 32 (255#32 &&& z)] := by
          unfold Differs
          simp only [tab]
          rintro ⟨u, hu, h⟩
          have hu : 255#32 &&& z = u := by simpa using hu
          have h := (h (by decide)).1
          subst hu
          have hlt : (255#32 &&& z).toNat ≤ 255 := by rw [BitVec.toNat_and]; exact Nat.and_le_left
          rw [BitVec.toInt_eq_toNat_cond, if_pos (by omega)] at h
          omega
        cases hf with
        | here _ _ _ _ hs =>
          have hs : (watched params tab).sem 2 [.word 32 (255#32 &&& z)] _ none := hs
          have := step hs h2
          rw [llvm_shift (s := .lshr) (w := 32) (a := 1#32) rfl] at this
          obtain ⟨_, _, _, _, h⟩ := this
          cases h
        | there _ _ _ _ v m' _ hs hf => cases hf
  cases hr with
  | fail b blk' _ _ _ hb hf => rw [get hb] at hf; exact body _ hf
  | leave b blk' _ _ ρ₁ m₁ _ hb he hl =>
    rw [get hb] at hl
    simp [blk, leave] at hl
  | step b blk' _ _ ρ₁ m₁ t blk₂ _ hb he hn ht _ =>
    rw [get hb] at hn
    simp [blk, next] at hn

end Ex

example : Shape Ex.tab [Ex.blk] ∧ (pass Ex.tab (fun _ => true) false [Ex.blk]).isSome = true ∧
    (∀ (x : BitVec 32) (ρ : Env Val), ρ 0 = .word 32 x → ¬ Reaches Ex.params Ex.tab [Ex.blk] ρ ()) :=
  ⟨Ex.shape, by decide +kernel, Ex.calm⟩

/-- The function `return x & y`, in 32 bits. -/
def Ex.both : Block Val := ⟨[], [⟨some 2, 3, [.var 0, .var 1]⟩], .ret (some (.var 2))⟩

/-- C84 fails for the most common case: the function that returns the bitwise `and` of two `int`s returns 0 after the pass, whatever
the arguments. -/
theorem c84_and32_fails : ∃ fn', pass Ex.tab (fun _ => true) false [Ex.both] = some fn' ∧
    ∀ (x y : BitVec 32) (ρ : Env Val), ρ 0 = .word 32 x → ρ 1 = .word 32 y →
      Run (llvm Ex.params Ex.tab) [Ex.both] 0 ρ () (.ret (some (.word 32 (x &&& y))) ()) ∧
      ∀ out, Run (after Ex.params Ex.tab) fn' 0 ρ () out ↔ out = .ret (some (.word 32 0#32)) () := by
  have hr : roleAnd 32 = some 6 := rfl
  refine ⟨[⟨[], [⟨some 2, 16 * 3 + 6, [.var 0, .var 1]⟩], .ret (some (.var 2))⟩], rfl, ?_⟩
  intro x y ρ hx hy
  have hl : (llvm Ex.params Ex.tab).sem 3 [ρ 0, ρ 1] () (some (.word 32 (x &&& y), ())) :=
    (llvm_and (w := 32) (c := none) rfl _ (ρ 0) (ρ 1) rfl _ _).2 ⟨x, y, hx, hy, rfl⟩
  have ha : ∀ R, (after Ex.params Ex.tab).sem (16 * 3 + 6) [ρ 0, ρ 1] () R ↔ R = some (.word 32 0#32, ()) := by
    intro R
    rw [and_lib hr]
    constructor
    · rintro ⟨_, _, _, _, h⟩; exact h
    · intro h; exact ⟨x, y, hx, hy, h⟩
  refine ⟨.leave 0 Ex.both ρ () _ () _ rfl (.cons (⟨some 2, 3, [.var 0, .var 1]⟩ : Instr Val) _ ρ () _ () _ _ hl (.nil _ _)) rfl, ?_⟩
  intro out
  constructor
  · intro h
    cases h with
    | fail b blk' _ _ _ hb hf =>
      rw [Ex.get hb] at hf
      cases hf with
      | here _ _ _ _ hs => cases (ha none).1 hs
      | there _ _ _ _ v m' _ hs hf => cases hf
    | leave b blk' _ _ ρ₁ m₁ _ hb he hl =>
      rw [Ex.get hb] at hl he
      cases he with
      | cons _ _ _ _ v m' _ _ hs he =>
        have := (ha _).1 hs
        simp only [Option.some.injEq, Prod.mk.injEq] at this
        obtain ⟨rfl, _⟩ := this
        cases he
        have hl : some (Outcome.ret (some (Val.word 32 0#32)) ()) = some out := hl
        injection hl with hl
        exact hl.symm
    | step b blk' _ _ ρ₁ m₁ t blk₂ _ hb he hn ht _ =>
      rw [Ex.get hb] at hn
      simp [next] at hn
  · rintro rfl
    exact .leave 0 _ ρ () _ () _ rfl (.cons (⟨some 2, 16 * 3 + 6, [.var 0, .var 1]⟩ : Instr Val) _ ρ () _ () _ _ ((ha _).2 rfl) (.nil _ _)) rfl

end Smack.BwPass
