/-
The value of the emitted expressions.
-/
import Verif.PreSem.Bv
import Verif.PreSem.TextSpec
import Verif.Emit.Lemmas

namespace Smack.PreSem
open PreludeTy

variable {U : Type} {m : Mode} {A : Arith U} {I : Interp U} {S : IntOps.Smt}

theorem widths_sizes : Emit.widths = sizes := by decide

theorem icmp_pred {w : Nat} (p : IntOps.Pred) (a b : BitVec w) : IntOps.icmp p a b = decide (E2EBv.llvmPred p a b) := by
  cases p <;> simp [IntOps.icmp, E2EBv.llvmPred, BitVec.toNat_inj] <;> rfl

theorem Sem.ty {μ : String → Option ((w : Nat) × BitVec w)} {v : Emit.Val} {w : Nat} {a : BitVec w} (h : Sem μ v w a) : v.ty = .int w := by
  induction h with
  | reg | cint | trunc | zext | sext | cmp => rfl
  | bin _ _ _ _ ih | sel _ _ _ _ ih => exact ih

theorem sup_ty {v : Emit.Val} (h : v.All Emit.Val.sup) : v.ty.Sup := by
  cases v with
  | cast op v t => exact h.1.2
  | gep p ixs => exact h.1
  | bop op l r => exact h.1
  | cmp p l r => exact h.1
  | sel c a b => exact h.1
  | _ => exact h

theorem Sem.width {μ : String → Option ((w : Nat) × BitVec w)} {v : Emit.Val} {w : Nat} {a : BitVec w} (h : Sem μ v w a)
    (hs : v.All Emit.Val.sup) : w ∈ sizes := by
  have := sup_ty hs; rw [h.ty] at this; exact widths_sizes ▸ this

theorem opName {op : Emit.BinOp} {o : E2EBv.Bin} (h : intOp op = some o) : op.name = "$" ++ binName o := by
  cases op <;> cases h <;> rfl

theorem cmpName {p : Emit.CmpOp} {q : IntOps.Pred} (h : icmpOf p = some q) : p.name = "$" ++ predName q := by
  cases p <;> cases h <;> rfl

theorem intOp_arith {op : Emit.BinOp} {o : E2EBv.Bin} (h : intOp op = some o) : op.isFpArith = false := by
  cases op <;> cases h <;> rfl

/-! ### Bit-vectors -/

theorem ofNat_setWidth {n : Nat} (k : Nat) (a : BitVec n) : a.setWidth k = BitVec.ofNat k a.toNat := by
  apply BitVec.eq_of_toNat_eq; simp

theorem sub_lit {w v : Nat} (h : v < 2 ^ w) : BitVec.ofNat w 0 - BitVec.ofNat w (2 ^ w - v) = BitVec.ofNat w v := by
  apply BitVec.eq_of_toNat_eq
  simp only [BitVec.toNat_sub, BitVec.toNat_ofNat]
  by_cases h0 : v = 0
  · subst h0; simp
  · rw [Nat.mod_eq_of_lt (a := 2 ^ w - v) (by omega), Nat.mod_eq_of_lt h, Nat.zero_mod,
      show 2 ^ w - (2 ^ w - v) + 0 = v by omega, Nat.mod_eq_of_lt h]

theorem litInt_bv (D : Defines A m I) (h : m.Ok) (hb : m.bp = true) {w v : Nat} (hw : w ∈ sizes) (hv : v < 2 ^ w) (ρ : String → Val U)
    (u ui : Bool) : eval I ρ (Emit.litInt m w v u ui) = .bv w (BitVec.ofNat w v) := by
  unfold Emit.litInt
  generalize (decide (1 < w) && if u then (if ui then false else Emit.sext w v == -1) else decide (Emit.sext w v < 0)) = neg
  cases neg
  · simp only [hb, if_true, iLit, eval, Bool.false_eq_true, if_false]
  · simp only [hb, if_true, iLit, eval, evals]
    rw [sub_bv D h hw (.inl hb), sub_lit hv]

theorem text_bv (D : Defines A m I) (h : m.Ok) (hb : m.bp = true) {μ : String → Option ((w : Nat) × BitVec w)} {ρ : String → Val U}
    (hρ : ∀ x w a, μ x = some ⟨w, a⟩ → ρ x = .bv w a) {v : Emit.Val} {w : Nat} {a : BitVec w} (hs : Sem μ v w a) :
    v.All Emit.Val.sup → ∀ u ui, eval I ρ (Emit.expr m v u ui) = .bv w a := by
  have ht : ∀ n, Emit.tyName m (.int n) = .bv n := fun n => by simp [Emit.tyName, intT, hb]
  induction hs with
  | reg hx => intro _ u ui; rw [Emit.expr, eval, hρ _ _ _ hx]
  | cint hv => intro hs u ui; rw [Emit.expr]; exact litInt_bv D h hb (widths_sizes ▸ hs) hv ρ u ui
  | @trunc v n k a hv hk ih =>
    intro hs u ui
    have hn : n ∈ sizes := hv.width hs.2
    have hkm : k ∈ sizes := widths_sizes ▸ hs.1.2
    rw [Emit.expr, if_neg (by simp), Emit.castEx.eq_def, hv.ty, ht, ht]
    simp only [eval, evals, ih hs.2]
    show I.fn ⟨"$trunc", _⟩ _ = _
    rw [(conv_bv D h hb hkm hn hk).1, ofNat_setWidth]
  | @zext v n k a hv hk ih =>
    intro hs u ui
    have hn : n ∈ sizes := hv.width hs.2
    have hkm : k ∈ sizes := widths_sizes ▸ hs.1.2
    rw [Emit.expr, if_neg (by simp), Emit.castEx.eq_def, hv.ty, ht, ht]
    simp only [eval, evals, ih hs.2]
    show I.fn ⟨"$zext", _⟩ _ = _
    rw [(conv_bv D h hb hn hkm hk).2.1, ofNat_setWidth]
  | @sext v n k a hv hk ih =>
    intro hs u ui
    have hn : n ∈ sizes := hv.width hs.2
    have hkm : k ∈ sizes := widths_sizes ▸ hs.1.2
    rw [Emit.expr, if_neg (by simp), Emit.castEx.eq_def, hv.ty, ht, ht]
    simp only [eval, evals, ih hs.2]
    show I.fn ⟨"$sext", _⟩ _ = _
    rw [(conv_bv D h hb hn hkm hk).2.2]
    rfl
  | @bin op o l r w a b c ho hl hr hc ihl ihr =>
    intro hs u ui
    have hw : w ∈ sizes := hl.width hs.2.1
    rw [Emit.expr, Emit.bopEx]
    simp only [intOp_arith ho, Bool.false_eq_true, if_false, eval, evals, ihl hs.2.1, ihr hs.2.2, hl.ty, ht, opName ho]
    rw [bin_bv D h hb o hw, E2EBv.bin_eq o a b c hc]
  | @cmp p q l r w a b hp hl hr ihl ihr =>
    intro hs u ui
    have hw : w ∈ sizes := hl.width hs.2.1
    rw [Emit.expr, Emit.cmpEx.eq_def, hl.ty]
    simp only [eval, evals, ihl hs.2.1, ihr hs.2.2, ht, cmpName hp]
    rw [pred_bv D h (.inl hb) (nowrap h hb) q hw, icmp_pred]
    by_cases hq : E2EBv.llvmPred q a b <;> simp [hq] <;> rfl
  | @sel c x y w b s t hc hx hy ihc ihx ihy =>
    intro hs u ui
    have e1 : eval I ρ (iLit m 1 1) = .bv 1 1#1 := by simp only [iLit, hb, if_true, eval]
    rw [Emit.expr, Emit.selEx, eval, eval, ihc hs.2.1, ihx hs.2.2.1, ihy hs.2.2.2, e1]
    by_cases hq : b.toNat = 1
    · have : b = 1#1 := BitVec.eq_of_toNat_eq hq
      subst this
      simp [evalBin, evalIte]
    · have : b ≠ 1#1 := fun e => hq (by rw [e]; rfl)
      simp [evalBin, evalIte, hq, this]

/-! ### Integers -/

/-- The operations on `i1` are those of the interpretation. -/
def SameLogic (S : IntOps.Smt) (I : Interp U) : Prop :=
  ∀ a b : Int, I.fn ⟨"$and", [.ty (.i 1)]⟩ [.int a, .int b] = .int (S.logic1 .and a b) ∧
    I.fn ⟨"$or", [.ty (.i 1)]⟩ [.int a, .int b] = .int (S.logic1 .or a b) ∧
    I.fn ⟨"$xor", [.ty (.i 1)]⟩ [.int a, .int b] = .int (S.logic1 .xor a b)

theorem Ren.ty {nm : Nat → String} {u ui : Bool} {v : Emit.Val} {w : Nat} {e : IntOps.Expr w} (h : Ren nm u ui v w e) : v.ty = .int w := by
  induction h with
  | reg | cint | trunc | zext | sext | cmp => rfl
  | add _ _ ih | sub _ _ ih | mul _ _ ih | udiv _ _ ih | sdiv _ _ ih | urem _ _ ih | srem _ _ ih | and _ _ ih | or _ _ ih | xor _ _ ih
  | sel _ _ _ _ ih => exact ih

theorem Ren.width {nm : Nat → String} {u ui : Bool} {v : Emit.Val} {w : Nat} {e : IntOps.Expr w} (h : Ren nm u ui v w e)
    (hs : v.All Emit.Val.sup) : w ∈ sizes := by
  have := sup_ty hs; rw [h.ty] at this; exact widths_sizes ▸ this

theorem sext_toInt {w v : Nat} (hw : 0 < w) (hv : v < 2 ^ w) : Emit.sext w v = (BitVec.ofNat w v).toInt := by
  have hp : 2 ^ w = 2 * 2 ^ (w - 1) := by rw [← Nat.pow_succ', Nat.succ_eq_add_one, Nat.sub_add_cancel hw]
  rw [BitVec.toInt_eq_toNat_cond, BitVec.toNat_ofNat, Nat.mod_eq_of_lt hv, Emit.sext]
  by_cases h : 2 ^ (w - 1) ≤ v
  · rw [if_pos h, if_neg (by omega)]; push_cast; rfl
  · rw [if_neg h, if_pos (by omega)]

theorem litInt_i (D : Defines A m I) (h : m.Ok) (hb : m.bp = false) {w v : Nat} (hw : w ∈ sizes) (h0 : 0 < w) (hv : v < 2 ^ w) (ρ : String → Val U)
    (u ui : Bool) {i : Int} (hi : IntOps.litInt u ui (BitVec.ofNat w v) = some i) :
    eval I ρ (Emit.litInt m w v u ui) = .int i := by
  have hn : (BitVec.ofNat w v).toNat = v := by rw [BitVec.toNat_ofNat, Nat.mod_eq_of_lt hv]
  unfold IntOps.litInt at hi
  rw [Option.map_eq_some_iff] at hi
  obtain ⟨neg, hneg, rfl⟩ := hi
  have key : (decide (1 < w) && if u then (if ui then false else Emit.sext w v == -1) else decide (Emit.sext w v < 0)) = neg ∧
      (neg = true → (IntOps.apAbs (BitVec.ofNat w v)).toNat = 2 ^ w - v) := by
    rw [sext_toInt h0 hv]
    have abs : (BitVec.ofNat w v).toInt < 0 → (IntOps.apAbs (BitVec.ofNat w v)).toNat = 2 ^ w - v := by
      intro hlt
      have hm : (BitVec.ofNat w v).msb = true := by rw [BitVec.msb_eq_toInt]; simpa using hlt
      have := IntOps.apAbs_toNat _ hm
      rw [BitVec.toInt_eq_msb_cond, hm, if_pos rfl, hn] at this
      have hv' := hv
      omega
    unfold IntOps.litNeg at hneg
    by_cases h1 : 1 < w
    · simp only [h1, if_true, decide_true, Bool.true_and, gt_iff_lt] at hneg ⊢
      cases u
      · simp only [Bool.false_eq_true, if_false, Option.some.injEq] at hneg ⊢
        rw [BitVec.msb_eq_toInt] at hneg
        refine ⟨hneg, fun e => abs ?_⟩
        rw [e] at hneg; simpa using hneg
      · cases ui
        · simp only [Bool.false_eq_true, if_false, if_true] at hneg ⊢
          rw [Option.map_eq_some_iff] at hneg
          obtain ⟨z, hz, rfl⟩ := hneg
          unfold IntOps.getSExtValue at hz
          split at hz
          · cases hz
            exact ⟨rfl, fun e => abs (by simp at e; omega)⟩
          · cases hz
        · simp only [if_true, Option.some.injEq] at hneg ⊢
          exact ⟨hneg, fun e => by rw [e] at hneg; cases hneg⟩
    · simp only [gt_iff_lt, h1, if_false, Option.some.injEq, decide_false, Bool.false_and] at hneg ⊢
      exact ⟨hneg, fun e => by rw [e] at hneg; cases hneg⟩
  unfold Emit.litInt
  rw [key.1]
  cases neg
  · simp only [hb, iLit, eval, Bool.false_eq_true, if_false, hn]
  · simp only [hb, if_true, iLit, eval, evals, Bool.false_eq_true, if_false]
    rw [sub_i D h hw (.inl hb), key.2 rfl]
    rfl

theorem text_int (D : Defines A m I) (h : m.Ok) (hS : SameDiv S A) (hL : SameLogic S I) (hb : m.bp = false) {nm : Nat → String} {ρ : String → Val U}
    {ρ' : Nat → Int} (hρ : ∀ k, ρ (nm k) = .int (ρ' k)) {u ui : Bool} {v : Emit.Val} {w : Nat} {e : IntOps.Expr w} (hr : Ren nm u ui v w e) :
    v.All Emit.Val.sup → ∀ i, e.evalInt S (encOf m) ρ' = some i → eval I ρ (Emit.expr m v u ui) = .int i := by
  have ht : ∀ n, Emit.tyName m (.int n) = .i n := fun n => by simp [Emit.tyName, intT, hb]
  have un : ∀ {x : Option Int} {f : Int → Int} {i : Int}, (do return f (← x)) = some i → ∃ a, x = some a ∧ i = f a := by
    intro x f i hx
    cases x with
    | none => cases hx
    | some a => cases hx; exact ⟨a, rfl, rfl⟩
  have bi : ∀ {x y : Option Int} {f : Int → Int → Int} {i : Int}, (do return f (← x) (← y)) = some i → ∃ a b, x = some a ∧ y = some b ∧ i = f a b := by
    intro x y f i hx
    cases x with
    | none => cases hx
    | some a =>
      cases y with
      | none => cases hx
      | some b => cases hx; exact ⟨a, b, rfl, rfl, rfl⟩
  induction hr with
  | reg => intro _ i hi; cases hi; rw [Emit.expr, eval, hρ]
  | cint h0 hv => intro hs i hi; rw [Emit.expr]; exact litInt_i D h hb (widths_sizes ▸ hs) h0 hv ρ _ _ hi
  | @trunc u ui v n k e hv hk ih =>
    intro hs i hi
    have hn : n ∈ sizes := hv.width hs.2
    have hkm : k ∈ sizes := widths_sizes ▸ hs.1.2
    obtain ⟨a, ha, rfl⟩ := un hi
    rw [Emit.expr, if_neg (by simp), Emit.castEx.eq_def, hv.ty, ht, ht]
    simp only [eval, evals, ih hs.2 a ha]
    exact (conv_i D h hS hb hkm hn hk a).1
  | @zext u ui v n k e hv hk ih =>
    intro hs i hi
    have hn : n ∈ sizes := hv.width hs.2
    have hkm : k ∈ sizes := widths_sizes ▸ hs.1.2
    obtain ⟨a, ha, rfl⟩ := un hi
    rw [Emit.expr, if_neg (by simp), Emit.castEx.eq_def, hv.ty, ht, ht]
    simp only [eval, evals, ih hs.2 a ha]
    exact (conv_i D h hS hb hn hkm hk a).2.1
  | @sext u ui v n k e hv hk ih =>
    intro hs i hi
    have hn : n ∈ sizes := hv.width hs.2
    have hkm : k ∈ sizes := widths_sizes ▸ hs.1.2
    obtain ⟨a, ha, rfl⟩ := un hi
    rw [Emit.expr, if_neg (by simp), Emit.castEx.eq_def, hv.ty, ht, ht]
    simp only [eval, evals, ih hs.2 a ha]
    exact (conv_i D h hS hb hn hkm hk a).2.2
  | @add u ui l r w a b hl hr ihl ihr =>
    intro hs i hi
    have hw : w ∈ sizes := hl.width hs.2.1
    obtain ⟨x, y, hx, hy, rfl⟩ := bi hi
    rw [Emit.expr, Emit.bopEx]
    simp only [Emit.BinOp.isFpArith, Emit.BinOp.flags, Bool.false_eq_true, if_false, eval, evals, ihl hs.2.1 x hx, ihr hs.2.2 y hy, hl.ty, ht]
    exact add_i D h hw (.inl hb) x y
  | @sub u ui l r w a b hl hr ihl ihr =>
    intro hs i hi
    have hw : w ∈ sizes := hl.width hs.2.1
    obtain ⟨x, y, hx, hy, rfl⟩ := bi hi
    rw [Emit.expr, Emit.bopEx]
    simp only [Emit.BinOp.isFpArith, Emit.BinOp.flags, Bool.false_eq_true, if_false, eval, evals, ihl hs.2.1 x hx, ihr hs.2.2 y hy, hl.ty, ht]
    exact sub_i D h hw (.inl hb) x y
  | @mul u ui l r w a b hl hr ihl ihr =>
    intro hs i hi
    have hw : w ∈ sizes := hl.width hs.2.1
    obtain ⟨x, y, hx, hy, rfl⟩ := bi hi
    rw [Emit.expr, Emit.bopEx]
    simp only [Emit.BinOp.isFpArith, Emit.BinOp.flags, Bool.false_eq_true, if_false, eval, evals, ihl hs.2.1 x hx, ihr hs.2.2 y hy, hl.ty, ht]
    exact mul_i D h hw (.inl hb) x y
  | @udiv u ui l r w a b hl hr ihl ihr =>
    intro hs i hi
    have hw : w ∈ sizes := hl.width hs.2.1
    obtain ⟨x, y, hx, hy, rfl⟩ := bi hi
    rw [Emit.expr, Emit.bopEx]
    simp only [Emit.BinOp.isFpArith, Emit.BinOp.flags, Bool.false_eq_true, if_false, eval, evals, ihl hs.2.1 x hx, ihr hs.2.2 y hy, hl.ty, ht]
    exact (div_i D h hS hb hw x y).2
  | @sdiv u ui l r w a b hl hr ihl ihr =>
    intro hs i hi
    have hw : w ∈ sizes := hl.width hs.2.1
    obtain ⟨x, y, hx, hy, rfl⟩ := bi hi
    rw [Emit.expr, Emit.bopEx]
    simp only [Emit.BinOp.isFpArith, Emit.BinOp.flags, Bool.false_eq_true, if_false, eval, evals, ihl hs.2.1 x hx, ihr hs.2.2 y hy, hl.ty, ht]
    exact (div_i D h hS hb hw x y).1
  | @urem u ui l r w a b hl hr ihl ihr =>
    intro hs i hi
    have hw : w ∈ sizes := hl.width hs.2.1
    obtain ⟨x, y, hx, hy, rfl⟩ := bi hi
    rw [Emit.expr, Emit.bopEx]
    simp only [Emit.BinOp.isFpArith, Emit.BinOp.flags, Bool.false_eq_true, if_false, eval, evals, ihl hs.2.1 x hx, ihr hs.2.2 y hy, hl.ty, ht]
    exact urem_i D h hS hb hw x y
  | @srem u ui l r w a b hl hr ihl ihr =>
    intro hs i hi
    have hw : w ∈ sizes := hl.width hs.2.1
    obtain ⟨x, y, hx, hy, rfl⟩ := bi hi
    rw [Emit.expr, Emit.bopEx]
    simp only [Emit.BinOp.isFpArith, Emit.BinOp.flags, Bool.false_eq_true, if_false, eval, evals, ihl hs.2.1 x hx, ihr hs.2.2 y hy, hl.ty, ht]
    exact srem_i D h hS hb hw x y
  | @and u ui l r a b hl hr ihl ihr =>
    intro hs i hi
    obtain ⟨x, y, hx, hy, rfl⟩ := bi hi
    rw [Emit.expr, Emit.bopEx]
    simp only [Emit.BinOp.isFpArith, Emit.BinOp.flags, Bool.false_eq_true, if_false, eval, evals, ihl hs.2.1 x hx, ihr hs.2.2 y hy, hl.ty, ht]
    exact (hL x y).1
  | @or u ui l r a b hl hr ihl ihr =>
    intro hs i hi
    obtain ⟨x, y, hx, hy, rfl⟩ := bi hi
    rw [Emit.expr, Emit.bopEx]
    simp only [Emit.BinOp.isFpArith, Emit.BinOp.flags, Bool.false_eq_true, if_false, eval, evals, ihl hs.2.1 x hx, ihr hs.2.2 y hy, hl.ty, ht]
    exact (hL x y).2.1
  | @xor u ui l r a b hl hr ihl ihr =>
    intro hs i hi
    obtain ⟨x, y, hx, hy, rfl⟩ := bi hi
    rw [Emit.expr, Emit.bopEx]
    simp only [Emit.BinOp.isFpArith, Emit.BinOp.flags, Bool.false_eq_true, if_false, eval, evals, ihl hs.2.1 x hx, ihr hs.2.2 y hy, hl.ty, ht]
    exact (hL x y).2.2
  | @cmp u ui p q l r w a b hp hl hr ihl ihr =>
    intro hs i hi
    have hw : w ∈ sizes := hl.width hs.2.1
    obtain ⟨x, y, hx, hy, rfl⟩ := bi hi
    have hfl : p.isUnsigned = decide (p ∈ [Emit.CmpOp.ugt, .uge, .ult, .ule]) := by cases p <;> rfl
    rw [Emit.expr, Emit.cmpEx.eq_def, hl.ty, hfl]
    simp only [eval, evals, ihl hs.2.1 x hx, ihr hs.2.2 y hy, ht, cmpName hp]
    exact pred_i D h hS hb q hw x y
  | @sel u ui c x y w d a b hc hx hy ihc ihx ihy =>
    intro hs i hi
    have e1 : eval I ρ (iLit m 1 1) = .int 1 := by simp only [iLit, hb, if_false, eval, Bool.false_eq_true]; rfl
    unfold IntOps.Expr.evalInt at hi
    cases hcd : IntOps.Expr.evalInt S (encOf m) ρ' d with
    | none => rw [hcd] at hi; cases hi
    | some cv =>
      cases hca : IntOps.Expr.evalInt S (encOf m) ρ' a with
      | none => rw [hcd, hca] at hi; cases hi
      | some av =>
        cases hcb : IntOps.Expr.evalInt S (encOf m) ρ' b with
        | none => rw [hcd, hca, hcb] at hi; cases hi
        | some bv =>
          rw [hcd, hca, hcb] at hi
          cases hi
          rw [Emit.expr, Emit.selEx, eval, eval, ihc hs.2.1 _ hcd, ihx hs.2.2.1 _ hca, ihy hs.2.2.2 _ hcb, e1]
          by_cases hq : cv = 1 <;> simp [evalBin, evalIte, hq]

end Smack.PreSem
