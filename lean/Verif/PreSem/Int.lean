/-
The values of the functions on mathematical integers are those of `IntOps`.
-/
import Verif.PreSem.Ops
import Verif.IntOps.Model

namespace Smack.PreSem
open PreludeTy

variable {U : Type} {m : Mode} {A : Arith U} {I : Interp U} {S : IntOps.Smt}

/-- The integer encoding of a mode. -/
def encOf (m : Mode) : IntOps.Enc := if m.wrap then .wrapped else .unbounded

/-- The parameters that `IntOps` leaves open for division by zero. -/
structure SameDiv (S : IntOps.Smt) (A : Arith U) : Prop where
  div : S.divZero = A.divZero
  mod : S.modZero = A.modZero

theorem idiv_i (D : Defines A m I) (h : m.Ok) (hS : SameDiv S A) (hb : m.bp = false) {n : Nat} (hn : n ∈ sizes) (a b : Int) :
    I.fn ⟨"$idiv", [.ty (.i n)]⟩ [.int a, .int b] = .int (IntOps.idiv S a b) := by
  have e := int_attr D h (o := ⟨"idiv", 2, intAttr "div", bvAttr "idiv", false⟩) (by unfold arithTable; pos) hn (.inl hb) rfl
    (args := [.int a, .int b]) (all2 (intIs a) (intIs b))
  rw [show (⟨"$idiv", [.ty (.i n)]⟩ : Sym) = ⟨"$" ++ "idiv", [.ty (.i n)]⟩ from rfl, e]
  simp [smt, IntOps.idiv, hS.div]

theorem smod_i (D : Defines A m I) (h : m.Ok) (hS : SameDiv S A) (hb : m.bp = false) {n : Nat} (hn : n ∈ sizes) (a b : Int) :
    I.fn ⟨"$smod", [.ty (.i n)]⟩ [.int a, .int b] = .int (IntOps.smod S a b) := by
  have e := int_attr D h (o := ⟨"smod", 2, intAttr "mod", bvAttr "smod", false⟩) (by unfold arithTable; pos) hn (.inl hb) rfl
    (args := [.int a, .int b]) (all2 (intIs a) (intIs b))
  rw [show (⟨"$smod", [.ty (.i n)]⟩ : Sym) = ⟨"$" ++ "smod", [.ty (.i n)]⟩ from rfl, e]
  simp [smt, IntOps.smod, hS.mod]

theorem ite_and (p q : Prop) [Decidable p] [Decidable q] (x y : Val U) :
    (if (decide p && decide q) = true then x else y) = if p ∧ q then x else y := by
  by_cases hp : p <;> by_cases hq : q <;> simp [hp, hq]

theorem tos_i (D : Defines A m I) (h : m.Ok) (hS : SameDiv S A) (hb : m.bp = false) (hw : m.wrap = true) {n : Nat} (hn : n ∈ sizes) (a : Int) :
    I.fn ⟨"$tos", [.ty (.i n)]⟩ [.int a] = .int (IntOps.tos S n a) := by
  have e := int_body D h (o := ⟨"tos", 1, if m.wrap then .inlined tosBody else .absent, .absent, true⟩) (by unfold arithTable; pos) hn (.inl hb)
    (b := tosBody) (by simp [hw]) (args := [.int a]) (all1 (intIs a))
  rw [show (⟨"$tos", [.ty (.i n)]⟩ : Sym) = ⟨"$" ++ "tos", [.ty (.i n)]⟩ from rfl, e]
  simp only [vars1, bind, tosBody, PreludeTy.v, eval, evals, evalBin, evalIte, if_true, add_i D h hn (.inl hb), smod_i D h hS hb hn,
    sub_i D h hn (.inl hb)]
  unfold IntOps.tos IntOps.intLimit
  simp only [← Bool.decide_and, decide_eq_true_eq]
  simp only [Int.cast_ofNat_Int, Int.natCast_pow, ge_iff_le]
  rw [apply_ite (Val.int : Int → Val U)]

theorem tou_i (D : Defines A m I) (h : m.Ok) (hS : SameDiv S A) (hb : m.bp = false) (hw : m.wrap = true) {n : Nat} (hn : n ∈ sizes) (a : Int) :
    I.fn ⟨"$tou", [.ty (.i n)]⟩ [.int a] = .int (IntOps.tou S n a) := by
  have e := int_body D h (o := ⟨"tou", 1, if m.wrap then .inlined touBody else .absent, .absent, true⟩) (by unfold arithTable; pos) hn (.inl hb)
    (b := touBody) (by simp [hw]) (args := [.int a]) (all1 (intIs a))
  rw [show (⟨"$tou", [.ty (.i n)]⟩ : Sym) = ⟨"$" ++ "tou", [.ty (.i n)]⟩ from rfl, e]
  simp only [vars1, bind, touBody, PreludeTy.v, eval, evals, evalBin, evalIte, if_true, smod_i D h hS hb hn]
  unfold IntOps.tou IntOps.intLimit
  simp only [← Bool.decide_and, decide_eq_true_eq]
  simp only [Int.cast_ofNat_Int, Int.natCast_pow, ge_iff_le]
  rw [apply_ite (Val.int : Int → Val U)]

theorem eval_wrapped (D : Defines A m I) (h : m.Ok) (hS : SameDiv S A) (hb : m.bp = false) {n : Nat} (hn : n ∈ sizes) {ρ : String → Val U}
    {e : Ex} {z : Int} (he : eval I ρ e = .int z) (u : Bool) :
    eval I ρ (PreludeTy.wrapped m n e u) = .int (IntOps.wrapped S (encOf m) n z u) := by
  unfold PreludeTy.wrapped IntOps.wrapped encOf
  cases hw : m.wrap with
  | false => simpa using he
  | true =>
    cases u with
    | false => simp only [if_true, eval, evals, he, Bool.false_eq_true, if_false, tos_i D h hS hb hw hn]
    | true => simp only [if_true, eval, evals, he, tou_i D h hS hb hw hn]

theorem div_i (D : Defines A m I) (h : m.Ok) (hS : SameDiv S A) (hb : m.bp = false) {n : Nat} (hn : n ∈ sizes) (a b : Int) :
    I.fn ⟨"$sdiv", [.ty (.i n)]⟩ [.int a, .int b] = .int (IntOps.sdiv S (encOf m) n a b) ∧
    I.fn ⟨"$udiv", [.ty (.i n)]⟩ [.int a, .int b] = .int (IntOps.udiv S (encOf m) n a b) := by
  constructor
  · have e := int_body D h (o := ⟨"sdiv", 2, .inlined (divBody m true), bvAttr "sdiv", false⟩) (by unfold arithTable; pos) hn (.inl hb) rfl
      (args := [.int a, .int b]) (all2 (intIs a) (intIs b))
    rw [show (⟨"$sdiv", [.ty (.i n)]⟩ : Sym) = ⟨"$" ++ "sdiv", [.ty (.i n)]⟩ from rfl, e, divBody, eval, evals, evals, evals,
      eval_wrapped D h hS hb hn (z := a) (by rw [PreludeTy.v, eval]; rfl), eval_wrapped D h hS hb hn (z := b) (by rw [PreludeTy.v, eval]; rfl),
      idiv_i D h hS hb hn]
    rfl
  · have e := int_body D h (o := ⟨"udiv", 2, .inlined (divBody m false), bvAttr "udiv", false⟩) (by unfold arithTable; pos) hn (.inl hb) rfl
      (args := [.int a, .int b]) (all2 (intIs a) (intIs b))
    rw [show (⟨"$udiv", [.ty (.i n)]⟩ : Sym) = ⟨"$" ++ "udiv", [.ty (.i n)]⟩ from rfl, e, divBody, eval, evals, evals, evals,
      eval_wrapped D h hS hb hn (z := a) (by rw [PreludeTy.v, eval]; rfl), eval_wrapped D h hS hb hn (z := b) (by rw [PreludeTy.v, eval]; rfl),
      idiv_i D h hS hb hn]
    rfl

theorem urem_i (D : Defines A m I) (h : m.Ok) (hS : SameDiv S A) (hb : m.bp = false) {n : Nat} (hn : n ∈ sizes) (a b : Int) :
    I.fn ⟨"$urem", [.ty (.i n)]⟩ [.int a, .int b] = .int (IntOps.urem S (encOf m) n a b) := by
  have e := int_body D h (o := ⟨"urem", 2, .inlined (uremBody m), bvAttr "urem", false⟩) (by unfold arithTable; pos) hn (.inl hb) rfl
    (args := [.int a, .int b]) (all2 (intIs a) (intIs b))
  rw [show (⟨"$urem", [.ty (.i n)]⟩ : Sym) = ⟨"$" ++ "urem", [.ty (.i n)]⟩ from rfl, e, uremBody, eval, evals, evals, evals,
    eval_wrapped D h hS hb hn (z := a) (by rw [PreludeTy.v, eval]; rfl), eval_wrapped D h hS hb hn (z := b) (by rw [PreludeTy.v, eval]; rfl),
    smod_i D h hS hb hn]
  rfl

/-! ### Predicates -/

/-- The names of the predicates. -/
def predName : IntOps.Pred → String
  | .eq => "eq" | .ne => "ne" | .ule => "ule" | .ult => "ult" | .uge => "uge" | .ugt => "ugt" | .sle => "sle" | .slt => "slt"
  | .sge => "sge" | .sgt => "sgt"

def predBin : IntOps.Pred → Bin
  | .eq => .eq | .ne => .neq | .ule | .sle => .lte | .ult | .slt => .lt | .uge | .sge => .gte | .ugt | .sgt => .gt

theorem pred_mem (p : IntOps.Pred) : ∃ k, ⟨predName p, intPred m (predBin p) p.signed, k⟩ ∈ predTable m := by
  unfold predTable
  cases p <;> exact ⟨_, by pos⟩

theorem evalBin_pred (p : IntOps.Pred) (a b : Int) : evalBin (predBin p) (.int a : Val U) (.int b) = .bool (p.op a b) := by
  cases p <;> simp [predBin, evalBin, IntOps.Pred.op, Val.int, Val.bool] <;> first | rfl | (by_cases h : a = b <;> simp [h])

theorem pred_decl_ok (h : m.Ok) {o : PredOp} {n : Nat} {d : Fun} (ho : o ∈ predTable m) (hn : n ∈ sizes) (hd : d ∈ o.funs m n)
    (hbad : ¬ BadPred m d.sym) : FunOk (sig m) (globals m) d :=
  pred_ok h (List.mem_flatMap.mpr ⟨o, ho, List.mem_flatMap.mpr ⟨n, hn, hd⟩⟩) hbad

theorem mem_intFuns (hb : m.bp = false ∨ m.bpp = false) {o : PredOp} {n : Nat} {d : Fun} (hd : d ∈ o.intFuns n) : d ∈ o.funs m n := by
  unfold PredOp.funs
  refine List.mem_append_left _ ?_
  rw [if_pos (by rcases hb with h | h <;> simp [h])]
  exact hd

theorem predBool_i (D : Defines A m I) (h : m.Ok) (hS : SameDiv S A) (hb : m.bp = false) (p : IntOps.Pred) {n : Nat} (hn : n ∈ sizes) (a b : Int) :
    I.fn ⟨"$" ++ predName p, [.ty (.i n), .ty .bool]⟩ [.int a, .int b] = .bool (IntOps.predBool S (encOf m) p n a b) := by
  obtain ⟨k, ho⟩ := pred_mem (m := m) p
  have hd := mem_intFuns (m := m) (.inl hb) (List.Mem.head _ : _ ∈ PredOp.intFuns ⟨predName p, intPred m (predBin p) p.signed, k⟩ n)
  have ok := pred_decl_ok h ho hn hd (by rintro ⟨_, _, _, _, _, e⟩; simp at e)
  have e := app_body D (mem_pred ho hn hd) ok rfl (args := [.int a, .int b]) (all2 (intIs a) (intIs b))
  refine Eq.trans e ?_
  show eval I _ (intPred m (predBin p) p.signed n) = _
  rw [intPred, eval, eval_wrapped D h hS hb hn (z := a) (by rw [PreludeTy.v, eval]; rfl),
    eval_wrapped D h hS hb hn (z := b) (by rw [PreludeTy.v, eval]; rfl), evalBin_pred]
  rfl

theorem pred_i (D : Defines A m I) (h : m.Ok) (hS : SameDiv S A) (hb : m.bp = false) (p : IntOps.Pred) {n : Nat} (hn : n ∈ sizes) (a b : Int) :
    I.fn ⟨"$" ++ predName p, [.ty (.i n)]⟩ [.int a, .int b] = .int (IntOps.pred S (encOf m) p n a b) := by
  obtain ⟨k, ho⟩ := pred_mem (m := m) p
  have hd := mem_intFuns (m := m) (.inl hb) (List.Mem.tail _ (List.Mem.head _) : _ ∈ PredOp.intFuns ⟨predName p, intPred m (predBin p) p.signed, k⟩ n)
  have ok := pred_decl_ok h ho hn hd (by rintro ⟨_, _, _, _, _, e⟩; simp at e)
  have e := app_body D (mem_pred ho hn hd) ok rfl (args := [.int a, .int b]) (all2 (intIs a) (intIs b))
  refine Eq.trans e ?_
  simp only [eval, evals, PreludeTy.v]
  show evalIte (I.fn ⟨"$" ++ predName p, [.ty (.i n), .ty .bool]⟩ [.int a, .int b]) (.int 1) (.int 0) = _
  rw [predBool_i D h hS hb p hn]
  unfold IntOps.pred
  cases IntOps.predBool S (encOf m) p n a b <;> rfl

theorem minMax_i (D : Defines A m I) (h : m.Ok) (hS : SameDiv S A) (hb : m.bp = false) {n : Nat} (hn : n ∈ sizes) (isMin sign : Bool) (a b : Int) :
    I.fn ⟨"$" ++ ((if sign then "s" else "u") ++ (if isMin then "min" else "max")), [.ty (.i n)]⟩ [.int a, .int b] =
      .int (IntOps.minMax S (encOf m) isMin sign n a b) := by
  have key : ∀ (p : IntOps.Pred) (nm : String) (k : OpKind) (body : Nat → Ex), ⟨nm, 2, .inlined body, k, false⟩ ∈ arithTable m →
      body n = .ite (.fn ⟨"$" ++ predName p, [.ty (.i n), .ty .bool]⟩ [PreludeTy.v "i1", PreludeTy.v "i2"]) (PreludeTy.v "i1") (PreludeTy.v "i2") →
      I.fn ⟨"$" ++ nm, [.ty (.i n)]⟩ [.int a, .int b] = .int (if IntOps.predBool S (encOf m) p n a b then a else b) := by
    intro p nm k body ho hbody
    have e := int_body D h ho hn (.inl hb) rfl (args := [.int a, .int b]) (all2 (intIs a) (intIs b))
    rw [e, hbody, eval, eval, evals, evals, evals, PreludeTy.v, PreludeTy.v, eval, eval,
      show bind (vars "i" 2 (.i n)) [Val.int a, Val.int b] I.const "i1" = .int a from rfl,
      show bind (vars "i" 2 (.i n)) [Val.int a, Val.int b] I.const "i2" = .int b from rfl, predBool_i D h hS hb p hn]
    cases IntOps.predBool S (encOf m) p n a b <;> rfl
  cases isMin <;> cases sign
  · exact key .ugt "umax" _ _ (by unfold arithTable; pos) rfl
  · exact key .sgt "smax" _ _ (by unfold arithTable; pos) rfl
  · exact key .ult "umin" _ _ (by unfold arithTable; pos) rfl
  · exact key .slt "smin" _ _ (by unfold arithTable; pos) rfl

theorem srem_i (D : Defines A m I) (h : m.Ok) (hS : SameDiv S A) (hb : m.bp = false) {n : Nat} (hn : n ∈ sizes) (a b : Int) :
    I.fn ⟨"$srem", [.ty (.i n)]⟩ [.int a, .int b] = .int (IntOps.srem S (encOf m) n a b) := by
  have e := int_body D h (o := ⟨"srem", 2, .inlined (sremBody m), bvAttr "srem", false⟩) (by unfold arithTable; pos) hn (.inl hb) rfl
    (args := [.int a, .int b]) (all2 (intIs a) (intIs b))
  rw [show (⟨"$srem", [.ty (.i n)]⟩ : Sym) = ⟨"$" ++ "srem", [.ty (.i n)]⟩ from rfl, e]
  generalize hρ : bind (vars "i" 2 (.i n)) [Val.int a, Val.int b] I.const = ρ
  have e1 : eval I ρ (PreludeTy.wrapped m n (PreludeTy.v "i1") false) = .int (IntOps.wrapped S (encOf m) n a false) :=
    eval_wrapped D h hS hb hn (z := a) (by rw [← hρ, PreludeTy.v, eval]; rfl) _
  have e2 : eval I ρ (PreludeTy.wrapped m n (PreludeTy.v "i2") false) = .int (IntOps.wrapped S (encOf m) n b false) :=
    eval_wrapped D h hS hb hn (z := b) (by rw [← hρ, PreludeTy.v, eval]; rfl) _
  have hne : ∀ x y, I.fn ⟨"$ne", [.ty (.i n), .ty .bool]⟩ [.int x, .int y] = .bool (IntOps.predBool S (encOf m) .ne n x y) :=
    fun x y => predBool_i D h hS hb .ne hn x y
  have hlt : ∀ x y, I.fn ⟨"$slt", [.ty (.i n), .ty .bool]⟩ [.int x, .int y] = .bool (IntOps.predBool S (encOf m) .slt n x y) :=
    fun x y => predBool_i D h hS hb .slt hn x y
  have hmx : ∀ x y, I.fn ⟨"$smax", [.ty (.i n)]⟩ [.int x, .int y] = .int (IntOps.minMax S (encOf m) false true n x y) :=
    fun x y => minMax_i D h hS hb hn false true x y
  simp only [sremBody, eval, evals, e1, e2, smod_i D h hS hb hn, hne, hlt, hmx, sub_i D h hn (.inl hb), evalBin, evalIte]
  unfold IntOps.srem
  simp only [IntOps.isub]
  rw [← apply_ite (Val.int : Int → Val U)]
  rfl

/-! ### Conversions -/

theorem conv_i (D : Defines A m I) (h : m.Ok) (hS : SameDiv S A) (hb : m.bp = false) {n k : Nat} (hn : n ∈ sizes) (hk : k ∈ sizes) (hnk : n < k)
    (a : Int) :
    I.fn ⟨"$trunc", [.ty (.i k), .ty (.i n)]⟩ [.int a] = .int (IntOps.trunc S (encOf m) k n a) ∧
    I.fn ⟨"$zext", [.ty (.i n), .ty (.i k)]⟩ [.int a] = .int (IntOps.zext S (encOf m) n k a) ∧
    I.fn ⟨"$sext", [.ty (.i n), .ty (.i k)]⟩ [.int a] = .int (IntOps.sext S (encOf m) n k a) := by
  have hp := mem_pairs sizes_sorted hn hk hnk
  refine ⟨?_, ?_, ?_⟩
  · have hd : convTrunc m (n, k) ∈ convDecls m := List.mem_append_left _ (List.mem_append_left _ (List.mem_map_of_mem hp))
    have ok : FunOk (sig m) (globals m) _ := conv_ok h hd
    have hm := mem_decls (g := convDecls m) (by unfold groups; pos) hd
    simp only [convTrunc, hb, if_false, Bool.false_eq_true] at ok hm
    refine (app_body D hm ok rfl (args := [.int a]) (all1 (intIs a))).trans ?_
    exact eval_wrapped D h hS hb hn (z := a) (by rw [PreludeTy.v, eval]; rfl) true
  · have hd : convExt m false (n, k) ∈ convDecls m := List.mem_append_right _ (List.mem_map_of_mem hp)
    have ok : FunOk (sig m) (globals m) _ := conv_ok h hd
    have hm := mem_decls (g := convDecls m) (by unfold groups; pos) hd
    simp only [convExt, hb, if_false, Bool.false_eq_true] at ok hm
    refine (app_body D hm ok rfl (args := [.int a]) (all1 (intIs a))).trans ?_
    exact eval_wrapped D h hS hb hn (z := a) (by rw [PreludeTy.v, eval]; rfl) true
  · have hd : convExt m true (n, k) ∈ convDecls m := List.mem_append_left _ (List.mem_append_right _ (List.mem_map_of_mem hp))
    have ok : FunOk (sig m) (globals m) _ := conv_ok h hd
    have hm := mem_decls (g := convDecls m) (by unfold groups; pos) hd
    simp only [convExt, hb, if_true, if_false, Bool.false_eq_true] at ok hm
    refine (app_body D hm ok rfl (args := [.int a]) (all1 (intIs a))).trans ?_
    exact eval_wrapped D h hS hb hn (z := a) (by rw [PreludeTy.v, eval]; rfl) false

end Smack.PreSem
