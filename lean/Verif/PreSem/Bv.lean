/-
The values of the functions on bit-vectors.
-/
import Verif.PreSem.Int
import Verif.IntOps.Spec
import Verif.E2EBv.Exprs

namespace Smack.PreSem
open PreludeTy

variable {U : Type} {m : Mode} {A : Arith U} {I : Interp U}

theorem nowrap (h : m.Ok) (hb : m.bp = true) : m.wrap = false := by
  cases hw : m.wrap with
  | false => rfl
  | true => have := h.2 hw; rw [hb] at this; cases this

/-- The names of the operations. -/
def binName : E2EBv.Bin → String
  | .add => "add" | .sub => "sub" | .mul => "mul" | .udiv => "udiv" | .sdiv => "sdiv" | .urem => "urem" | .srem => "srem"
  | .shl => "shl" | .lshr => "lshr" | .ashr => "ashr" | .and => "and" | .or => "or" | .xor => "xor"

theorem bin_bv (D : Defines A m I) (h : m.Ok) (hb : m.bp = true) (op : E2EBv.Bin) {n : Nat} (hn : n ∈ sizes) (a b : BitVec n) :
    I.fn ⟨"$" ++ binName op, [.ty (.bv n)]⟩ [.bv n a, .bv n b] = .bv n (E2EBv.smtBin op a b) := by
  cases op with
  | add => exact bv_bin D h (nm := "add") (op := "add") (by unfold arithTable; pos) hn (.inl hb) rfl a b
  | sub => exact bv_bin D h (nm := "sub") (op := "sub") (by unfold arithTable; pos) hn (.inl hb) rfl a b
  | mul => exact bv_bin D h (nm := "mul") (op := "mul") (by unfold arithTable; pos) hn (.inl hb) rfl a b
  | sdiv => exact bv_bin D h (nm := "sdiv") (op := "sdiv") (by unfold arithTable; pos) hn (.inl hb) rfl a b
  | udiv => exact bv_bin D h (nm := "udiv") (op := "udiv") (by unfold arithTable; pos) hn (.inl hb) rfl a b
  | srem => exact bv_bin D h (nm := "srem") (op := "srem") (by unfold arithTable; pos) hn (.inl hb) rfl a b
  | urem => exact bv_bin D h (nm := "urem") (op := "urem") (by unfold arithTable; pos) hn (.inl hb) rfl a b
  | shl => exact bv_bin D h (nm := "shl") (op := "shl") (by unfold arithTable; pos) hn (.inl hb) rfl a b
  | lshr => exact bv_bin D h (nm := "lshr") (op := "lshr") (by unfold arithTable; pos) hn (.inl hb) rfl a b
  | ashr => exact bv_bin D h (nm := "ashr") (op := "ashr") (by unfold arithTable; pos) hn (.inl hb) rfl a b
  | and => exact bv_bin D h (nm := "and") (op := "and") (by unfold arithTable; pos) hn (.inl hb) rfl a b
  | or => exact bv_bin D h (nm := "or") (op := "or") (by unfold arithTable; pos) hn (.inl hb) rfl a b
  | xor => exact bv_bin D h (nm := "xor") (op := "xor") (by unfold arithTable; pos) hn (.inl hb) rfl a b

theorem not_bv (D : Defines A m I) (h : m.Ok) (hb : m.bp = true) {n : Nat} (hn : n ∈ sizes) (a : BitVec n) :
    I.fn ⟨"$not", [.ty (.bv n)]⟩ [.bv n a] = .bv n (~~~a) := by
  have e := bv_attr D h (o := ⟨"not", 1, .uninterpreted, bvAttr "not", false⟩) (by unfold arithTable; pos) hn (.inl hb) rfl
    (args := [.bv n a]) (all1 (bvIs a))
  exact e

/-! ### Predicates -/

theorem mem_bvFuns (hb : m.bp = true ∨ m.bpp = true) {o : PredOp} {n : Nat} {d : Fun} (hd : d ∈ o.bvFuns n) : d ∈ o.funs m n := by
  unfold PredOp.funs
  refine List.mem_append_right _ ?_
  rw [if_pos (by rcases hb with h | h <;> simp [h])]
  exact hd

theorem cmp_bv (D : Defines A m I) (h : m.Ok) (hb : m.bp = true ∨ m.bpp = true) {nm op : String} {i : Nat → Ex} {n : Nat}
    (ho : ⟨nm, i, bvAttr op⟩ ∈ predTable m) (hn : n ∈ sizes) (hnb : bvBin ("bv" ++ op) = none)
    {f : (w : Nat) → BitVec w → BitVec w → Bool} (hf : bvCmp ("bv" ++ op) = some f) (hne : "$" ++ nm ∉ ["$eq", "$ne"]) (a b : BitVec n) :
    I.fn ⟨"$" ++ nm, [.ty (.bv n), .ty .bool]⟩ [.bv n a, .bv n b] = .bool (f n a b) := by
  have hd := mem_bvFuns (m := m) hb (List.mem_append_left _ (List.Mem.head _) : _ ∈ PredOp.bvFuns ⟨nm, i, bvAttr op⟩ n)
  have ok := pred_decl_ok h ho hn hd (by rintro ⟨_, _, _, _, e, _⟩; exact hne e)
  have e := app_attr D (mem_pred ho hn hd) ok rfl (args := [.bv n a, .bv n b]) (all2 (bvIs a) (bvIs b))
  refine Eq.trans e ?_
  simp [smt, hf, hnb]

theorem eq_bv (D : Defines A m I) (h : m.Ok) (hb : m.bp = true ∨ m.bpp = true) (hw : m.wrap = false) {nm : String} {i : Nat → Ex} {op : Bin} {n : Nat}
    (ho : ⟨nm, i, .inlined (intPred m op false)⟩ ∈ predTable m) (hn : n ∈ sizes) (a b : BitVec n) :
    I.fn ⟨"$" ++ nm, [.ty (.bv n), .ty .bool]⟩ [.bv n a, .bv n b] = evalBin op (.bv n a) (.bv n b) := by
  have hd := mem_bvFuns (m := m) hb (List.mem_append_left _ (List.Mem.head _) : _ ∈ PredOp.bvFuns ⟨nm, i, .inlined (intPred m op false)⟩ n)
  have ok := pred_decl_ok h ho hn hd (by rintro ⟨e, _⟩; rw [hw] at e; cases e)
  have e := app_body D (mem_pred ho hn hd) ok rfl (args := [.bv n a, .bv n b]) (all2 (bvIs a) (bvIs b))
  refine Eq.trans e ?_
  simp only [intPred, PreludeTy.wrapped, hw, Bool.false_eq_true, if_false, eval, PreludeTy.v]
  rfl

theorem bv_eq {n : Nat} {a b : BitVec n} : (Val.bv n a : Val U) = .bv n b ↔ a = b := by
  constructor
  · intro h; cases h; rfl
  · rintro rfl; rfl

theorem predBool_bv (D : Defines A m I) (h : m.Ok) (hb : m.bp = true ∨ m.bpp = true) (hw : m.wrap = false) (p : IntOps.Pred) {n : Nat}
    (hn : n ∈ sizes) (a b : BitVec n) :
    I.fn ⟨"$" ++ predName p, [.ty (.bv n), .ty .bool]⟩ [.bv n a, .bv n b] = .bool (IntOps.icmp p a b) := by
  cases p with
  | eq =>
    rw [eq_bv D h hb hw (nm := predName .eq) (i := intPred m .eq false) (op := .eq) (by unfold predTable; pos) hn]
    by_cases e : a = b <;> simp [evalBin, IntOps.icmp, e]
  | ne =>
    rw [eq_bv D h hb hw (nm := predName .ne) (i := intPred m .neq false) (op := .neq) (by unfold predTable; pos) hn]
    by_cases e : a = b <;> simp [evalBin, IntOps.icmp, e]
  | ule => exact cmp_bv D h hb (nm := "ule") (op := "ule") (by unfold predTable; pos) hn rfl rfl (by decide) a b
  | ult => exact cmp_bv D h hb (nm := "ult") (op := "ult") (by unfold predTable; pos) hn rfl rfl (by decide) a b
  | uge => exact cmp_bv D h hb (nm := "uge") (op := "uge") (by unfold predTable; pos) hn rfl rfl (by decide) a b
  | ugt => exact cmp_bv D h hb (nm := "ugt") (op := "ugt") (by unfold predTable; pos) hn rfl rfl (by decide) a b
  | sle => exact cmp_bv D h hb (nm := "sle") (op := "sle") (by unfold predTable; pos) hn rfl rfl (by decide) a b
  | slt => exact cmp_bv D h hb (nm := "slt") (op := "slt") (by unfold predTable; pos) hn rfl rfl (by decide) a b
  | sge => exact cmp_bv D h hb (nm := "sge") (op := "sge") (by unfold predTable; pos) hn rfl rfl (by decide) a b
  | sgt => exact cmp_bv D h hb (nm := "sgt") (op := "sgt") (by unfold predTable; pos) hn rfl rfl (by decide) a b

theorem pred_bv (D : Defines A m I) (h : m.Ok) (hb : m.bp = true ∨ m.bpp = true) (hw : m.wrap = false) (p : IntOps.Pred) {n : Nat}
    (hn : n ∈ sizes) (a b : BitVec n) :
    I.fn ⟨"$" ++ predName p, [.ty (.bv n)]⟩ [.bv n a, .bv n b] = .bv 1 (BitVec.ofBool (IntOps.icmp p a b)) := by
  have ho : ∃ i k, ⟨predName p, i, k⟩ ∈ predTable m := by
    obtain ⟨k, ho⟩ := pred_mem (m := m) p; exact ⟨_, _, ho⟩
  obtain ⟨i, k, ho⟩ := ho
  have hd := mem_bvFuns (m := m) hb (List.mem_append_right _ (List.Mem.head _) : _ ∈ PredOp.bvFuns ⟨predName p, i, k⟩ n)
  have ok := pred_decl_ok h ho hn hd (by rintro ⟨e, _⟩; rw [hw] at e; cases e)
  have e := app_body D (mem_pred ho hn hd) ok rfl (args := [.bv n a, .bv n b]) (all2 (bvIs a) (bvIs b))
  refine Eq.trans e ?_
  simp only [eval, evals, PreludeTy.v]
  show evalIte (I.fn ⟨"$" ++ predName p, [.ty (.bv n), .ty .bool]⟩ [.bv n a, .bv n b]) (.bv 1 (BitVec.ofNat 1 1)) (.bv 1 (BitVec.ofNat 1 0)) = _
  rw [predBool_bv D h hb hw p hn]
  cases IntOps.icmp p a b <;> rfl

/-! ### Conversions -/

theorem conv_bv (D : Defines A m I) (h : m.Ok) (hb : m.bp = true) {n k : Nat} (hn : n ∈ sizes) (hk : k ∈ sizes) (hnk : n < k) :
    (∀ a : BitVec k, I.fn ⟨"$trunc", [.ty (.bv k), .ty (.bv n)]⟩ [.bv k a] = .bv n (a.setWidth n)) ∧
    (∀ a : BitVec n, I.fn ⟨"$zext", [.ty (.bv n), .ty (.bv k)]⟩ [.bv n a] = .bv k (a.setWidth k)) ∧
    (∀ a : BitVec n, I.fn ⟨"$sext", [.ty (.bv n), .ty (.bv k)]⟩ [.bv n a] = .bv k (a.signExtend k)) := by
  have hp := mem_pairs sizes_sorted hn hk hnk
  have hw : n + (k - n) = k := by omega
  refine ⟨fun a => ?_, fun a => ?_, fun a => ?_⟩
  · have hd : convTrunc m (n, k) ∈ convDecls m := List.mem_append_left _ (List.mem_append_left _ (List.mem_map_of_mem hp))
    have ok : FunOk (sig m) (globals m) _ := conv_ok h hd
    have hm := mem_decls (g := convDecls m) (by unfold groups; pos) hd
    simp only [convTrunc, hb, if_true] at ok hm
    refine (app_body D hm ok rfl (args := [.bv k a]) (all1 (bvIs a))).trans ?_
    simp only [eval, PreludeTy.v]
    show evalExtract n 0 (.bv k a) = _
    simp only [evalExtract, Nat.sub_zero]
    rw [bv_eq, BitVec.setWidth_eq_extractLsb' (by omega)]
  · have hd : convExt m false (n, k) ∈ convDecls m := List.mem_append_right _ (List.mem_map_of_mem hp)
    have ok : FunOk (sig m) (globals m) _ := conv_ok h hd
    have hm := mem_decls (g := convDecls m) (by unfold groups; pos) hd
    simp only [convExt, hb, if_true, Bool.false_eq_true, if_false] at ok hm
    refine (app_attr D hm ok rfl (args := [.bv n a]) (all1 (bvIs a))).trans ?_
    show (Val.bv (n + (k - n)) (a.setWidth (n + (k - n))) : Val U) = _
    rw [hw]
  · have hd : convExt m true (n, k) ∈ convDecls m := List.mem_append_left _ (List.mem_append_right _ (List.mem_map_of_mem hp))
    have ok : FunOk (sig m) (globals m) _ := conv_ok h hd
    have hm := mem_decls (g := convDecls m) (by unfold groups; pos) hd
    simp only [convExt, hb, if_true] at ok hm
    refine (app_attr D hm ok rfl (args := [.bv n a]) (all1 (bvIs a))).trans ?_
    show (Val.bv (n + (k - n)) (a.signExtend (n + (k - n))) : Val U) = _
    rw [hw]

end Smack.PreSem
