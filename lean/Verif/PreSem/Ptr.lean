/-
Pointers: the value of address computations.
-/
import Verif.PreSem.Det

namespace Smack.PreSem
open PreludeTy

variable {U : Type} {m : Mode} {A : Arith U} {I : Interp U} {gl ex : Int}

theorem mul_ref (D : Defines A m I) (h : m.Ok) (a b : Int) :
    I.fn ⟨"$mul", [.ty .ref]⟩ [ptrV m a, ptrV m b] = ptrV m (a * b) := by
  rw [ref_arith D h (by simp) (ptrV_is a) (ptrV_is b)]
  cases hb : m.bpp <;> simp only [ptrV, ptrT, hb, if_true, if_false, Bool.false_eq_true]
  · exact mul_i D h h.ptr_mem (hasInt_ptr hb) a b
  · rw [mul_bv D h h.ptr_mem (hasBv_ptr hb), BitVec.ofInt_mul]

theorem bv2int (D : Defines A m I) (h : m.Ok) (hb : m.bp = true) (hp : m.bpp = false) (a : BitVec m.ptr) :
    I.fn ⟨"$bv2int", [.num m.ptr]⟩ [.bv m.ptr a] = .int a.toInt := by
  have hu : I.fn ⟨"$bv2uint", [.num m.ptr]⟩ [.bv m.ptr a] = .int a.toNat := by
    have hd : ({ sym := ⟨"$bv2uint", [.num m.ptr]⟩, params := [("i", .bv m.ptr)], ret := .i m.ptr, attr := some ⟨"bv2nat", []⟩ } : Fun) ∈ bvIntDecls m := by
      unfold bvIntDecls; rw [if_pos (by simp [hb, hp])]; pos
    have hm := mem_decls (g := bvIntDecls m) (by unfold groups; pos) hd
    have ok : FunOk (sig m) (globals m) _ := decls_ok h hm (by rintro ⟨_, e⟩; simp at e) (by rintro ⟨_, _, n, _, _, e⟩; simp at e)
    exact app_attr D hm ok rfl (args := [.bv m.ptr a]) (all1 (bvIs a))
  have hd : ({ sym := ⟨"$bv2int", [.num m.ptr]⟩, params := [("i", .bv m.ptr)], ret := .i m.ptr, body := some (.ite (.fn ⟨"$slt", [.ty (.bv m.ptr), .ty .bool]⟩ [v "i", .bv 0 m.ptr])
          (.fn ⟨"$sub", [.ty (.i m.ptr)]⟩ [.fn ⟨"$bv2uint", [.num m.ptr]⟩ [v "i"], .int (2 ^ m.ptr)])
          (.fn ⟨"$bv2uint", [.num m.ptr]⟩ [v "i"])) } : Fun) ∈ bvIntDecls m := by
    unfold bvIntDecls; rw [if_pos (by simp [hb, hp])]; pos
  have hm := mem_decls (g := bvIntDecls m) (by unfold groups; pos) hd
  have ok : FunOk (sig m) (globals m) _ := decls_ok h hm (by rintro ⟨_, e⟩; simp at e) (by rintro ⟨_, _, n, _, _, e⟩; simp at e)
  refine (app_body D hm ok rfl (args := [.bv m.ptr a]) (all1 (bvIs a))).trans ?_
  have hs : I.fn ⟨"$slt", [.ty (.bv m.ptr), .ty .bool]⟩ [.bv m.ptr a, .bv m.ptr (BitVec.ofNat m.ptr 0)] = .bool (decide (a.toInt < 0)) := by
    rw [show (⟨"$slt", [.ty (.bv m.ptr), .ty .bool]⟩ : Sym) = ⟨"$" ++ predName .slt, [.ty (.bv m.ptr), .ty .bool]⟩ from rfl,
      predBool_bv D h (.inl hb) (nowrap h hb) .slt h.ptr_mem]
    simp [IntOps.icmp]
  simp only [eval, evals, PreludeTy.v]
  rw [show bind [("i", TName.bv m.ptr)] [Val.bv m.ptr a] I.const "i" = .bv m.ptr a from rfl, hs, hu, sub_i D h h.ptr_mem (hasInt_ptr hp)]
  have hmsb : a.msb = decide (a.toInt < 0) := BitVec.msb_eq_toInt
  have e := BitVec.toInt_eq_msb_cond a
  rw [hmsb] at e
  by_cases hlt : a.toInt < 0
  · rw [decide_eq_true hlt] at e ⊢
    exact congrArg Val.int e.symm
  · rw [decide_eq_false hlt] at e ⊢
    exact congrArg Val.int e.symm

theorem i2p (D : Defines A m I) (h : m.Ok) (hb : m.bp = true) {w : Nat} (hw : w ∈ sizes) (a : BitVec w) {ρ : String → Val U} {e : Ex}
    (he : eval I ρ e = .bv w a) (hc : w = m.ptr ∨ w < m.ptr ∧ 0 ≤ a.toInt) :
    eval I ρ (integerToPointer m e w) = ptrV m a.toInt := by
  have key : ∀ {e : Ex} {b : BitVec m.ptr}, eval I ρ e = .bv m.ptr b → eval I ρ (bitConversion m e m.bp m.bpp) = ptrV m b.toInt := by
    intro e b he
    cases hp : m.bpp
    · simp only [bitConversion, hb, ptrV, hp, Bool.true_eq_false, if_false, if_true, Bool.false_eq_true, eval, evals, he]
      exact bv2int D h hb hp b
    · simp only [bitConversion, hb, ptrV, hp, if_true, he, BitVec.ofInt_toInt]
  unfold integerToPointer
  rcases hc with rfl | ⟨hlt, hpos⟩
  · simp only [Nat.lt_irrefl, if_false]
    exact key he
  · simp only [hlt, if_true]
    have e2 : eval I ρ (.fn ⟨"$zext", [.ty (intT m w), .ty (intT m m.ptr)]⟩ [e]) = .bv m.ptr (a.setWidth m.ptr) := by
      simp only [eval, evals, he, intT, hb, if_true]
      exact (conv_bv D h hb hw h.ptr_mem hlt).2.1 a
    rw [key e2]
    congr 1
    have h2 : m.ptr ≠ 0 := by omega
    have hm : (a.setWidth m.ptr).msb = false := by
      rw [BitVec.msb_setWidth, BitVec.getLsbD_of_ge _ _ (by omega), Bool.and_false]
    rw [BitVec.toInt_eq_toNat_of_msb hm, BitVec.toNat_setWidth_of_le (by omega)]
    rw [BitVec.toInt_eq_toNat_cond] at hpos ⊢
    split at hpos
    · rename_i hh; rw [if_pos hh]
    · have := a.isLt; omega

theorem i2p_narrow (D : Defines A m I) (h : m.Ok) (hb : m.bp = true) {w : Nat} (hw : w ∈ sizes) (a : BitVec w) {ρ : String → Val U} {e : Ex}
    (he : eval I ρ e = .bv w a) (hlt : w < m.ptr) : eval I ρ (integerToPointer m e w) = ptrV m a.toNat := by
  have e2 : eval I ρ (.fn ⟨"$zext", [.ty (intT m w), .ty (intT m m.ptr)]⟩ [e]) = .bv m.ptr (a.setWidth m.ptr) := by
    simp only [eval, evals, he, intT, hb, if_true]
    exact (conv_bv D h hb hw h.ptr_mem hlt).2.1 a
  have hm : (a.setWidth m.ptr).msb = false := by
    rw [BitVec.msb_setWidth, BitVec.getLsbD_of_ge _ _ (by omega), Bool.and_false]
  have hz : (a.setWidth m.ptr).toInt = a.toNat := by
    rw [BitVec.toInt_eq_toNat_of_msb hm, BitVec.toNat_setWidth_of_le (by omega)]
  unfold integerToPointer
  simp only [hlt, if_true]
  cases hp : m.bpp
  · simp only [bitConversion, hb, ptrV, hp, Bool.true_eq_false, if_false, if_true, Bool.false_eq_true]
    rw [eval, evals, evals, e2, bv2int D h hb hp, hz]
  · simp only [bitConversion, hb, ptrV, hp, if_true]
    rw [e2, ← hz, BitVec.ofInt_toInt]

theorem eval_pa (D : Defines A m I) (h : m.Ok) {ρ : String → Val U} {b i : Ex} {z k : Int} (hb : eval I ρ b = ptrV m z) (hi : eval I ρ i = ptrV m k)
    (size : Nat) : eval I ρ (Emit.pa m b i size) = ptrV m (z + k * size) := by
  rw [Emit.pa, eval, evals, evals, evals, eval, evals, evals, evals, hb, hi, eval_pLit, mul_ref D h, add_ref D h]

theorem eval_paConst (D : Defines A m I) (h : m.Ok) {ρ : String → Val U} {b : Ex} {z : Int} (hb : eval I ρ b = ptrV m z) (k : Int)
    (size : Nat) : eval I ρ (Emit.paConst m b k size) = ptrV m (z + k * size) := by
  unfold Emit.paConst
  split
  · rename_i hk
    refine eval_pa D h hb ?_ size
    rw [eval_pLit, Int.toNat_of_nonneg hk]
  · rename_i hk
    refine eval_pa D h hb ?_ size
    rw [eval, evals, evals, evals, eval_pLit, eval_pLit, sub_ref D h]
    congr 1; omega

theorem eval_arith (D : Defines A m I) (h : m.Ok) (hb : m.bp = true) {μ : String → Option ((w : Nat) × BitVec w)} {ρ : String → Val U}
    (hρ : ∀ x w a, μ x = some ⟨w, a⟩ → ρ x = .bv w a) {is : Emit.Ixs} {o : Int} (ho : Off μ m.ptr is o) :
    is.All Emit.Val.sup → ∀ {e : Ex} {z : Int}, eval I ρ e = ptrV m z → eval I ρ (Emit.arith m e is) = ptrV m (z + o) := by
  induction ho with
  | nil => intro _ e z he; rw [Emit.arith, he]; simp
  | @field no off rest o _ ih =>
    intro hs e z he
    rw [Emit.arith, ih hs (eval_paConst D h he off 1)]
    congr 1; omega
  | @const w v size rest o h0 hv _ ih =>
    intro hs e z he
    rw [Emit.arith, ih hs.2 (eval_paConst D h he _ size), sext_toInt h0 hv]
    congr 1; omega
  | @idx i w a size rest o hi hw _ ih =>
    intro hs e z he
    have e1 : eval I ρ (Emit.expr m i false false) = .bv w a := text_bv D h hb hρ hi hs.1 _ _
    by_cases hc : ∃ w v, i = .cint w v
    · obtain ⟨w', v, rfl⟩ := hc
      cases hi with
      | cint hv =>
        have h0 : 0 < w := sizes_pos (widths_sizes ▸ hs.1)
        rw [Emit.arith, ih hs.2 (eval_paConst D h he _ size), sext_toInt h0 hv]
        congr 1; omega
    · rw [Emit.arith]
      · rw [hi.ty, show (Emit.LTy.int w).width = w from rfl, ih hs.2 (eval_pa D h he (i2p D h hb (hi.width hs.1) a e1 hw) size)]
        congr 1; omega
      · intro w v e; exact hc ⟨w, v, e⟩

theorem off_zero {μ : String → Option ((w : Nat) × BitVec w)} {n : Nat} {is : Emit.Ixs} {o : Int} (ho : Off μ n is o) (hf : FieldsOk is)
    (hz : is.allZero = true) : o = 0 := by
  induction ho with
  | nil => rfl
  | @field no off rest o _ ih =>
    simp only [Emit.Ixs.allZero, Bool.and_eq_true, beq_iff_eq] at hz
    rw [ih hf.2 hz.2, hf.1 hz.1]; rfl
  | @const w v size rest o h0 hv _ ih =>
    simp only [Emit.Ixs.allZero, Bool.and_eq_true, beq_iff_eq] at hz
    rw [ih hf hz.2, hz.1]; simp
  | @idx i w a size rest o hi hw _ ih =>
    cases hi with
    | cint hv =>
      simp only [Emit.Ixs.allZero, Bool.and_eq_true, beq_iff_eq] at hz
      rw [ih hf hz.2, hz.1]; simp
    | _ => simp [Emit.Ixs.allZero] at hz

theorem text_adr (M : Models A m gl ex I) (h : m.Ok) (hb : m.bp = true) {μ : String → Option ((w : Nat) × BitVec w)} {α : String → Option Int}
    {ρ : String → Val U} (hρ : ∀ x w a, μ x = some ⟨w, a⟩ → ρ x = .bv w a) (hα : ∀ x z, α x = some z → ρ x = ptrV m z)
    (h0 : ρ "$0.ref" = I.const "$0.ref") {v : Emit.Val} {z : Int} (hv : Adr μ α m.ptr v z) :
    v.All Emit.Val.sup → ∀ u ui, eval I ρ (Emit.expr m v u ui) = ptrV m z := by
  have D := M.toDefines
  induction hv with
  | reg hx => intro _ u ui; rw [Emit.expr, eval, hα _ _ hx]
  | null =>
    intro _ u ui
    have := M.axs (.bin .eq (PreludeTy.v "$0.ref") (pLit m 0)) (List.mem_append_right _ (by pos))
    rw [eval, PreludeTy.v, eval, eval_pLit] at this
    simp only [evalBin] at this
    injection this with this
    injection this with this
    rw [Emit.expr, eval, h0]
    exact @of_decide_eq_true _ (_) this
  | @gep p is z o _ ho hf ih =>
    intro hs u ui
    rw [Emit.expr]
    split
    · rename_i hz
      rw [ih hs.2.1, off_zero ho hf hz]; simp
    · exact eval_arith D h hb hρ ho hs.2.2 (ih hs.2.1 false false)
  | @cast v z _ ht ih =>
    intro hs u ui
    rw [Emit.expr, if_pos ⟨rfl, ht, rfl⟩]
    exact ih hs.2 u ui

end Smack.PreSem
