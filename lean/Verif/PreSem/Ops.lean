/-
The values of the prelude's integer functions in an interpretation that agrees with the declarations.
-/
import Verif.PreSem.Lemmas

namespace Smack.PreSem
open PreludeTy FloatLit

variable {U : Type} {m : Mode} {A : Arith U} {I : Interp U}

theorem all1 {T : Ty} {a : Val U} (h : a.Is T) : AllIs [T] [a] := .cons h .nil
theorem all2 {T S : Ty} {a b : Val U} (h : a.Is T) (h2 : b.Is S) : AllIs [T, S] [a, b] := .cons h (.cons h2 .nil)
theorem all3 {T S R : Ty} {a b c : Val U} (h : a.Is T) (h2 : b.Is S) (h3 : c.Is R) : AllIs [T, S, R] [a, b, c] :=
  .cons h (.cons h2 (.cons h3 .nil))

theorem intIs (z : Int) : (Val.int z : Val U).Is .int := trivial
theorem bvIs {w : Nat} (b : BitVec w) : (Val.bv w b : Val U).Is (.bv w) := rfl

/-! ### Rows of the table of arithmetic operations -/

theorem mem_arithDecls {o : ArithOp} {n : Nat} {d : Fun} (ho : o ∈ arithTable m) (hn : n ∈ sizes) (hd : d ∈ o.funs m n) :
    d ∈ arithDecls m := List.mem_flatMap.mpr ⟨o, ho, List.mem_flatMap.mpr ⟨n, hn, hd⟩⟩

/-- When the functions on mathematical integers are declared. -/
def HasInt (m : Mode) (ptr : Bool) : Prop := m.bp = false ∨ m.bpp = false ∧ ptr = true
def HasBv (m : Mode) (ptr : Bool) : Prop := m.bp = true ∨ m.bpp = true ∧ ptr = true

theorem mem_intFun {o : ArithOp} {n : Nat} {d : Fun} (hc : HasInt m o.usedByPtr) (hd : d ∈ o.intFun n) : d ∈ o.funs m n := by
  unfold ArithOp.funs
  refine List.mem_append_left _ ?_
  rw [if_pos (by rcases hc with h | ⟨h, h'⟩ <;> simp [*])]
  exact hd

theorem mem_bvFun {o : ArithOp} {n : Nat} {d : Fun} (hc : HasBv m o.usedByPtr) (hd : d ∈ o.bvFun n) : d ∈ o.funs m n := by
  unfold ArithOp.funs
  refine List.mem_append_right _ ?_
  rw [if_pos (by rcases hc with h | ⟨h, h'⟩ <;> simp [*])]
  exact hd

theorem arith_decl_ok (h : m.Ok) {o : ArithOp} {n : Nat} {d : Fun} (ho : o ∈ arithTable m) (hn : n ∈ sizes) (hd : d ∈ o.funs m n) :
    FunOk (sig m) (globals m) d := arith_ok h (mem_arithDecls ho hn hd)

theorem int_body (D : Defines A m I) (h : m.Ok) {o : ArithOp} {n : Nat} (ho : o ∈ arithTable m) (hn : n ∈ sizes)
    (hc : HasInt m o.usedByPtr) {b : Nat → Ex} (hk : o.intOp = .inlined b) {args : List (Val U)}
    (ha : AllIs ((vars "i" o.arity (.i n)).map fun p => den m p.2) args) :
    I.fn ⟨"$" ++ o.name, [.ty (.i n)]⟩ args = eval I (bind (vars "i" o.arity (.i n)) args I.const) (b n) := by
  have hd : ({ sym := ⟨"$" ++ o.name, [.ty (.i n)]⟩, params := vars "i" o.arity (.i n), ret := .i n, body := some (b n) } : Fun) ∈ o.funs m n :=
    mem_intFun hc (by unfold ArithOp.intFun; rw [hk]; exact .head _)
  exact app_body D (mem_arith ho hn hd) (arith_decl_ok h ho hn hd) rfl ha

theorem int_attr (D : Defines A m I) (h : m.Ok) {o : ArithOp} {n : Nat} (ho : o ∈ arithTable m) (hn : n ∈ sizes)
    (hc : HasInt m o.usedByPtr) {s : Smt} (hk : o.intOp = .builtin s) {args : List (Val U)}
    (ha : AllIs ((vars "i" o.arity (.i n)).map fun p => den m p.2) args) :
    I.fn ⟨"$" ++ o.name, [.ty (.i n)]⟩ args = smt A s args := by
  have hd : ({ sym := ⟨"$" ++ o.name, [.ty (.i n)]⟩, params := vars "i" o.arity (.i n), ret := .i n, attr := some s } : Fun) ∈ o.funs m n :=
    mem_intFun hc (by unfold ArithOp.intFun; rw [hk]; exact .head _)
  exact app_attr D (mem_arith ho hn hd) (arith_decl_ok h ho hn hd) rfl ha

theorem bv_body (D : Defines A m I) (h : m.Ok) {o : ArithOp} {n : Nat} (ho : o ∈ arithTable m) (hn : n ∈ sizes)
    (hc : HasBv m o.usedByPtr) {b : Nat → Ex} (hk : o.bvOp = .inlined b) {args : List (Val U)}
    (ha : AllIs ((vars "i" o.arity (.bv n)).map fun p => den m p.2) args) :
    I.fn ⟨"$" ++ o.name, [.ty (.bv n)]⟩ args = eval I (bind (vars "i" o.arity (.bv n)) args I.const) (b n) := by
  have hd : ({ sym := ⟨"$" ++ o.name, [.ty (.bv n)]⟩, params := vars "i" o.arity (.bv n), ret := .bv n, body := some (b n) } : Fun) ∈ o.funs m n :=
    mem_bvFun hc (by unfold ArithOp.bvFun; rw [hk]; exact .head _)
  exact app_body D (mem_arith ho hn hd) (arith_decl_ok h ho hn hd) rfl ha

theorem bv_attr (D : Defines A m I) (h : m.Ok) {o : ArithOp} {n : Nat} (ho : o ∈ arithTable m) (hn : n ∈ sizes)
    (hc : HasBv m o.usedByPtr) {s : Smt} (hk : o.bvOp = .builtin s) {args : List (Val U)}
    (ha : AllIs ((vars "i" o.arity (.bv n)).map fun p => den m p.2) args) :
    I.fn ⟨"$" ++ o.name, [.ty (.bv n)]⟩ args = smt A s args := by
  have hd : ({ sym := ⟨"$" ++ o.name, [.ty (.bv n)]⟩, params := vars "i" o.arity (.bv n), ret := .bv n, attr := some s } : Fun) ∈ o.funs m n :=
    mem_bvFun hc (by unfold ArithOp.bvFun; rw [hk]; exact .head _)
  exact app_attr D (mem_arith ho hn hd) (arith_decl_ok h ho hn hd) rfl ha

/-- The value of a row with an inlined operator of Boogie. -/
theorem int_bin (D : Defines A m I) (h : m.Ok) {nm : String} {op : Bin} {k : OpKind} {n : Nat}
    (ho : ⟨nm, 2, .inlined (intArith op), k, true⟩ ∈ arithTable m) (hn : n ∈ sizes) (hc : HasInt m true) (a b : Int) :
    I.fn ⟨"$" ++ nm, [.ty (.i n)]⟩ [.int a, .int b] = evalBin op (.int a) (.int b) := by
  rw [int_body D h ho hn hc rfl (args := [.int a, .int b]) (all2 (intIs a) (intIs b))]
  simp [vars2i, bind, intArith, PreludeTy.v, eval]

theorem add_i (D : Defines A m I) (h : m.Ok) {n : Nat} (hn : n ∈ sizes) (hc : HasInt m true) (a b : Int) :
    I.fn ⟨"$add", [.ty (.i n)]⟩ [.int a, .int b] = .int (a + b) :=
  int_bin D h (nm := "add") (op := .plus) (k := bvAttr "add") (by unfold arithTable; pos) hn hc a b

theorem sub_i (D : Defines A m I) (h : m.Ok) {n : Nat} (hn : n ∈ sizes) (hc : HasInt m true) (a b : Int) :
    I.fn ⟨"$sub", [.ty (.i n)]⟩ [.int a, .int b] = .int (a - b) :=
  int_bin D h (nm := "sub") (op := .minus) (k := bvAttr "sub") (by unfold arithTable; pos) hn hc a b

theorem mul_i (D : Defines A m I) (h : m.Ok) {n : Nat} (hn : n ∈ sizes) (hc : HasInt m true) (a b : Int) :
    I.fn ⟨"$mul", [.ty (.i n)]⟩ [.int a, .int b] = .int (a * b) :=
  int_bin D h (nm := "mul") (op := .times) (k := bvAttr "mul") (by unfold arithTable; pos) hn hc a b

/-- The value of a row with an SMT-LIB operation on two bit-vectors. -/
theorem bv_bin (D : Defines A m I) (h : m.Ok) {nm op : String} {k : OpKind} {p : Bool} {n : Nat}
    (ho : ⟨nm, 2, k, bvAttr op, p⟩ ∈ arithTable m) (hn : n ∈ sizes) (hc : HasBv m p)
    {f : (w : Nat) → BitVec w → BitVec w → BitVec w} (hf : bvBin ("bv" ++ op) = some f) (a b : BitVec n) :
    I.fn ⟨"$" ++ nm, [.ty (.bv n)]⟩ [.bv n a, .bv n b] = .bv n (f n a b) := by
  rw [bv_attr D h ho hn hc rfl (args := [.bv n a, .bv n b]) (all2 (bvIs a) (bvIs b))]
  simp [smt, hf]

theorem add_bv (D : Defines A m I) (h : m.Ok) {n : Nat} (hn : n ∈ sizes) (hc : HasBv m true) (a b : BitVec n) :
    I.fn ⟨"$add", [.ty (.bv n)]⟩ [.bv n a, .bv n b] = .bv n (a + b) :=
  bv_bin D h (nm := "add") (op := "add") (by unfold arithTable; pos) hn hc rfl a b

theorem sub_bv (D : Defines A m I) (h : m.Ok) {n : Nat} (hn : n ∈ sizes) (hc : HasBv m true) (a b : BitVec n) :
    I.fn ⟨"$sub", [.ty (.bv n)]⟩ [.bv n a, .bv n b] = .bv n (a - b) :=
  bv_bin D h (nm := "sub") (op := "sub") (by unfold arithTable; pos) hn hc rfl a b

theorem mul_bv (D : Defines A m I) (h : m.Ok) {n : Nat} (hn : n ∈ sizes) (hc : HasBv m true) (a b : BitVec n) :
    I.fn ⟨"$mul", [.ty (.bv n)]⟩ [.bv n a, .bv n b] = .bv n (a * b) :=
  bv_bin D h (nm := "mul") (op := "mul") (by unfold arithTable; pos) hn hc rfl a b

/-! ### Pointers -/

/-- The value that represents a pointer whose address is `z`. -/
def ptrV (m : Mode) (z : Int) : Val U := if m.bpp then .bv m.ptr (BitVec.ofInt m.ptr z) else .int z

theorem ptrV_is (z : Int) : (ptrV m z : Val U).Is (den m .ref) := by
  cases h : m.bpp <;> simp only [ptrV, den, h, if_true, if_false, Bool.false_eq_true]
  · exact intIs z
  · exact bvIs _

/-- The declaration of an operation on pointers. -/
def refDecl (m : Mode) (op : String) : Fun :=
  { sym := ⟨op, [.ty .ref]⟩, params := [("p1", .ref), ("p2", .ref)], ret := .ref,
    body := some (.fn ⟨op, [.ty (ptrT m)]⟩ [v "p1", v "p2"]) }

theorem ref_arith (D : Defines A m I) (h : m.Ok) {op : String} (hop : op ∈ ["$add", "$sub", "$mul"]) {a b : Val U}
    (ha : a.Is (den m .ref)) (hb : b.Is (den m .ref)) :
    I.fn ⟨op, [.ty .ref]⟩ [a, b] = I.fn ⟨op, [.ty (ptrT m)]⟩ [a, b] := by
  have hd : refDecl m op ∈ ptrArithDecls m := List.mem_map_of_mem (f := refDecl m) hop
  have hd' := mem_decls (g := ptrArithDecls m) (by unfold groups; pos) hd
  have ok : FunOk (sig m) (globals m) _ := decls_ok h hd' (by rintro ⟨_, e⟩; cases e) (by rintro ⟨_, _, n, _, _, e⟩; cases e)
  have e := app_body D hd' ok rfl (args := [a, b]) (all2 ha hb)
  rw [show I.fn ⟨op, [.ty .ref]⟩ [a, b] = _ from e]
  simp [refDecl, bind, PreludeTy.v, eval, evals]

theorem hasInt_ptr (h : m.bpp = false) : HasInt m true := .inr ⟨h, rfl⟩
theorem hasBv_ptr (h : m.bpp = true) : HasBv m true := .inr ⟨h, rfl⟩

theorem add_ref (D : Defines A m I) (h : m.Ok) (a b : Int) :
    I.fn ⟨"$add", [.ty .ref]⟩ [ptrV m a, ptrV m b] = ptrV m (a + b) := by
  rw [ref_arith D h (by simp) (ptrV_is a) (ptrV_is b)]
  cases hb : m.bpp <;> simp only [ptrV, ptrT, hb, if_true, if_false, Bool.false_eq_true]
  · exact add_i D h h.ptr_mem (hasInt_ptr hb) a b
  · rw [add_bv D h h.ptr_mem (hasBv_ptr hb), BitVec.ofInt_add]

theorem sub_ref (D : Defines A m I) (h : m.Ok) (a b : Int) :
    I.fn ⟨"$sub", [.ty .ref]⟩ [ptrV m a, ptrV m b] = ptrV m (a - b) := by
  rw [ref_arith D h (by simp) (ptrV_is a) (ptrV_is b)]
  cases hb : m.bpp <;> simp only [ptrV, ptrT, hb, if_true, if_false, Bool.false_eq_true]
  · exact sub_i D h h.ptr_mem (hasInt_ptr hb) a b
  · rw [sub_bv D h h.ptr_mem (hasBv_ptr hb), Int.sub_eq_add_neg, BitVec.ofInt_add, BitVec.ofInt_neg, ← BitVec.sub_eq_add_neg]

theorem eval_pLit (ρ : String → Val U) (k : Nat) : eval I ρ (pLit m k) = ptrV m k := by
  cases hb : m.bpp <;> simp only [pLit, ptrV, hb, if_true, if_false, Bool.false_eq_true, eval]
  rw [BitVec.ofInt_natCast]

theorem eval_pLitInt (D : Defines A m I) (h : m.Ok) (ρ : String → Val U) (k : Int) : eval I ρ (pLitInt m k) = ptrV m k := by
  unfold pLitInt
  split
  · rename_i hk
    rw [eval_pLit, Int.toNat_of_nonneg hk]
  · rename_i hk
    rw [eval, evals, evals, evals, eval_pLit, eval_pLit, sub_ref D h]
    congr 1; omega

end Smack.PreSem
