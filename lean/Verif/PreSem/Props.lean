/-
C88: the prelude is consistent and determines the functions that it defines. C89: the text emitted for a value denotes the value.
-/
import Verif.PreSem.Ptr
import Verif.IntOps.Props
import Verif.Emit.Props

namespace Smack.PreSem
open PreludeTy

variable {U : Type} {m : Mode} {A : Arith U} {I J : Interp U} {gl ex : Int}

/-! ## C88 -/

/-- **C88.** The prelude has a model, in every mode, for all address bounds, over every non-empty domain of the uninterpreted types:
no program can be verified because the declarations and axioms contradict each other. Declarations that Boogie rejects (C71) only
have to return values of their types. -/
theorem c88_consistent (h : m.Ok) (gl ex : Int) (U : Type) [Inhabited U] : ∃ (A : Arith U) (I : Interp U), A.Typed m ∧ Models A m gl ex I :=
  ⟨someArith, interp (someArith (U := U)) (someFree m) m gl ex, someArith_typed h, interp_models h (someArith_typed h) someFree_free⟩

example : ∃ (A : Arith Unit) (I : Interp Unit), A.Typed Emit.mBv ∧ Models A Emit.mBv (-1024) (-32768) I := c88_consistent Emit.mBv_ok _ _ _

/-- **C88.** Whatever SMT-LIB's operators do where it leaves them open, and whatever the uninterpreted functions do, within the axioms
on one-bit integers and `$and.i32(32, 16) = 0`: the prelude has a model with these operators and functions. So the prelude says
nothing more about them. -/
theorem c88_extends [Inhabited U] (h : m.Ok) (hA : A.Typed m) {F : Sym → List (Val U) → Val U} (hF : Free m F) (gl ex : Int) :
    ∃ I, Models A m gl ex I ∧ ∀ d ∈ decls m, d.body = none → d.attr = none → ∀ args, I.fn d.sym args = F d.sym args :=
  ⟨interp A F m gl ex, interp_models h hA hF, fun _ hd hb hs args => interp_free hd hb hs args⟩

example (gl ex : Int) : ∃ I, Models (someArith (U := Unit)) Emit.mInt gl ex I ∧ ∀ d ∈ decls Emit.mInt, d.body = none → d.attr = none →
    ∀ args, I.fn d.sym args = someFree (U := Unit) Emit.mInt d.sym args :=
  c88_extends Emit.mInt_ok (someArith_typed Emit.mInt_ok) someFree_free gl ex

/-- **C88.** Two models that agree on the constants, the uninterpreted functions and the rejected declarations agree on all functions,
for arguments of the declared types: a verdict does not depend on which model the solver has in mind. -/
theorem c88_determined (hI : Models A m gl ex I) (hJ : Models A m gl ex J) (hfp : LitTyped I)
    (hc : I.const = J.const) (hr : I.rm = J.rm) (hf : I.fp = J.fp)
    (hfree : ∀ d ∈ decls m, (d.body = none ∧ d.attr = none) ∨ ¬ FunOk ⟨typeDecls m, decls m⟩ (globals m) d →
      ∀ Ts, ResolvesAll ⟨typeDecls m, decls m⟩ d.params Ts → ∀ args, AllIs Ts args → I.fn d.sym args = J.fn d.sym args) :
    ∀ d ∈ decls m, ∀ Ts, ResolvesAll ⟨typeDecls m, decls m⟩ d.params Ts → ∀ args, AllIs Ts args → I.fn d.sym args = J.fn d.sym args :=
  fun d hd => determined hI hJ.toDefines hfp hc hr hf hfree (rank d.sym + 1) d hd (Nat.lt_succ_self _)

/-- Every model that agrees with the one of `c88_extends` on the uninterpreted functions agrees with it on
all functions of two 32-bit vectors. -/
example (J : Interp Unit) (a b : BitVec 32) : let I := interp (someArith (U := Unit)) (someFree Emit.mBv) Emit.mBv (-1024) (-32768)
    Models someArith Emit.mBv (-1024) (-32768) J → I.const = J.const → I.rm = J.rm → I.fp = J.fp →
    (∀ d ∈ decls Emit.mBv, (d.body = none ∧ d.attr = none) ∨ ¬ FunOk ⟨typeDecls Emit.mBv, decls Emit.mBv⟩ (globals Emit.mBv) d →
      ∀ args, I.fn d.sym args = J.fn d.sym args) →
    ∀ d ∈ decls Emit.mBv, ResolvesAll ⟨typeDecls Emit.mBv, decls Emit.mBv⟩ d.params [.bv 32, .bv 32] → I.fn d.sym [.bv 32 a, .bv 32 b] = J.fn d.sym [.bv 32 a, .bv 32 b] := by
  intro I hJ hc hr hf hfree d hd hp
  refine c88_determined (interp_models Emit.mBv_ok (someArith_typed Emit.mBv_ok) someFree_free) hJ (fun _ _ => ⟨0, rfl⟩) hc hr hf
    (fun d hd h _ _ args _ => hfree d hd h args) d hd [.bv 32, .bv 32] hp _
    (.cons (is_bv.mpr ⟨a, rfl⟩) (.cons (is_bv.mpr ⟨b, rfl⟩) .nil))

/-! ## C89 -/

/-- **C89, bit-vectors.** The expression emitted for an integer value, evaluated in any model of the prelude, is the value that LLVM
gives it: for all operations, comparisons, conversions and selections, constants of all values, and all widths of the prelude. -/
theorem c89_bitvector (D : Defines A m I) (h : m.Ok) (hb : m.bp = true) {μ : String → Option ((w : Nat) × BitVec w)} {ρ : String → Val U}
    (hρ : ∀ x w a, μ x = some ⟨w, a⟩ → ρ x = .bv w a) {v : Emit.Val} {w : Nat} {a : BitVec w} (hv : Sem μ v w a)
    (hs : v.All Emit.Val.sup) (u ui : Bool) : eval I ρ (Emit.expr m v u ui) = .bv w a :=
  text_bv D h hb hρ hv hs u ui

/-- `(x s< -3) ? (x >> 2) - 128 : trunc y` with `x = -100`, `y = 511`: the value is `-25 - 128`, which is 103. -/
example (D : Defines A Emit.mBv I) (ρ : String → Val U) (hx : ρ "$i0" = .bv 8 (-100)) (hy : ρ "$i1" = .bv 32 511) :
    eval I ρ (Emit.expr Emit.mBv (.sel (.cmp .slt (.reg "$i0" (.int 8)) (.cint 8 253))
      (.bop .sub (.bop .ashr (.reg "$i0" (.int 8)) (.cint 8 2)) (.cint 8 128)) (.cast .trunc (.reg "$i1" (.int 32)) (.int 8))) false false) =
      .bv 8 103 := by
  let μ : String → Option ((w : Nat) × BitVec w) := fun x => if x = "$i0" then some ⟨8, -100⟩ else if x = "$i1" then some ⟨32, 511⟩ else none
  have h0 : Sem μ (.reg "$i0" (.int 8)) 8 (-100) := .reg rfl
  refine c89_bitvector (m := Emit.mBv) D Emit.mBv_ok rfl (μ := μ) ?_
    (.sel (b := 1) (.cmp (q := .slt) rfl h0 (.cint (by decide))) (s := 103)
      (.bin (o := .sub) rfl (.bin (o := .ashr) (c := -25) rfl h0 (.cint (by decide)) (by decide)) (.cint (by decide)) (by decide))
      (.trunc (.reg (a := 511) rfl) (by decide))) ?_ _ _
  · intro x w a hx'
    simp only [μ] at hx'
    split at hx'
    · cases hx'; subst_vars; exact hx
    · split at hx'
      · cases hx'; subst_vars; exact hy
      · cases hx'
  · have h8 : (8 : Nat) ∈ Emit.widths := by decide
    have h1 : (1 : Nat) ∈ Emit.widths := by decide
    have h32 : (32 : Nat) ∈ Emit.widths := by decide
    exact ⟨h8, ⟨h1, h8, h8⟩, ⟨h8, ⟨h8, h8, h8⟩, h8⟩, ⟨trivial, h8⟩, h32⟩

/-- **C89, addresses with bit-vectors.** The expression emitted for a pointer value (registers, `null`, `getelementptr`, pointer casts)
is the address that LLVM computes, if no narrow index is negative. -/
theorem c89_address_partial (M : Models A m gl ex I) (h : m.Ok) (hb : m.bp = true) {μ : String → Option ((w : Nat) × BitVec w)}
    {α : String → Option Int} {ρ : String → Val U} (hρ : ∀ x w a, μ x = some ⟨w, a⟩ → ρ x = .bv w a)
    (hα : ∀ x z, α x = some z → ρ x = if m.bpp then .bv m.ptr (BitVec.ofInt m.ptr z) else .int z)
    (h0 : ρ "$0.ref" = I.const "$0.ref") {v : Emit.Val} {z : Int} (hv : Adr μ α m.ptr v z) (hs : v.All Emit.Val.sup) (u ui : Bool) :
    eval I ρ (Emit.expr m v u ui) = if m.bpp then .bv m.ptr (BitVec.ofInt m.ptr z) else .int z :=
  text_adr M h hb hρ hα h0 hv hs u ui

/-- `&p[-2].f` for structures of 24 bytes with `f` at offset 16. -/
example (M : Models A Emit.mBv gl ex I) (ρ : String → Val U) (hp : ρ "$p0" = .bv 64 4096) (h0 : ρ "$0.ref" = I.const "$0.ref") :
    eval I ρ (Emit.expr Emit.mBv (.gep (.reg "$p0" .ptr) (.idx (.cint 32 4294967294) 24 (.field 2 16 .nil))) false false) = .bv 64 4064 := by
  have hv : Adr (fun _ => none) (fun x => if x = "$p0" then some 4096 else none) Emit.mBv.ptr
      (.gep (.reg "$p0" .ptr) (.idx (.cint 32 4294967294) 24 (.field 2 16 .nil)))
      (4096 + ((BitVec.ofNat 32 4294967294).toInt * (24 : Nat) + ((16 : Nat) + 0))) :=
    .gep (.reg rfl) (.const (by decide) (by decide) (.field .nil)) ⟨fun e => absurd e (by decide), trivial⟩
  refine (c89_address_partial M Emit.mBv_ok rfl (fun x w a e => absurd e (by simp)) ?_ h0 hv ?_ false false).trans ?_
  · intro x z hx
    by_cases e : x = "$p0"
    · subst e; rw [if_pos rfl] at hx; cases hx; exact hp
    · rw [if_neg e] at hx; cases hx
  · exact ⟨trivial, trivial, show (32 : Nat) ∈ Emit.widths by decide, trivial⟩
  · show Val.bv 64 _ = Val.bv 64 _
    congr 1

/-- **C89 fails for narrow negative indices**: the address emitted for `p[i]` is too large by `2 ^ w` elements. -/
theorem c89_narrow_index_fails (D : Defines A m I) (h : m.Ok) (hb : m.bp = true) {ρ : String → Val U} {p i : String} {z : Int} {w : Nat} {a : BitVec w}
    (hw : w ∈ Emit.widths) (hlt : w < m.ptr) (hneg : a.toInt < 0) (hp : ρ p = if m.bpp then .bv m.ptr (BitVec.ofInt m.ptr z) else .int z)
    (hi : ρ i = .bv w a) (size : Nat) :
    eval I ρ (Emit.expr m (.gep (.reg p .ptr) (.idx (.reg i (.int w)) size .nil)) false false) =
      if m.bpp then .bv m.ptr (BitVec.ofInt m.ptr (z + (a.toInt + 2 ^ w) * size)) else .int (z + (a.toInt + 2 ^ w) * size) := by
  have hn : (a.toNat : Int) = a.toInt + 2 ^ w := by
    rw [BitVec.toInt_eq_toNat_cond] at hneg ⊢
    split at hneg
    · omega
    · rename_i hc; rw [if_neg hc]; push_cast; omega
  rw [Emit.expr, if_neg (by simp [Emit.Ixs.allZero]), Emit.arith.eq_def]
  simp only [Emit.arith, Emit.expr, Emit.Val.ty, Emit.LTy.width]
  rw [← hn]
  exact eval_pa D h (by rw [eval]; exact hp) (i2p_narrow D h hb (widths_sizes ▸ hw) a (by rw [eval]; exact hi) hlt) size

example (D : Defines A Emit.mBv I) (ρ : String → Val U) (hp : ρ "$p0" = .bv 64 4096) (hi : ρ "$i1" = .bv 32 (-1)) :
    eval I ρ (Emit.expr Emit.mBv (.gep (.reg "$p0" .ptr) (.idx (.reg "$i1" (.int 32)) 4 .nil)) false false) = .bv 64 (4096 + 4294967295 * 4) :=
  c89_narrow_index_fails (m := Emit.mBv) D Emit.mBv_ok rfl (p := "$p0") (i := "$i1") (a := -1#32) (z := 4096) (by decide) (by decide) (by decide) hp hi 4

/-- **C89, integers.** With mathematical integers the emitted expression denotes the value that `IntOps` (C01 to C06) gives to it,
in every model of the prelude: SMT-LIB's division by zero and the functions on `i1` of the model are the parameters of `IntOps`. -/
theorem c89_integer (M : Models A m gl ex I) (h : m.Ok) (hb : m.bp = false) :
    ∃ S : IntOps.Smt, ∀ {nm : Nat → String} {ρ : String → Val U} {ρ' : Nat → Int}, (∀ k, ρ (nm k) = .int (ρ' k)) →
      ∀ {u ui v w} {e : IntOps.Expr w}, Ren nm u ui v w e → v.All Emit.Val.sup →
      ∀ i, e.evalInt S (if m.wrap then .wrapped else .unbounded) ρ' = some i → eval I ρ (Emit.expr m v u ui) = .int i := by
  obtain ⟨S, hS, hL⟩ := exists_smt M h hb
  exact ⟨S, fun hρ _ _ _ _ _ hr hs i hi => text_int M.toDefines h hS hL hb hρ hr hs i hi⟩

/-- **C89, wrapped integers.** The emitted expression denotes an integer congruent to the value that LLVM computes, under the
conditions of C01: no signed division, truth values as conditions and operands of the operations on `i1`. -/
theorem c89_wrapped_partial (M : Models A m gl ex I) (h : m.Ok) (hb : m.bp = false) (hw : m.wrap = true) {nm : Nat → String} {ρ : String → Val U}
    {ρ' : Nat → Int} (hρ : ∀ k, ρ (nm k) = .int (ρ' k)) {u ui : Bool} {v : Emit.Val} {w : Nat} {e : IntOps.Expr w} (hr : Ren nm u ui v w e)
    (hs : v.All Emit.Val.sup) (ht : e.WellTyped) (hc : e.NormalCond ρ') (hd : e.NoSdiv) (hl : e.NarrowLits) {x : BitVec w}
    (hx : e.evalBv (fun n w => BitVec.ofInt w (ρ' n)) = some x) :
    ∃ i, eval I ρ (Emit.expr m v u ui) = .int i ∧ BitVec.ofInt w i = x := by
  obtain ⟨S, H⟩ := c89_integer M h hb
  obtain ⟨i, hi⟩ := IntOps.c01_total S .wrapped ρ' e hl
  exact ⟨i, H hρ hr hs i (by rw [hw]; exact hi), IntOps.c01_wrapped_congruent S ρ' e x i ht hc hd hx hi⟩

/-- `x * 3 + 200` for `i8` and the unnormalised `x = 300`: the integer is 1100 or another one congruent to 76. -/
example (M : Models A { Emit.mInt with wrap := true } gl ex I) (ρ : String → Val U) (hρ : ∀ k : Nat, ρ ("$i" ++ toString k) = .int 300) :
    ∃ i, eval I ρ (Emit.expr { Emit.mInt with wrap := true } (.bop .add (.bop .mul (.reg ("$i" ++ toString 0) (.int 8)) (.cint 8 3)) (.cint 8 200)) false false) =
      .int i ∧ BitVec.ofInt 8 i = 76#8 := by
  have h8 : (8 : Nat) ∈ Emit.widths := by decide
  refine c89_wrapped_partial (m := { Emit.mInt with wrap := true }) M ⟨.inr rfl, fun _ => rfl⟩ rfl rfl (nm := fun k => "$i" ++ toString k) (ρ' := fun _ => 300) hρ
    (e := .add (.mul (.var 8 0) (.lit false false (BitVec.ofNat 8 3))) (.lit false false (BitVec.ofNat 8 200)))
    (.add (.mul (.reg (nm := fun k => "$i" ++ toString k) (k := 0)) (.cint (by decide) (by decide))) (.cint (by decide) (by decide)))
    ⟨h8, ⟨h8, h8, h8⟩, h8⟩ ?_ ?_ ?_ ?_ ?_
  · simp [IntOps.Expr.WellTyped]
  · simp [IntOps.Expr.NormalCond]
  · simp [IntOps.Expr.NoSdiv]
  · simp [IntOps.Expr.NarrowLits]
  · decide

/-- **C89, unbounded integers.** The emitted expression denotes exactly LLVM's value if nothing overflows (C05). -/
theorem c89_unbounded_partial (M : Models A m gl ex I) (h : m.Ok) (hb : m.bp = false) (hw : m.wrap = false) {nm : Nat → String} {ρ : String → Val U}
    {ρ' : Nat → Int} (hρ : ∀ k, ρ (nm k) = .int (ρ' k)) {u ui : Bool} {v : Emit.Val} {w : Nat} {e : IntOps.Expr w} (hr : Ren nm u ui v w e)
    (hs : v.All Emit.Val.sup) (ht : e.WellTyped) (hl : e.NarrowLits) {μ : Nat → (w : Nat) → BitVec w} (hm : e.Reads μ ρ') {x : Int}
    (hx : e.exact μ = some x) :
    ∃ y : BitVec w, e.evalBv μ = some y ∧ eval I ρ (Emit.expr m v u ui) = .int (IntOps.reading y) := by
  obtain ⟨S, H⟩ := c89_integer M h hb
  obtain ⟨i, hi⟩ := IntOps.c01_total S .unbounded ρ' e hl
  obtain ⟨y, hy, rfl⟩ := IntOps.c05_unbounded_exact S ρ' μ e x i ht hm hx hi
  exact ⟨y, hy, H hρ hr hs _ (by rw [hw]; exact hi)⟩

/-- `x % 5 - 7` for `i32` and `x = -13`. -/
example (M : Models A Emit.mInt gl ex I) (ρ : String → Val U) (hρ : ∀ k : Nat, ρ ("$i" ++ toString k) = .int (-13)) :
    ∃ y : BitVec 32, IntOps.Expr.evalBv (fun _ w => BitVec.ofInt w (-13))
      (.sub (.srem (.var 32 0) (.lit false false (BitVec.ofNat 32 5))) (.lit true true (BitVec.ofNat 32 7))) = some y ∧
      eval I ρ (Emit.expr Emit.mInt (.bop .sub (.bop .srem (.reg ("$i" ++ toString 0) (.int 32)) (.cint 32 5)) (.cint 32 7)) false false) =
        .int (IntOps.reading y) := by
  have h32 : (32 : Nat) ∈ Emit.widths := by decide
  refine c89_unbounded_partial (m := Emit.mInt) M Emit.mInt_ok rfl rfl (nm := fun k => "$i" ++ toString k) (ρ' := fun _ => -13) hρ
    (e := .sub (.srem (.var 32 0) (.lit false false (BitVec.ofNat 32 5))) (.lit true true (BitVec.ofNat 32 7)))
    (.sub (.srem (.reg (nm := fun k => "$i" ++ toString k) (k := 0)) (.cint (by decide) (by decide))) (.cint (by decide) (by decide)))
    ⟨h32, ⟨h32, h32, h32⟩, h32⟩ ?_ ?_ (μ := fun _ w => BitVec.ofInt w (-13)) ?_ (x := -10) ?_
  · simp [IntOps.Expr.WellTyped]
  · simp [IntOps.Expr.NarrowLits]
  · simp only [IntOps.Expr.Reads]; decide
  · decide

end Smack.PreSem
