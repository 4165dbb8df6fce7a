import Verif.Emit.Main
import Verif.Emit.Bad
import Verif.Emit.Reg

/-!
C72: the statements generated for instructions are accepted by Boogie's type checker.
-/

namespace Smack.Emit

open Smack.PreludeTy

variable {m : Mode} {Γ : String → Option TName}

/-! ## Names of types -/

/-- **C72, types.** The name used for an LLVM type denotes the Boogie type that represents it: an integer or a bit-vector, `ref` for
pointers and aggregates, the IEEE format for floating point. -/
theorem c72_type_names (hm : m.Ok) {t : LTy} (ht : t.Sup) (T : Ty) : Resolves (typeDecls m) (tyName m t) T ↔ T = boogieTy m t := by
  constructor
  · intro h; rw [(resolves_inv h).1, den_ty]
  · rintro rfl; exact resolves_ty hm ht

example : Resolves (typeDecls ⟨true, true, false, true, false, 64⟩) (tyName ⟨true, true, false, true, false, 64⟩ (.int 48)) (.bv 48) :=
  (c72_type_names (m := ⟨true, true, false, true, false, 64⟩) (t := .int 48) ⟨.inr rfl, fun h => by cases h⟩ (show 48 ∈ widths by decide) _).mpr rfl

/-- **C72 fails for other widths, in integer mode**: the type name is not declared. -/
theorem c72_type_names_fails (hb : m.bp = false) {n : Nat} (hn : n ∉ widths) : ¬ ∃ T, Resolves (typeDecls m) (tyName m (.int n)) T := by
  rintro ⟨T, h⟩
  have := (resolves_inv h).2
  simp [tyName, intT, hb, okT] at this
  exact hn this

example : ¬ ∃ T, Resolves (typeDecls ⟨false, false, false, false, false, 64⟩) (.i 7) T :=
  c72_type_names_fails (m := ⟨false, false, false, false, false, 64⟩) rfl (by decide)

/-! ## Expressions -/

/-- **C72, expressions.** The expression generated for a well-formed value (register, literal, or constant expression, nested to any
depth) has the Boogie type that represents its LLVM type, whatever the signedness flags passed down. -/
theorem c72_expressions (hm : m.Ok) (hg : ∀ x t, globals m x = some t → Γ x = some t) {v : Val} (h : v.Good m Γ) (u ui : Bool) :
    HasTy ⟨typeDecls m, decls m⟩ Γ (expr m v u ui) (boogieTy m v.ty) :=
  ty_good hm hg h u ui

/-- The environment with the prelude's variables and the given ones. -/
def env (m : Mode) (l : List (String × TName)) (x : String) : Option TName :=
  match globals m x with
  | some t => some t
  | none => l.lookup x

theorem env_ext (m : Mode) (l : List (String × TName)) : ∀ x t, globals m x = some t → env m l x = some t := by
  intro x t h; unfold env; rw [h]

theorem good_reg {x : String} {t : LTy} (h : Γ x = some (tyName m t)) (ht : t.Sup) : (Val.reg x t).Good m Γ := ⟨trivial, ht, h⟩

theorem good_cint {w v : Nat} (hw : w ∈ widths) (hp : 0 < w) (hv : v < 2 ^ w) : (Val.cint w v).Good m Γ := ⟨⟨hp, hv⟩, hw, trivial⟩

/-- Bit-vector integers and pointers, IEEE floating point, 64-bit pointers. -/
def mBv : Mode := ⟨true, true, false, true, false, 64⟩

/-- Mathematical integers. -/
def mInt : Mode := ⟨false, false, false, false, false, 64⟩

theorem mBv_ok : mBv.Ok := ⟨.inr rfl, fun h => by cases h⟩
theorem mInt_ok : mInt.Ok := ⟨.inr rfl, fun h => by cases h⟩

example : let v : Val := .gep (.reg "$p0" .ptr) (.idx (.cast .sext (.reg "$i1" (.int 32)) (.int 64)) 24 (.field 2 16 .nil))
    HasTy ⟨typeDecls mBv, decls mBv⟩ (env mBv [("$p0", .ref), ("$i1", .bv 32)]) (expr mBv v false false) (.bv 64) := by
  refine c72_expressions (m := mBv) mBv_ok (env_ext _ _) (v := .gep (.reg "$p0" .ptr) _) ⟨?_, ?_, ?_⟩ false false
  · exact ⟨⟨rfl, ⟨64, rfl⟩, trivial⟩, trivial, ⟨.sext (by decide), trivial⟩, trivial⟩
  · exact ⟨trivial, trivial, ⟨⟨trivial, show 64 ∈ widths by decide⟩, show 32 ∈ widths by decide⟩, trivial⟩
  · exact ⟨trivial, show _ = some _ by decide, ⟨trivial, show _ = some _ by decide⟩, trivial⟩

/-- **C72 fails for integer operations on other widths**, in both modes: for instance `$add.bv7` and `$add.i7` are not declared. -/
theorem c72_width_fails {op : BinOp} {n : Nat} (hn : n ∉ widths) (ho : BopOk op (.int n)) (l r : Ex) :
    ¬ ∃ T, HasTy ⟨typeDecls m, decls m⟩ Γ (bopEx m op (.int n) l r) T := by
  rintro ⟨T, h⟩
  cases ho with
  | @int n ho =>
    have hf : op.isFpArith = false ∧ op.name ∈ arithNames := by
      simp only [List.mem_cons, List.not_mem_nil, or_false] at ho
      rcases ho with rfl | rfl | rfl | rfl | rfl | rfl | rfl | rfl | rfl | rfl | rfl | rfl | rfl <;> exact ⟨rfl, by decide⟩
    have e : bopEx m op (.int n) l r = .fn ⟨op.name, [.ty (intT m n)]⟩ [l, r] := by
      unfold bopEx; rw [hf.1]; simp [tyName]
    rw [e] at h
    exact arith_undeclared (Γ := Γ) hf.2 hn h

example : ¬ ∃ T, HasTy ⟨typeDecls mBv, decls mBv⟩ Γ (bopEx mBv .mul (.int 7) (.bv 3 7) (.bv 2 7)) T :=
  c72_width_fails (by decide) (.int (by decide)) _ _

/-- **C72 fails for conversions between pointers and integers of other widths**, even those of the prelude, such as 128. -/
theorem c72_ptrtoint_fails {n : Nat} (hn : n ∉ ptrWidths) (e : Ex) :
    (¬ ∃ T, HasTy ⟨typeDecls m, decls m⟩ Γ (castEx m .ptrtoint .ptr (.int n) e) T) ∧
    (¬ ∃ T, HasTy ⟨typeDecls m, decls m⟩ Γ (castEx m .inttoptr (.int n) .ptr e) T) :=
  ⟨fun ⟨_, h⟩ => (ptrNum_undeclared (Γ := Γ) hn).1 h, fun ⟨_, h⟩ => (ptrNum_undeclared (Γ := Γ) hn).2 h⟩

example : ¬ ∃ T, HasTy ⟨typeDecls mInt, decls mInt⟩ Γ (castEx mInt .ptrtoint .ptr (.int 128) (.var "$p0")) T :=
  (c72_ptrtoint_fails (by decide) _).1

/-- **C72 fails for a bit cast from an integer or floating-point type to itself**, which LLVM accepts: there is no such function. -/
theorem c72_bitcast_fails {t : LTy} (h1 : t ≠ .ptr) (h2 : t ≠ .agg) (e : Ex) :
    CastOk .bitcast t t ∧ ¬ ∃ T, HasTy ⟨typeDecls m, decls m⟩ Γ (castEx m .bitcast t t e) T := by
  refine ⟨.bitSame h2, fun ⟨T, h⟩ => ?_⟩
  have hr : tyName m t ≠ .ref := by
    cases t with
    | int n => cases hb : m.bp <;> simp [tyName, intT, hb]
    | ptr => exact absurd rfl h1
    | agg => exact absurd rfl h2
    | fp k => cases hf : m.flt <;> cases k <;> simp [tyName, hf]
  have e' : castEx m .bitcast t t e = .fn ⟨"$bitcast", [.ty (tyName m t), .ty (tyName m t)]⟩ [e] := by
    cases t <;> rfl
  rw [e'] at h
  exact bitcast_undeclared (Γ := Γ) hr h

example : ¬ ∃ T, HasTy ⟨typeDecls mBv, decls mBv⟩ Γ (castEx mBv .bitcast (.int 32) (.int 32) (.bv 0 32)) T :=
  (c72_bitcast_fails (by decide) (by decide) _).2

/-! ## Regions -/

/-- A region as the code generator sees it; `τ` gives the LLVM type for the identity of a type. -/
def ofRegion (τ : Nat → LTy) (r : Regions.Region) : Reg := ⟨r.type.map τ, r.singleton, r.bytewise⟩

/-- **C72, regions.** Let `h` be the accesses of the program, `s` the accesses looked up so far by the code generator. From the moment
an access has been looked up, its region is fixed: later lookups `s'` (until the memory variables are declared) do not change it. It
has the type of the access or none, and is accessed by bytes exactly if it has no type and integers are bit-vectors. -/
theorem c72_regions (info : Nat → Regions.NodeInfo) (τ : Nat → LTy) (h s : List Regions.Access) (hf : ∀ A ∈ h, A.Fits)
    (hl : ∀ A ∈ h, 0 < A.length) (hs : ∀ A ∈ s, A ∈ h) (A : Regions.Access) (hA : A ∈ s) :
    ∃ r, Reg.Consistent m (ofRegion τ r) (τ A.ty) ∧ ∀ s', (∀ B ∈ s', B ∈ h) →
      (Regions.collect info m.bp (h ++ s ++ s'))[Regions.lookup info m.bp (Regions.collect info m.bp (h ++ s ++ s')) A]? = some r := by
  obtain ⟨r, h1, h2, h3⟩ := Regions.fixed (info := info) (bp := m.bp) hf hl hs hA
  refine ⟨r, ?_, h3⟩
  obtain ⟨c1, c2⟩ := Regions.contains_consistent h1 h2
  constructor
  · rcases c1 with c | c
    · exact .inl (by simp [ofRegion, c])
    · exact .inr (by simp [ofRegion, c])
  · show r.bytewise = true ↔ _ ∧ r.type.map τ = none
    rw [c2, Option.map_eq_none_iff]

/-- Two accesses to one object, of different types; then the generator looks up the first. -/
example : let A : Regions.Access := ⟨some 0, 1, 0, 8, false, true, false⟩
    let B : Regions.Access := ⟨some 0, 2, 4, 4, false, true, false⟩
    ∃ r, (Regions.collect (fun _ => ⟨false, false, false⟩) mBv.bp ([A, B] ++ [A]))[0]? = some r ∧ r.type = none ∧ r.bytewise = true := by
  exact ⟨_, rfl, rfl, rfl⟩

/-- **C72 without a lookup fails**: a region made of a single access that is to be read by bytes keeps the type of the access until it
is looked up again. -/
theorem c72_first_lookup_fails : ∃ (info : Nat → Regions.NodeInfo) (A : Regions.Access) (r : Regions.Region), A.Fits ∧ 0 < A.length ∧
    (Regions.collect info true [A])[0]? = some r ∧ r.bytewise = true ∧ r.type = some A.ty :=
  ⟨fun _ => ⟨false, false, false⟩, ⟨some 0, 1, 0, 4, false, true, true⟩, _, by decide, by decide, rfl, rfl, rfl⟩

/-! ## Instructions -/

/-- **C72, exactly.** The statements generated for a well-formed instruction that is translated to expressions are all accepted, if and
only if the instruction is not one of: an access whose declared region type does not match, a `cmpxchg` whose operand type differs from
that of aggregates, `llvm.fma` or `llvm.sqrt` with IEEE floating point, `llvm.ctpop.i1` with bit-vectors. -/
theorem c72_instructions_partial (hm : m.Ok) (hg : ∀ x t, globals m x = some t → Γ x = some t) (rewriteBitwise : Bool) {i : Instr}
    (h : i.Good m Γ) (hh : handled m rewriteBitwise i) :
    (∀ s ∈ emit m i, StOk ⟨typeDecls m, decls m⟩ Γ s) ↔ ¬ i.Clash m := by
  constructor
  · intro ha hc
    obtain ⟨s, hs, hb⟩ := clash_bad hm hg h hc
    exact hb (ha s hs)
  · exact good_ok hm hg rewriteBitwise h hh

/-- A load of a pointer in a struct array, and an atomic addition. -/
example : let Γ := env mBv [("$p0", .ref), ("$i1", .bv 32), ("$M.0", .map (.bv 32)), ("$M.1", .map .ref), ("$p2", .ref)]
    let i : Instr := .rmw "$i1" (some .umax) ⟨"$M.0", ⟨some (.int 32), false, false⟩, .int 32, .reg "$p0" .ptr⟩ (.cint 32 7)
    ∀ s ∈ emit mBv i, StOk ⟨typeDecls mBv, decls mBv⟩ Γ s := by
  intro Γ i
  refine (c72_instructions_partial mBv_ok (env_ext _ _) false (i := i) ?_ trivial).mpr ?_
  · refine ⟨⟨good_reg (by decide) trivial, rfl, show 32 ∈ widths by decide, trivial, by decide, ?_⟩, good_cint (by decide) (by decide) (by decide), rfl,
      fun _ => ⟨32, rfl⟩, by decide⟩
    exact ⟨.inr rfl, by decide⟩
  · rintro (⟨h, _⟩ | ⟨h, _⟩ | ⟨_, h, _⟩) <;> cases h

/-- **C72 for mathematical integers**: when neither integers nor pointers are bit-vectors and floating point is not modelled, all
instructions are accepted, as long as regions of a single scalar have a type. -/
theorem c72_integer_mode (hm : m.Ok) (hg : ∀ x t, globals m x = some t → Γ x = some t) (rewriteBitwise : Bool) {i : Instr}
    (h : i.Good m Γ) (hh : handled m rewriteBitwise i) (hb : m.bp = false) (hp : m.bpp = false) (hf : m.flt = false)
    (hs : ∀ a : Acc, (∃ x, i = .load x a) ∨ (∃ v, i = .store a v) ∨ (∃ x c v, i = .cmpxchg x a c v) ∨ (∃ x o v, i = .rmw x o a v) →
      a.reg.singleton = true → a.reg.ty ≠ none) :
    ∀ s ∈ emit m i, StOk ⟨typeDecls m, decls m⟩ Γ s := by
  refine (c72_instructions_partial hm hg rewriteBitwise h hh).mpr fun hc => ?_
  have acc : ∀ a : Acc, (a.reg.singleton = true → a.reg.ty ≠ none) → ¬ a.Clash m := by
    rintro a ha (⟨_, h, _⟩ | ⟨h1, h2, _⟩ | ⟨_, _, _, h, _⟩)
    · rw [hb] at h; cases h
    · exact ha h1 h2
    · rw [hp] at h; cases h
  cases i with
  | load x a => exact acc a (hs a (.inl ⟨x, rfl⟩)) hc
  | store a v => exact acc a (hs a (.inr (.inl ⟨v, rfl⟩))) hc
  | rmw x o a v => exact acc a (hs a (.inr (.inr (.inr ⟨x, o, v, rfl⟩)))) hc
  | cmpxchg x a c v =>
    rcases hc with hc | hc
    · exact acc a (hs a (.inr (.inr (.inl ⟨x, c, v, rfl⟩)))) hc
    · rcases h.2.2.2.2.2.1 with ht | ⟨n, ht⟩ <;> rw [ht] at hc <;> simp [boogieTy, hb, hp] at hc
  | fma => rw [Instr.Clash, hf] at hc; cases hc
  | unFp x op v =>
    cases op with
    | fabs => cases hc
    | sqrt => rw [Instr.Clash, hf] at hc; cases hc
  | ctpop => have := hc.1; rw [hb] at this; cases this
  | ret | br | bin | fneg | extract | insert | alloca | gep | cast | cmp | sel | llvmAssume | expect | fp16up | fp16down | minmax
  | round | bitreverse | bswap | ctlz | cttz => cases hc

example : let Γ := env mInt [("$p0", .ref), ("$i1", .i 32), ("$M.0", .map (.i 32))]
    ∀ s ∈ emit mInt (.store ⟨"$M.0", ⟨some (.int 32), false, false⟩, .int 32, .reg "$p0" .ptr⟩ (.reg "$i1" (.int 32))),
      StOk ⟨typeDecls mInt, decls mInt⟩ Γ s := by
  refine c72_integer_mode mInt_ok (env_ext _ _) false ?_ trivial rfl rfl rfl ?_
  · refine ⟨⟨good_reg (by decide) trivial, rfl, show 32 ∈ widths by decide, trivial, by decide, ?_⟩,
      good_reg (by decide) (show 32 ∈ widths by decide), rfl⟩
    exact ⟨.inr rfl, by decide⟩
  · rintro a (⟨_, h⟩ | ⟨_, h⟩ | ⟨_, _, _, h⟩ | ⟨_, _, _, h⟩) hs <;> cases h
    cases hs

/-- **C72 fails for `cmpxchg`**: its result, a pair, is represented by a `ref`, but the generated code assigns it the loaded value.
With bit-vector integers this is rejected unless pointers are bit-vectors of the same width. -/
theorem c72_cmpxchg_fails (hm : m.Ok) (hg : ∀ x t, globals m x = some t → Γ x = some t) {x : String} {a : Acc} {c v : Val}
    (h : Instr.Good m Γ (.cmpxchg x a c v)) {n : Nat} (ht : a.ty = .int n) (hb : m.bp = true) (hn : m.bpp = false ∨ n ≠ m.ptr) :
    ∃ s ∈ emit m (.cmpxchg x a c v), ¬ StOk ⟨typeDecls m, decls m⟩ Γ s := by
  refine clash_bad hm hg h (.inr ?_)
  rw [ht]
  rcases hn with hn | hn
  · simp [boogieTy, hb, hn]
  · cases hp : m.bpp <;> simp [boogieTy, hb, hp, hn]

example : let Γ := env mBv [("$p0", .ref), ("$M.0", .map (.bv 32)), ("$p1", .ref)]
    ∃ s ∈ emit mBv (.cmpxchg "$p1" ⟨"$M.0", ⟨some (.int 32), false, false⟩, .int 32, .reg "$p0" .ptr⟩ (.cint 32 0) (.cint 32 1)),
      ¬ StOk ⟨typeDecls mBv, decls mBv⟩ Γ s := by
  refine c72_cmpxchg_fails mBv_ok (env_ext _ _) ?_ (n := 32) rfl rfl (.inr (by decide))
  refine ⟨⟨good_reg (by decide) trivial, rfl, show 32 ∈ widths by decide, trivial, by decide, ?_⟩, good_cint (by decide) (by decide) (by decide),
    good_cint (by decide) (by decide) (by decide), rfl, rfl, .inr ⟨32, rfl⟩, by decide⟩
  exact ⟨.inr rfl, by decide⟩

/-- **C72 fails for `llvm.sqrt` and `llvm.fma` with `--float`**: the rounding mode argument is missing. -/
theorem c72_rounding_mode_fails (hm : m.Ok) (hg : ∀ x t, globals m x = some t → Γ x = some t) (hf : m.flt = true) :
    (∀ x v, Instr.Good m Γ (.unFp x .sqrt v) → ∃ s ∈ emit m (.unFp x .sqrt v), ¬ StOk ⟨typeDecls m, decls m⟩ Γ s) ∧
    (∀ x a b c, Instr.Good m Γ (.fma x a b c) → ∃ s ∈ emit m (.fma x a b c), ¬ StOk ⟨typeDecls m, decls m⟩ Γ s) :=
  ⟨fun _ _ h => clash_bad hm hg h hf, fun _ _ _ _ h => clash_bad hm hg h hf⟩

example : let Γ := env mBv [("$f0", .double), ("$f1", .double)]
    ∃ s ∈ emit mBv (.unFp "$f1" .sqrt (.reg "$f0" (.fp .double))), ¬ StOk ⟨typeDecls mBv, decls mBv⟩ Γ s :=
  (c72_rounding_mode_fails mBv_ok (env_ext _ _) rfl).1 _ _ ⟨good_reg (by decide) trivial, ⟨.double, rfl⟩, by decide⟩

/-- **C72 fails for `llvm.ctpop.i1` in bit-vector mode**: `$zext.bv1.bv1` is not declared. -/
theorem c72_ctpop_fails (hm : m.Ok) (hg : ∀ x t, globals m x = some t → Γ x = some t) (hb : m.bp = true) {x : String} {v : Val}
    (hv : v.ty = .int 1) (h : Instr.Good m Γ (.ctpop x v)) : ∃ s ∈ emit m (.ctpop x v), ¬ StOk ⟨typeDecls m, decls m⟩ Γ s :=
  clash_bad hm hg h ⟨hb, hv⟩

example : let Γ := env mBv [("$i0", .bv 1), ("$i1", .bv 1)]
    ∃ s ∈ emit mBv (.ctpop "$i1" (.reg "$i0" (.int 1))), ¬ StOk ⟨typeDecls mBv, decls mBv⟩ Γ s :=
  c72_ctpop_fails mBv_ok (env_ext _ _) rfl rfl ⟨good_reg (by decide) (show 1 ∈ widths by decide), ⟨1, rfl⟩, by decide⟩

/-- **C72 fails for regions of a single scalar with `--no-byte-access-inference`** in bit-vector mode: the variable is declared as a
map but used as a scalar. -/
theorem c72_no_inference_fails (hm : m.Ok) (hg : ∀ x t, globals m x = some t → Γ x = some t) (hb : m.bp = true) (hn : m.noInfer = true)
    {x : String} {a : Acc} (hs : a.reg.singleton = true) (h : Instr.Good m Γ (.load x a)) :
    ∃ s ∈ emit m (.load x a), ¬ StOk ⟨typeDecls m, decls m⟩ Γ s :=
  clash_bad hm hg h (.inl ⟨hs, hb, hn⟩)

example : let m : Mode := ⟨true, false, false, false, true, 64⟩
    let Γ := env m [("$p0", .ref), ("$i1", .bv 32), ("$M.0", .map (.bv 32))]
    ∃ s ∈ emit m (.load "$i1" ⟨"$M.0", ⟨some (.int 32), true, false⟩, .int 32, .reg "$p0" .ptr⟩), ¬ StOk ⟨typeDecls m, decls m⟩ Γ s := by
  refine c72_no_inference_fails ⟨.inr rfl, fun h => by cases h⟩ (env_ext _ _) rfl rfl rfl ?_
  refine ⟨⟨good_reg (by decide) trivial, rfl, show 32 ∈ widths by decide, trivial, by decide, ?_⟩, by decide⟩
  exact ⟨.inr rfl, by decide⟩

/-- **C72 fails for pointers in regions accessed at several types, when only pointers are bit-vectors**: the memory holds integers
(`[ref] i8`), `$load.ref` needs `[ref] ref`. -/
theorem c72_collapsed_pointer_fails (hm : m.Ok) (hg : ∀ x t, globals m x = some t → Γ x = some t) (hb : m.bp = false) (hp : m.bpp = true)
    {x : String} {a : Acc} (hs : a.reg.singleton = false) (hr : a.reg.ty = none) (ht : a.ty = .ptr) (h : Instr.Good m Γ (.load x a)) :
    ∃ s ∈ emit m (.load x a), ¬ StOk ⟨typeDecls m, decls m⟩ Γ s :=
  clash_bad hm hg h (.inr (.inr ⟨hs, hr, hb, hp, ht⟩))

example : let m : Mode := ⟨false, true, false, false, false, 64⟩
    let Γ := env m [("$p0", .ref), ("$p1", .ref), ("$M.0", .map (.i 8))]
    ∃ s ∈ emit m (.load "$p1" ⟨"$M.0", ⟨none, false, false⟩, .ptr, .reg "$p0" .ptr⟩), ¬ StOk ⟨typeDecls m, decls m⟩ Γ s := by
  refine c72_collapsed_pointer_fails ⟨.inr rfl, fun h => by cases h⟩ (env_ext _ _) rfl rfl rfl rfl rfl ?_
  refine ⟨⟨good_reg (by decide) trivial, rfl, trivial, trivial, by decide, ?_⟩, by decide⟩
  exact ⟨.inl rfl, by decide⟩

/-- **C72 fails for a region of a single scalar without a type** (accessed at two types of one size): the variable is declared as one
byte. -/
theorem c72_collapsed_scalar_fails (hm : m.Ok) (hg : ∀ x t, globals m x = some t → Γ x = some t) {x : String} {a : Acc}
    (hs : a.reg.singleton = true) (hr : a.reg.ty = none) (ht : boogieTy m a.ty ≠ boogieTy m (.int 8)) (h : Instr.Good m Γ (.load x a)) :
    ∃ s ∈ emit m (.load x a), ¬ StOk ⟨typeDecls m, decls m⟩ Γ s :=
  clash_bad hm hg h (.inr (.inl ⟨hs, hr, ht⟩))

example : let Γ := env mBv [("$p0", .ref), ("$p1", .ref), ("$M.0", .bv 8)]
    ∃ s ∈ emit mBv (.load "$p1" ⟨"$M.0", ⟨none, true, true⟩, .ptr, .reg "$p0" .ptr⟩), ¬ StOk ⟨typeDecls mBv, decls mBv⟩ Γ s := by
  refine c72_collapsed_scalar_fails mBv_ok (env_ext _ _) rfl rfl (by decide) ?_
  refine ⟨⟨good_reg (by decide) trivial, rfl, trivial, trivial, by decide, ?_⟩, by decide⟩
  exact ⟨.inl rfl, by decide⟩

end Smack.Emit
