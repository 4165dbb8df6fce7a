import Verif.PreludeTy.Bad
import Verif.PreludeTy.Attr
import Verif.PreludeTy.Rank

/-!
C71: the prelude is accepted by Boogie's type checker. C73: its built-in functions are SMT-LIB operators of the declared types.
-/

namespace Smack.PreludeTy

variable {m : Mode} {d : Fun}

/-! ## C71 -/

/-- **C71, exactly.** For every combination of options and pointer size, a declaration of the prelude is accepted if and only if it is
neither the 33-bit load from bytes in bit-vector mode, nor an equality of bit-vectors when wrapped integers are used with bit-vector
pointers. -/
theorem c71_well_typed_partial (h : m.Ok) (hd : d ∈ decls m) :
    FunOk ⟨typeDecls m, decls m⟩ (globals m) d ↔
      ¬ (m.bp = true ∧ d.sym = ⟨"$load", [.bytes, .ty (.bv 33)]⟩) ∧
      ¬ (m.wrap = true ∧ m.bpp = true ∧ ∃ n ∈ sizes, d.sym.base ∈ ["$eq", "$ne"] ∧ d.sym.idx = [.ty (.bv n), .ty .bool]) := by
  constructor
  · intro hok
    exact ⟨fun hb => load33_bad hb.1 hd hb.2 hok, fun hb => wrappedEq_bad h hd hb hok⟩
  · intro ⟨h1, h2⟩
    exact decls_ok h hd h1 h2

/-- **C71 for mathematical integers**: the whole prelude is accepted when integers are not bit-vectors, and are not wrapped or pointers
are not bit-vectors either. -/
theorem c71_integer_mode (h : m.Ok) (hb : m.bp = false) (hw : m.wrap = false ∨ m.bpp = false) :
    ∀ d ∈ decls m, FunOk ⟨typeDecls m, decls m⟩ (globals m) d := by
  intro d hd
  refine (c71_well_typed_partial h hd).mpr ⟨fun ⟨h1, _⟩ => ?_, fun ⟨h1, h2, _⟩ => ?_⟩
  · rw [hb] at h1; cases h1
  · rcases hw with hw | hw
    · rw [hw] at h1; cases h1
    · rw [hw] at h2; cases h2

example : ∀ d ∈ decls ⟨false, false, true, false, false, 64⟩,
    FunOk ⟨typeDecls ⟨false, false, true, false, false, 64⟩, decls ⟨false, false, true, false, false, 64⟩⟩
      (globals ⟨false, false, true, false, false, 64⟩) d :=
  c71_integer_mode ⟨.inr rfl, fun _ => rfl⟩ rfl (.inr rfl)

/-- **C71 fails in bit-vector mode, always**: the body of `$load.bytes.bv33` is a concatenation of four bytes. -/
theorem c71_load33_fails (hb : m.bp = true) :
    ∃ d ∈ decls m, d.sym = ⟨"$load", [.bytes, .ty (.bv 33)]⟩ ∧ ¬ FunOk ⟨typeDecls m, decls m⟩ (globals m) d :=
  ⟨_, mem33 hb, rfl, load33_bad hb (mem33 hb) rfl⟩

example : ∃ d ∈ decls ⟨true, true, false, true, false, 32⟩, d.sym.text = "$load.bytes.bv33".toList ∧
    ¬ FunOk ⟨typeDecls ⟨true, true, false, true, false, 32⟩, decls ⟨true, true, false, true, false, 32⟩⟩
      (globals ⟨true, true, false, true, false, 32⟩) d := by
  obtain ⟨d, h1, h2, h3⟩ := c71_load33_fails (m := ⟨true, true, false, true, false, 32⟩) rfl
  exact ⟨d, h1, by rw [h2]; decide, h3⟩

/-- **C71 fails for wrapped integers with bit-vector pointers**: `$eq.bvN.bool` and `$ne.bvN.bool` apply `$tou.iN`, a function on
integers, to their bit-vector arguments. -/
theorem c71_wrapped_pointer_eq_fails (h : m.Ok) (hw : m.wrap = true) (hp : m.bpp = true) {n : Nat} (hn : n ∈ sizes) {b : String}
    (hb : b ∈ ["$eq", "$ne"]) :
    ∃ d ∈ decls m, d.sym = ⟨b, [.ty (.bv n), .ty .bool]⟩ ∧ ¬ FunOk ⟨typeDecls m, decls m⟩ (globals m) d := by
  obtain ⟨op, l, r, hd, _⟩ := memEq hw hp hn hb
  exact ⟨_, hd, rfl, wrappedEq_bad h hd ⟨hw, hp, n, hn, hb, rfl⟩⟩

example : ∃ d ∈ decls ⟨false, true, true, false, false, 64⟩, d.sym.text = "$eq.bv64.bool".toList ∧
    ¬ FunOk ⟨typeDecls ⟨false, true, true, false, false, 64⟩, decls ⟨false, true, true, false, false, 64⟩⟩
      (globals ⟨false, true, true, false, false, 64⟩) d := by
  obtain ⟨d, h1, h2, h3⟩ := c71_wrapped_pointer_eq_fails (m := ⟨false, true, true, false, false, 64⟩) (n := 64) (b := "$eq")
    ⟨.inr rfl, fun _ => rfl⟩ rfl rfl (by decide) (by decide)
  exact ⟨d, h1, by rw [h2]; decide, h3⟩

/-- **C71, axioms.** Every axiom of the prelude is a boolean expression, for all options and all sizes of the areas of globals. -/
theorem c71_axioms_typed (h : m.Ok) (gl ex : Int) : ∀ a ∈ axioms m gl ex, HasTy ⟨typeDecls m, decls m⟩ (globals m) a .bool :=
  fun _ ha => axioms_ok h ha

example : (axioms ⟨false, true, false, true, false, 64⟩ (-32768) (-4096)).length = 21 ∧
    ∀ a ∈ axioms ⟨false, true, false, true, false, 64⟩ (-32768) (-4096),
      HasTy ⟨typeDecls ⟨false, true, false, true, false, 64⟩, decls ⟨false, true, false, true, false, 64⟩⟩
        (globals ⟨false, true, false, true, false, 64⟩) a .bool :=
  ⟨by decide, c71_axioms_typed ⟨.inr rfl, fun h => by cases h⟩ _ _⟩

/-- **C71, functions are declared once.** No two declarations have the same printed name, in any mode and for any pointer size. -/
theorem c71_unique_names (m : Mode) : ((decls m).map fun d => d.sym.text).Nodup := by
  unfold List.Nodup
  rw [List.pairwise_map]
  refine List.Pairwise.imp_of_mem ?_ (decls_distinct (m := m))
  intro a b ha hb hne e
  exact hne (text_inj (decls_plain ha) (decls_plain hb) e)

example : ((decls ⟨true, false, false, true, false, 64⟩).map fun d => d.sym.text).Nodup ∧
    "$sext.bv8.bv32".toList ∈ (decls ⟨true, false, false, true, false, 64⟩).map fun d => d.sym.text :=
  ⟨c71_unique_names _, List.mem_map.mpr ⟨convExt ⟨true, false, false, true, false, 64⟩ true (8, 32), by
    refine mem_decls (g := convDecls _) (by unfold groups; pos) ?_
    unfold convDecls
    refine List.mem_append_left _ (List.mem_append_right _ (List.mem_map.mpr ⟨(8, 32), by decide +kernel, rfl⟩)), by decide⟩⟩

/-- **C71, printed names identify functions**: a call printed with the name of a declaration is a call to that function. The second
name need not be declared. -/
theorem c71_names_injective {s t : Sym} (hs : '.' ∉ s.base.toList) (ht : '.' ∉ t.base.toList)
    (hi : ∀ c ∈ s.idx ++ t.idx, ∃ n, c ∈ [.ty (.i n), .ty (.bv n), .ty .ref, .ty .half, .ty .single, .ty .double, .ty .longdouble,
      .ty .ufloat, .ty .bool, .bytes, .unsf, .num n])
    (h : s.text = t.text) : s = t := by
  have sim : ∀ c ∈ s.idx ++ t.idx, c.simple = true := by
    intro c hc
    obtain ⟨n, hn⟩ := hi c hc
    simp only [List.mem_cons, List.not_mem_nil, or_false] at hn
    rcases hn with rfl | rfl | rfl | rfl | rfl | rfl | rfl | rfl | rfl | rfl | rfl | rfl <;> rfl
  exact text_inj ⟨hs, fun c hc => sim c (List.mem_append_left _ hc)⟩ ⟨ht, fun c hc => sim c (List.mem_append_right _ hc)⟩ h

example (k : Nat) (h : (⟨"$trunc", [.ty (.bv k), .ty (.bv 1)]⟩ : Sym).text = (⟨"$trunc", [.ty (.bv 128), .ty (.bv 1)]⟩ : Sym).text) :
    k = 128 := by
  have := c71_names_injective (show '.' ∉ "$trunc".toList by decide) (show '.' ∉ "$trunc".toList by decide) (by
    intro c hc
    simp only [List.cons_append, List.nil_append, List.mem_cons, List.not_mem_nil, or_false] at hc
    rcases hc with rfl | rfl | rfl | rfl
    · exact ⟨k, by simp⟩
    · exact ⟨1, by simp⟩
    · exact ⟨128, by simp⟩
    · exact ⟨1, by simp⟩) h
  simpa using this

/-- **C71, types are declared once.** -/
theorem c71_type_names (m : Mode) : ((typeDecls m).map fun t => t.1.text).Nodup := by
  cases h : m.flt
  · have : (typeDecls m).map (fun t => t.1.text) = (sizes.map (fun n => TName.i n) ++ [TName.ref, .ufloat]).map TName.text := by
      simp [typeDecls, h, Function.comp_def]
    rw [this]; decide +kernel
  · have : (typeDecls m).map (fun t => t.1.text)
        = (sizes.map (fun n => TName.i n) ++ [TName.ref, .half, .single, .double, .longdouble]).map TName.text := by
      simp [typeDecls, h, Function.comp_def]
    rw [this]; decide +kernel

example : ((typeDecls ⟨true, false, false, true, false, 64⟩).map fun t => t.1.text).length = 23 := by decide

/-- **C71, inlining ends.** The functions with bodies are not recursive: there is a rank, the same for all modes, that is smaller for every
function applied in a body. Boogie inlines these bodies. -/
theorem c71_not_recursive : ∃ rank : Sym → Nat, ∀ m, ∀ d ∈ decls m, ∀ b, d.body = some b → ∀ f ∈ b.calls, rank f < rank d.sym :=
  ⟨rank, fun _ _ hd => decls_low hd⟩

example : ({ sym := ⟨"$srem", [.ty (.i 32)]⟩, params := vars "i" 2 (.i 32), ret := .i 32,
             body := some (sremBody ⟨false, false, true, false, false, 64⟩ 32) } : Fun) ∈ decls ⟨false, false, true, false, false, 64⟩ ∧
    (sremBody ⟨false, false, true, false, false, 64⟩ 32).calls.length = 17 := by
  refine ⟨?_, by decide⟩
  refine mem_decls (g := arithDecls _) (by unfold groups; pos) ?_
  exact List.mem_flatMap.mpr ⟨⟨"srem", 2, .inlined (sremBody _), bvAttr "srem", false⟩, by unfold arithTable; pos,
    List.mem_flatMap.mpr ⟨32, by decide, List.mem_append_left _ (List.mem_singleton.mpr rfl)⟩⟩

/-! ## C73 -/

/-- **C73.** Every built-in function of the prelude stands for an SMT-LIB operator that exists at its parameter and result types, and
for the intended one; the only exception is `$idiv.bvN`. -/
theorem c73_builtins_partial (h : m.Ok) (hd : d ∈ decls m) {a : Smt} (ha : d.attr = some a)
    (hi : ∀ n, d.sym ≠ ⟨"$idiv", [.ty (.bv n)]⟩) :
    ∃ Ts T, ResolvesAll ⟨typeDecls m, decls m⟩ d.params Ts ∧ Resolves (typeDecls m) d.ret T ∧ SmtSig a Ts T ∧
      (d.sym.base, a.op) ∈ meaning := by
  have ok : FunOk (sig m) (globals m) d := by
    refine decls_ok h hd (fun hb => ?_) (fun hb => ?_)
    · have := distinct_eq decls_distinct hd (mem33 hb.1) hb.2
      rw [this] at ha; cases ha
    · obtain ⟨hw, hp, n, hn, hb, hx⟩ := hb
      obtain ⟨op, l, r, hd', _⟩ := memEq hw hp hn hb
      have e := distinct_eq decls_distinct hd hd' (by
        obtain ⟨⟨b, i⟩, ps, rt, bd, at'⟩ := d
        simp only at hx ⊢
        rw [hx])
      rw [e] at ha; cases ha
  obtain ⟨_, ⟨Ts, hTs⟩, T, hT, _⟩ := ok
  rcases attrs_ok h hd a ha with ⟨_, n, hn, _⟩ | ⟨hs, hm⟩
  · exact absurd hn (hi n)
  · refine ⟨Ts, T, hTs, hT, ?_, hm⟩
    rw [resolvesAll_inv hTs, (resolves_inv hT).1]; exact hs

example : ∃ d ∈ decls ⟨true, false, false, true, false, 64⟩, d.sym.text = "$fp2si.bvdouble.bv32".toList ∧
    d.attr = some ⟨"fp.to_sbv", [32]⟩ ∧ ∀ n, d.sym ≠ ⟨"$idiv", [.ty (.bv n)]⟩ := by
  refine ⟨FpIntConv.decl ⟨true, false, false, true, false, 64⟩ ⟨"$fp2si", true, false, fun _ n => some ⟨"fp.to_sbv", [n]⟩⟩ .double 32 true
    (some ⟨"fp.to_sbv", [32]⟩), ?_, by decide, rfl, by simp [FpIntConv.decl]⟩
  refine mem_decls (g := fpIntDecls _) (by unfold groups; pos) ?_
  refine List.mem_flatMap.mpr ⟨⟨"$fp2si", true, false, fun _ n => some ⟨"fp.to_sbv", [n]⟩⟩, by unfold fpIntTable; pos, ?_⟩
  rw [if_pos rfl]
  exact List.mem_flatMap.mpr ⟨.double, by decide, List.mem_flatMap.mpr ⟨32, by decide, List.mem_singleton.mpr rfl⟩⟩

/-- **C73 fails for `$idiv.bvN`**: in bit-vector mode it is declared as the SMT operator `bvidiv`, and there is no such operator at any
type. -/
theorem c73_bvidiv_fails (hb : m.bp = true) {n : Nat} (hn : n ∈ sizes) :
    ∃ d ∈ decls m, d.sym = ⟨"$idiv", [.ty (.bv n)]⟩ ∧ d.attr = some ⟨"bvidiv", []⟩ ∧ ∀ Ts T, ¬ SmtSig ⟨"bvidiv", []⟩ Ts T := by
  refine ⟨{ sym := ⟨"$idiv", [.ty (.bv n)]⟩, params := vars "i" 2 (.bv n), ret := .bv n, attr := some ⟨"bvidiv", []⟩ }, ?_, rfl, rfl,
    fun _ _ => bad_no_sig⟩
  refine mem_decls (g := arithDecls m) (by unfold groups; pos) ?_
  refine List.mem_flatMap.mpr ⟨⟨"idiv", 2, intAttr "div", bvAttr "idiv", false⟩, by unfold arithTable; pos,
    List.mem_flatMap.mpr ⟨n, hn, ?_⟩⟩
  unfold ArithOp.funs
  refine List.mem_append_right _ ?_
  rw [if_pos (by simp [hb])]
  exact List.mem_singleton.mpr rfl

example : ∃ d ∈ decls ⟨true, true, false, false, false, 64⟩, d.sym = ⟨"$idiv", [.ty (.bv 32)]⟩ :=
  (c73_bvidiv_fails (m := ⟨true, true, false, false, false, 64⟩) (n := 32) rfl (by decide)).imp fun _ h => ⟨h.1, h.2.1⟩

/-- **C73, unsupported operators only there**: a declaration whose SMT operator does not exist is `$idiv.bvN`. -/
theorem c73_only_bvidiv (h : m.Ok) (hd : d ∈ decls m) {a : Smt} (ha : d.attr = some a) (hno : ∀ Ts T, ¬ SmtSig a Ts T) :
    ∃ n, d.sym = ⟨"$idiv", [.ty (.bv n)]⟩ := by
  rcases attrs_ok h hd a ha with ⟨_, n, hn, _⟩ | ⟨hs, _⟩
  · exact ⟨n, hn⟩
  · exact absurd hs (hno _ _)

example : ∃ n, (⟨"$idiv", [.ty (.bv 8)]⟩ : Sym) = ⟨"$idiv", [.ty (.bv n)]⟩ := by
  obtain ⟨d, hd, hs, ha, hno⟩ := c73_bvidiv_fails (m := ⟨true, true, false, false, false, 64⟩) (n := 8) rfl (by decide)
  rw [← hs]; exact c73_only_bvidiv ⟨.inr rfl, fun h => by cases h⟩ hd ha hno

/-- **C73 fails for floating-point remainder**: `$frem` is SMT-LIB's `fp.rem`, the IEEE remainder. LLVM's `frem` has the sign of the
dividend. For a positive dividend and divisor they differ whenever the true remainder exceeds half of the divisor. -/
theorem c73_frem_fails (hf : m.flt = true) (k : FK) {x y : Int} (hx : 0 ≤ x) (hy : 0 < y) (h : y < 2 * (x % y)) :
    (∃ d ∈ decls m, d.sym = ⟨"$frem", [.ty k.name]⟩ ∧ d.attr = some ⟨"fp.rem", []⟩) ∧ ∀ r, Fmod x y r → ¬ IeeeRem x y r := by
  refine ⟨⟨{ sym := ⟨"$frem", [.ty k.name]⟩, params := vars "f" 2 k.name, ret := k.name, attr := some ⟨"fp.rem", []⟩ }, ?_, rfl, rfl⟩,
    fun r ⟨n, e, hlt, hpos, _⟩ ⟨k, _, hk, _⟩ => ?_⟩
  · refine mem_decls (g := fpArithDecls m) (by unfold groups; pos) ?_
    refine List.mem_flatMap.mpr ⟨("$frem", 2, false, "fp.rem"), by unfold fpArithTable; pos, ?_⟩
    rw [if_pos hf]
    exact List.mem_map.mpr ⟨k, by cases k <;> decide, rfl⟩
  have h0 := hpos hx
  have e1 : r = x % y := by
    have hxy : x = r + y * n := by omega
    rw [hxy, Int.add_mul_emod_self_left]
    exact (Int.emod_eq_of_lt h0 (by omega)).symm
  omega

example : ∀ r, Fmod 5 3 r → ¬ IeeeRem 5 3 r := (c73_frem_fails (m := ⟨true, true, false, true, false, 64⟩) rfl .double (by decide) (by decide) (by decide)).2
example : Fmod 5 3 2 ∧ IeeeRem 5 3 (-1) := ⟨⟨1, by decide⟩, ⟨2, by decide⟩⟩

end Smack.PreludeTy
