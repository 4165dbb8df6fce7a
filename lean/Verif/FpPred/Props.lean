import Verif.FpPred.Spec

namespace Smack.FpPred

/-- C34. For every interpretation of the SMT-LIB functions that obeys IEEE-754, all sixteen predicates and all
operands, the translated `fcmp` yields exactly the result of LLVM's `fcmp`; unfolding four calls deep suffices, and
deeper unfolding changes nothing. -/
theorem c34_fcmp {F : Type} (I : Builtins F) (rel : F → F → Rel) (h : Ieee I rel) (p : Pred) (a b : F) (n : Nat) :
    cmp I (n + 4) p a b = some (if fcmp p (rel a b) then 1 else 0) := by
  obtain ⟨hu, he, hl, hg, hle, hge⟩ := h
  have e1 : I.eq a b = decide (rel a b = .eq) := by rw [Bool.eq_iff_iff]; simp [he]
  have e2 : I.lt a b = decide (rel a b = .lt) := by rw [Bool.eq_iff_iff]; simp [hl]
  have e3 : I.gt a b = decide (rel a b = .gt) := by rw [Bool.eq_iff_iff]; simp [hg]
  have e4 : I.leq a b = (decide (rel a b = .lt) || decide (rel a b = .eq)) := by rw [Bool.eq_iff_iff]; simp [hle]
  have e5 : I.geq a b = (decide (rel a b = .gt) || decide (rel a b = .eq)) := by rw [Bool.eq_iff_iff]; simp [hge]
  have e6 : (I.isNaN a || I.isNaN b) = decide (rel a b = .unordered) := by
    rw [Bool.eq_iff_iff]; simp [hu]
  have l1 : lookup "foeq" = some (.builtin "fp.eq") := by decide +kernel
  have l2 : lookup "fole" = some (.builtin "fp.leq") := by decide +kernel
  have l3 : lookup "folt" = some (.builtin "fp.lt") := by decide +kernel
  have l4 : lookup "foge" = some (.builtin "fp.geq") := by decide +kernel
  have l5 : lookup "fogt" = some (.builtin "fp.gt") := by decide +kernel
  have l6 : lookup "fone" = some (.inlined (.not (.app "fueq"))) := by decide +kernel
  have l7 : lookup "ford" = some (.inlined (.not (.app "funo"))) := by decide +kernel
  have l8 : lookup "fueq" = some (.inlined (.or funoBody (.app "foeq"))) := by decide +kernel
  have l9 : lookup "fugt" = some (.inlined (.or funoBody (.app "fogt"))) := by decide +kernel
  have l10 : lookup "fuge" = some (.inlined (.or funoBody (.app "foge"))) := by decide +kernel
  have l11 : lookup "fult" = some (.inlined (.or funoBody (.app "folt"))) := by decide +kernel
  have l12 : lookup "fule" = some (.inlined (.or funoBody (.app "fole"))) := by decide +kernel
  have l13 : lookup "fune" = some (.inlined (.or funoBody (.app "fone"))) := by decide +kernel
  have l14 : lookup "funo" = some (.inlined funoBody) := by decide +kernel
  have l15 : lookup "ffalse" = some (.inlined (.lit false)) := by decide +kernel
  have l16 : lookup "ftrue" = some (.inlined (.lit true)) := by decide +kernel
  unfold cmp
  cases p <;>
    simp only [cmpName, callEval, l1, l2, l3, l4, l5, l6, l7, l8, l9, l10, l11, l12, l13, l14, l15, l16,
      builtinEval, Body.eval, funoBody, Option.map, e1, e2, e3, e4, e5, e6] <;>
    cases rel a b <;> rfl

/-- The interpretation on encodings obeys IEEE-754, for every format. -/
theorem ieee_bits (e m : Nat) : Ieee (bitsBuiltins e m) (relBits e m) := by
  refine ⟨?_, ?_, ?_, ?_, ?_, ?_⟩ <;> intro a b <;>
    simp only [bitsBuiltins, relBits] <;>
    cases isNaNBits e m a <;> cases isNaNBits e m b <;>
    simp <;> repeat (first | (split <;> simp_all) | omega)

/-- C34 for actual IEEE formats: on encodings with any number of exponent and fraction bits. -/
theorem c34_formats (e m : Nat) (p : Pred) (x y : BitVec (1 + e + m)) :
    cmp (bitsBuiltins e m) 4 p x y = some (if fcmp p (relBits e m x y) then 1 else 0) :=
  c34_fcmp _ _ (ieee_bits e m) p x y 0

/-- A NaN operand makes every ordered predicate false and every unordered predicate true. -/
theorem c34_nan {F : Type} (I : Builtins F) (rel : F → F → Rel) (h : Ieee I rel) (p : Pred) (a b : F)
    (hn : I.isNaN a = true ∨ I.isNaN b = true) :
    cmp I 4 p a b = some (if p ∈ [.uno, .ueq, .ugt, .uge, .ult, .ule, .une, .true_] then 1 else 0) := by
  rw [c34_fcmp I rel h p a b 0, (h.1 a b).2 hn]
  cases p <;> decide +kernel

/-- Half precision: 1.0 < 2.0, NaN against 1.0, and -0.0 = +0.0. -/
example : cmp (bitsBuiltins 5 10) 4 .one 0x3c00#16 0x4000#16 = some 1 := by decide +kernel
example : cmp (bitsBuiltins 5 10) 4 .ult 0x7e00#16 0x3c00#16 = some 1 := by decide +kernel
example : cmp (bitsBuiltins 5 10) 4 .olt 0x7e00#16 0x3c00#16 = some 0 := by decide +kernel
example : cmp (bitsBuiltins 5 10) 4 .oeq 0x8000#16 0x0000#16 = some 1 := by decide +kernel

end Smack.FpPred
