/-
The values of the defined functions are determined; the operations on `i1` as a parameter of `IntOps`.
-/
import Verif.PreSem.Exist
import Verif.PreSem.Text

namespace Smack.PreSem
open PreludeTy

variable {U : Type} {m : Mode} {A : Arith U} {I J : Interp U} {gl ex : Int}

theorem determined (hI : Models A m gl ex I) (hJ : Defines A m J) (hfp : LitTyped I) (hc : I.const = J.const) (hr : I.rm = J.rm)
    (hf : I.fp = J.fp)
    (hfree : ∀ d ∈ decls m, (d.body = none ∧ d.attr = none) ∨ ¬ FunOk (sig m) (globals m) d →
      ∀ Ts, ResolvesAll (sig m) d.params Ts → ∀ args, AllIs Ts args → I.fn d.sym args = J.fn d.sym args) :
    ∀ k, ∀ d ∈ decls m, rank d.sym < k → ∀ Ts, ResolvesAll (sig m) d.params Ts → ∀ args, AllIs Ts args →
      I.fn d.sym args = J.fn d.sym args := by
  intro k
  induction k with
  | zero => intro d _ h; omega
  | succ k ih =>
    intro d hd hk Ts hp args ha
    by_cases ok : FunOk (sig m) (globals m) d
    · cases hb : d.body with
      | some b =>
        obtain ⟨T, hT⟩ : ∃ T, HasTy (sig m) (scope d.params (globals m)) b T := by
          obtain ⟨_, _, T, _, hT⟩ := ok
          exact ⟨T, hT b hb⟩
        rw [hI.body d hd ok b hb Ts hp args ha, hJ.body d hd ok b hb Ts hp args ha, hc]
        refine eval_agree hI.typed hfp hr hf (bind_is (fun x t T hx hT => ?_) hp ha) hT ?_
        · rw [← hc]; exact hI.const x t T hx hT
        · intro d' hd' hcall
          have := decls_low hd b hb _ hcall
          exact ih d' hd' (by omega)
      | none =>
        cases hs : d.attr with
        | some s => rw [hI.attr d hd s hs Ts hp args ha, hJ.attr d hd s hs Ts hp args ha]
        | none => exact hfree d hd (.inl ⟨hb, hs⟩) Ts hp args ha
    · exact hfree d hd (.inr ok) Ts hp args ha

/-- The integer of a value. -/
def intOf : Val U → Int
  | .int z => z
  | _ => 0

theorem logic_typed (D : Defines A m I) (h : m.Ok) (hb : m.bp = false) {nm : String} {k : OpKind}
    (ho : ⟨nm, 2, .uninterpreted, k, false⟩ ∈ arithTable m) (a b : Int) :
    I.fn ⟨"$" ++ nm, [.ty (.i 1)]⟩ [.int a, .int b] = .int (intOf (I.fn ⟨"$" ++ nm, [.ty (.i 1)]⟩ [.int a, .int b])) := by
  have hd : ({ sym := ⟨"$" ++ nm, [.ty (.i 1)]⟩, params := vars "i" 2 (.i 1), ret := .i 1 } : Fun) ∈ ArithOp.funs m ⟨nm, 2, .uninterpreted, k, false⟩ 1 :=
    mem_intFun (.inl hb) (.head _)
  have hm := mem_arith ho (by decide) hd
  have ok : FunOk (sig m) (globals m) _ := arith_ok h (List.mem_flatMap.mpr ⟨_, ho, List.mem_flatMap.mpr ⟨1, by decide, hd⟩⟩)
  have hT := ok
  obtain ⟨_, _, Tr, hr, _⟩ := hT
  have := D.typed _ hm _ Tr (params_of ok) hr [.int a, .int b] (all2 (intIs a) (intIs b))
  rw [(resolves_inv hr).1] at this
  obtain ⟨z, hz⟩ := is_int.mp this
  show I.fn _ _ = _
  have hz : I.fn ⟨"$" ++ nm, [.ty (.i 1)]⟩ [.int a, .int b] = .int z := hz
  rw [hz]; rfl

theorem exists_smt (M : Models A m gl ex I) (h : m.Ok) (hb : m.bp = false) : ∃ S, SameDiv S A ∧ SameLogic S I := by
  have hand := fun a b => logic_typed M.toDefines h hb (nm := "and") (k := bvAttr "and") (by unfold arithTable; pos) a b
  have hor := fun a b => logic_typed M.toDefines h hb (nm := "or") (k := bvAttr "or") (by unfold arithTable; pos) a b
  have hxor := fun a b => logic_typed M.toDefines h hb (nm := "xor") (k := bvAttr "xor") (by unfold arithTable; pos) a b
  have ax : ∀ a ∈ axioms m gl ex, eval I I.const a = .bool true := M.axs
  have eqv : ∀ {f : Sym} {i j k : Nat}, Ex.bin .eq (.fn f [.int i, .int j]) (.int k) ∈ axioms m gl ex →
      I.fn f [.int (i : Int), .int (j : Int)] = .int (k : Int) := by
    intro f i j k hm
    have := ax _ hm
    simp only [eval, evals, evalBin] at this
    injection this with this
    injection this with this
    exact @of_decide_eq_true _ (_) this
  refine ⟨⟨A.divZero, A.modZero, fun op a b => intOf (I.fn ⟨match op with | .and => "$and" | .or => "$or" | .xor => "$xor", [.ty (.i 1)]⟩
    [.int a, .int b]), ?_⟩, ⟨rfl, rfl⟩, fun a b => ⟨hand a b, hor a b, hxor a b⟩⟩
  intro op i j
  have mem : ∀ {e : Ex}, e ∈ ([0, 1].flatMap fun i => [0, 1].flatMap fun j =>
      [ Ex.bin .eq (.fn ⟨"$and", [.ty (.i 1)]⟩ [.int i, .int j]) (.int (i &&& j)),
        .bin .eq (.fn ⟨"$or", [.ty (.i 1)]⟩ [.int i, .int j]) (.int (i ||| j)),
        .bin .eq (.fn ⟨"$xor", [.ty (.i 1)]⟩ [.int i, .int j]) (.int (i ^^^ j)) ]) → e ∈ axioms m gl ex := by
    intro e he
    unfold axioms
    rw [if_neg (by simp [hb])]
    exact List.mem_append_left _ (List.mem_append_left _ he)
  cases op <;> cases i <;> cases j
  · exact congrArg intOf (eqv (f := ⟨"$and", [.ty (.i 1)]⟩) (i := 0) (j := 0) (k := 0) (mem (by pos)))
  · exact congrArg intOf (eqv (f := ⟨"$and", [.ty (.i 1)]⟩) (i := 0) (j := 1) (k := 0) (mem (by pos)))
  · exact congrArg intOf (eqv (f := ⟨"$and", [.ty (.i 1)]⟩) (i := 1) (j := 0) (k := 0) (mem (by pos)))
  · exact congrArg intOf (eqv (f := ⟨"$and", [.ty (.i 1)]⟩) (i := 1) (j := 1) (k := 1) (mem (by pos)))
  · exact congrArg intOf (eqv (f := ⟨"$or", [.ty (.i 1)]⟩) (i := 0) (j := 0) (k := 0) (mem (by pos)))
  · exact congrArg intOf (eqv (f := ⟨"$or", [.ty (.i 1)]⟩) (i := 0) (j := 1) (k := 1) (mem (by pos)))
  · exact congrArg intOf (eqv (f := ⟨"$or", [.ty (.i 1)]⟩) (i := 1) (j := 0) (k := 1) (mem (by pos)))
  · exact congrArg intOf (eqv (f := ⟨"$or", [.ty (.i 1)]⟩) (i := 1) (j := 1) (k := 1) (mem (by pos)))
  · exact congrArg intOf (eqv (f := ⟨"$xor", [.ty (.i 1)]⟩) (i := 0) (j := 0) (k := 0) (mem (by pos)))
  · exact congrArg intOf (eqv (f := ⟨"$xor", [.ty (.i 1)]⟩) (i := 0) (j := 1) (k := 1) (mem (by pos)))
  · exact congrArg intOf (eqv (f := ⟨"$xor", [.ty (.i 1)]⟩) (i := 1) (j := 0) (k := 1) (mem (by pos)))
  · exact congrArg intOf (eqv (f := ⟨"$xor", [.ty (.i 1)]⟩) (i := 1) (j := 1) (k := 0) (mem (by pos)))

end Smack.PreSem
