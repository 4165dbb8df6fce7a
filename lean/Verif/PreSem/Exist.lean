/-
Operators and uninterpreted functions of the declared types exist; the declarations determine the values of the other functions.
-/
import Verif.PreSem.Consistent

namespace Smack.PreSem
open PreludeTy FloatLit

variable {U : Type} {m : Mode} {A : Arith U}

/-! ### Operators that are not spelled out -/

/-- The type of a scalar value. -/
def tyOf : Val U → Ty
  | .sc (.int _) => .int
  | .sc (.bool _) => .bool
  | .sc (.rm _) => .rmode
  | .sc (.bv w _) => .bv w
  | .sc (.fp s e _) => .fp s e
  | .sc (.opq t _) => .opaque t
  | .map _ => .int

/-- The result type of an operator. -/
def resTy (s : Smt) (args : List (Val U)) : Ty :=
  match s.idx, args with
  | [n], [.sc (.rm _), _] => .bv n
  | [e, s], _ => .fp s e
  | [k], [.sc (.bv w _)] => .bv (w + k)
  | [n], [.sc (.int _)] => .bv n
  | _, args =>
    if s.op ∈ ["fp.eq", "fp.leq", "fp.lt", "fp.geq", "fp.gt", "fp.isNormal", "fp.isSubnormal", "fp.isZero", "fp.isInfinite", "fp.isNaN",
      "fp.isNegative", "fp.isPositive"] ∨ s.op ∈ bvCompare then .bool
    else if s.op = "bv2nat" then .int
    else match args with
      | [a] | [_, a] | [_, _, a] | [_, _, _, a] => tyOf a
      | _ => .int

/-- Arbitrary results. -/
def someArith [Inhabited U] : Arith U := ⟨fun _ => 0, fun _ => 0, fun s args => dflt (resTy s args)⟩

theorem dflt_sc [Inhabited U] : ∀ {T : Ty}, (∀ D R, T ≠ .map D R) → (dflt T : Val U).Is T
  | .int, _ | .bool, _ | .rmode, _ => trivial
  | .bv _, _ => rfl
  | .fp _ _, _ => is_fp.mpr ⟨_, rfl⟩
  | .opaque _, _ => rfl
  | .map D R, h => absurd rfl (h D R)

theorem mem_ne {op : String} {l : List String} (h : op ∈ l) {x : String} (hx : x ∉ l) : op ≠ x := fun e => hx (e ▸ h)

theorem resTy_sig {s : Smt} {Ts : List Ty} {T : Ty} (hs : SmtSig s Ts T) {args : List (Val U)} (ha : AllIs Ts args) :
    resTy s args = T := by
  cases hs with
  | bvBin hop hn =>
    obtain ⟨a, b, rfl, ha, hb⟩ := all2_inv ha
    obtain ⟨a, rfl⟩ := is_bv.mp ha
    obtain ⟨b, rfl⟩ := is_bv.mp hb
    simp only [bvBinary, List.mem_cons, List.not_mem_nil, or_false] at hop
    rcases hop with rfl | rfl | rfl | rfl | rfl | rfl | rfl | rfl | rfl | rfl | rfl | rfl | rfl | rfl | rfl | rfl | rfl <;> rfl
  | bvCmp hop hn =>
    obtain ⟨a, b, rfl, ha, hb⟩ := all2_inv ha
    obtain ⟨a, rfl⟩ := is_bv.mp ha
    obtain ⟨b, rfl⟩ := is_bv.mp hb
    simp only [bvCompare, List.mem_cons, List.not_mem_nil, or_false] at hop
    rcases hop with rfl | rfl | rfl | rfl | rfl | rfl | rfl | rfl <;> rfl
  | bvNot hn | bvNeg hn | zext hn | sext hn | bv2nat hn =>
    obtain ⟨a, rfl, ha1⟩ := all1_inv ha
    obtain ⟨a, rfl⟩ := is_bv.mp ha1
    rfl
  | int2bv hn =>
    obtain ⟨a, rfl, ha1⟩ := all1_inv ha
    obtain ⟨a, rfl⟩ := is_int.mp ha1
    rfl
  | div | mod =>
    obtain ⟨a, b, rfl, ha, hb⟩ := all2_inv ha
    obtain ⟨a, rfl⟩ := is_int.mp ha
    obtain ⟨b, rfl⟩ := is_int.mp hb
    rfl
  | fpUn hop =>
    obtain ⟨a, rfl, ha1⟩ := all1_inv ha
    obtain ⟨a, rfl⟩ := is_fp.mp ha1
    simp only [List.mem_cons, List.not_mem_nil, or_false] at hop
    rcases hop with rfl | rfl <;> rfl
  | fpUnRm hop =>
    obtain ⟨a, b, rfl, ha, hb⟩ := all2_inv ha
    obtain ⟨a, rfl⟩ := is_rm.mp ha
    obtain ⟨b, rfl⟩ := is_fp.mp hb
    simp only [List.mem_cons, List.not_mem_nil, or_false] at hop
    rcases hop with rfl | rfl <;> rfl
  | fpBinRm hop =>
    obtain ⟨a, b, c, rfl, ha, hb, hc⟩ := all3_inv ha
    obtain ⟨c, rfl⟩ := is_fp.mp hc
    simp only [List.mem_cons, List.not_mem_nil, or_false] at hop
    rcases hop with rfl | rfl | rfl | rfl <;> rfl
  | fpBin hop =>
    obtain ⟨a, b, rfl, ha, hb⟩ := all2_inv ha
    obtain ⟨a, rfl⟩ := is_fp.mp ha
    obtain ⟨b, rfl⟩ := is_fp.mp hb
    simp only [List.mem_cons, List.not_mem_nil, or_false] at hop
    rcases hop with rfl | rfl | rfl <;> rfl
  | fma =>
    obtain ⟨a, b, c, d, rfl, ha, hb, hc, hd⟩ := all4_inv ha
    obtain ⟨d, rfl⟩ := is_fp.mp hd
    rfl
  | fpClass hop =>
    obtain ⟨a, rfl, ha1⟩ := all1_inv ha
    obtain ⟨a, rfl⟩ := is_fp.mp ha1
    simp only [List.mem_cons, List.not_mem_nil, or_false] at hop
    rcases hop with rfl | rfl | rfl | rfl | rfl | rfl | rfl <;> rfl
  | fpCmp hop =>
    obtain ⟨a, b, rfl, ha, hb⟩ := all2_inv ha
    obtain ⟨a, rfl⟩ := is_fp.mp ha
    obtain ⟨b, rfl⟩ := is_fp.mp hb
    simp only [List.mem_cons, List.not_mem_nil, or_false] at hop
    rcases hop with rfl | rfl | rfl | rfl | rfl <;> rfl
  | toFpBits => rfl
  | toFpFp => rfl
  | toFpSigned hn => rfl
  | toFpUnsigned hn => rfl
  | toUbv hn | toSbv hn =>
    obtain ⟨a, b, rfl, ha, hb⟩ := all2_inv ha
    obtain ⟨a, rfl⟩ := is_rm.mp ha
    rfl

theorem sig_scalar {s : Smt} {Ts : List Ty} {T : Ty} (hs : SmtSig s Ts T) : ∀ D R, T ≠ .map D R := by
  intro D R e
  cases hs <;> cases e

theorem someArith_typed [Inhabited U] (h : m.Ok) : (someArith : Arith U).Typed m := by
  intro d hd s hs Ts T hp hr args ha
  show (dflt (resTy s args)).Is T
  have hT := (resolves_inv hr).1
  have hTs := resolvesAll_inv hp
  rcases attrs_ok h hd s hs with ⟨rfl, n, _, hps, hrt⟩ | ⟨hsig, _⟩
  · rw [hps] at hTs
    rw [hrt] at hT
    subst hTs hT
    obtain ⟨a, b, rfl, ha, hb⟩ := all2_inv (T := .bv n) (S := .bv n) ha
    obtain ⟨b, rfl⟩ := is_bv.mp hb
    exact bvIs _
  · subst hT hTs
    rw [resTy_sig hsig ha]
    exact dflt_sc (sig_scalar hsig)

/-! ### Uninterpreted functions -/

/-- Bitwise operations on non-negative integers, an arbitrary value elsewhere. -/
def someFree [Inhabited U] (m : Mode) (f : Sym) (args : List (Val U)) : Val U :=
  match declOf m f with
  | none => junk
  | some d => match den m d.ret, args with
    | .int, [.int a, .int b] =>
      if f.base = "$and" then .int (a.toNat &&& b.toNat : Nat)
      else if f.base = "$or" then .int (a.toNat ||| b.toNat : Nat)
      else if f.base = "$xor" then .int (a.toNat ^^^ b.toNat : Nat)
      else .int 0
    | T, _ => dflt T

theorem someFree_i [Inhabited U] (hb : m.bp = false) {nm : String} {k : OpKind} {n : Nat} (hn : n ∈ sizes)
    (ho : ⟨nm, 2, .uninterpreted, k, false⟩ ∈ arithTable m) (a b : Int) :
    (someFree m ⟨"$" ++ nm, [.ty (.i n)]⟩ [.int a, .int b] : Val U) =
      if "$" ++ nm = "$and" then .int (a.toNat &&& b.toNat : Nat)
      else if "$" ++ nm = "$or" then .int (a.toNat ||| b.toNat : Nat)
      else if "$" ++ nm = "$xor" then .int (a.toNat ^^^ b.toNat : Nat)
      else .int 0 := by
  have hd : ({ sym := ⟨"$" ++ nm, [.ty (.i n)]⟩, params := vars "i" 2 (.i n), ret := .i n } : Fun) ∈ ArithOp.funs m ⟨nm, 2, .uninterpreted, k, false⟩ n :=
    mem_intFun (.inl hb) (.head _)
  have := declOf_mem (mem_arith ho hn hd)
  unfold someFree
  simp only at this
  rw [this]
  rfl

theorem someFree_free [Inhabited U] : Free m (someFree (U := U) m) where
  typed := by
    intro d hd _ _ Ts T hp hr args ha
    unfold someFree
    rw [declOf_mem hd, (resolves_inv hr).1]
    dsimp only
    split
    · rename_i e; rw [e]
      repeat' split
      all_goals exact intIs _
    · exact dflt_is _
  and1 := fun hb a b => by
    rw [show (⟨"$and", [.ty (.i 1)]⟩ : Sym) = ⟨"$" ++ "and", [.ty (.i 1)]⟩ from rfl,
      someFree_i hb (k := bvAttr "and") (by decide) (by unfold arithTable; pos)]
    cases a <;> cases b <;> rfl
  or1 := fun hb a b => by
    rw [show (⟨"$or", [.ty (.i 1)]⟩ : Sym) = ⟨"$" ++ "or", [.ty (.i 1)]⟩ from rfl,
      someFree_i hb (k := bvAttr "or") (by decide) (by unfold arithTable; pos)]
    cases a <;> cases b <;> rfl
  xor1 := fun hb a b => by
    rw [show (⟨"$xor", [.ty (.i 1)]⟩ : Sym) = ⟨"$" ++ "xor", [.ty (.i 1)]⟩ from rfl,
      someFree_i hb (k := bvAttr "xor") (by decide) (by unfold arithTable; pos)]
    cases a <;> cases b <;> rfl
  and32 := fun hb => by
    rw [show (⟨"$and", [.ty (.i 32)]⟩ : Sym) = ⟨"$" ++ "and", [.ty (.i 32)]⟩ from rfl,
      someFree_i hb (k := bvAttr "and") (by decide) (by unfold arithTable; pos)]
    rfl

/-! ### Values are determined -/

section
variable {I J : Interp U}

mutual

theorem eval_agree (hI : FnTyped m I) (hfp : LitTyped I) (hr : I.rm = J.rm) (hf : I.fp = J.fp) {Γ : String → Option TName} {ρ : String → Val U}
    (hρ : ∀ x t T, Γ x = some t → Resolves (typeDecls m) t T → Val.Is T (ρ x)) :
    ∀ {e T}, HasTy (sig m) Γ e T →
      (∀ d ∈ decls m, d.sym ∈ e.calls → ∀ Ts, ResolvesAll (sig m) d.params Ts → ∀ args, AllIs Ts args → I.fn d.sym args = J.fn d.sym args) →
      eval I ρ e = eval J ρ e
  | _, _, .var _ _, _ => by rw [eval, eval]
  | _, _, .int v, _ => by rw [eval, eval]
  | _, _, .negInt v, _ => by rw [eval, eval]
  | _, _, .bv v w, _ => by rw [eval, eval]
  | _, _, .bool b, _ => by rw [eval, eval]
  | _, _, .rm, _ => by rw [eval, eval, hr]
  | _, _, .fp s e, _ => by rw [eval, eval, hf]
  | _, _, .fn (d := d) hd hs hp ha _, hc => by
    rw [eval, eval, ← evals_agree hI hfp hr hf hρ ha (fun d hd h => hc d hd (List.mem_cons_of_mem _ h)), ← hs]
    exact hc d hd (by rw [hs]; exact List.mem_cons_self ..) _ hp _ (evals_is hI hfp hρ ha)
  | _, _, .eq _ h1 h2, hc | _, _, .rel _ h1 h2, hc | _, _, .arith _ h1 h2, hc | _, _, .conn _ h1 h2, hc | _, _, .concat h1 h2, hc => by
    rw [eval, eval, eval_agree hI hfp hr hf hρ h1 (fun d hd h => hc d hd (List.mem_append_left _ h)),
      eval_agree hI hfp hr hf hρ h2 (fun d hd h => hc d hd (List.mem_append_right _ h))]
  | _, _, .not h1, hc => by rw [eval, eval, eval_agree hI hfp hr hf hρ h1 hc]
  | _, _, .extract h1 _ _, hc => by rw [eval, eval, eval_agree hI hfp hr hf hρ h1 hc]
  | _, _, .ite h1 h2 h3, hc | _, _, .upd h1 h2 h3, hc => by
    rw [eval, eval, eval_agree hI hfp hr hf hρ h1 (fun d hd h => hc d hd (List.mem_append_left _ (List.mem_append_left _ h))),
      eval_agree hI hfp hr hf hρ h2 (fun d hd h => hc d hd (List.mem_append_left _ (List.mem_append_right _ h))),
      eval_agree hI hfp hr hf hρ h3 (fun d hd h => hc d hd (List.mem_append_right _ h))]
  | _, _, .sel h1 h2, hc => by
    rw [eval, eval, eval_agree hI hfp hr hf hρ h1 (fun d hd h => hc d hd (List.mem_append_left _ h)),
      eval_agree hI hfp hr hf hρ h2 (fun d hd h => hc d hd (List.mem_append_right _ h))]

theorem evals_agree (hI : FnTyped m I) (hfp : LitTyped I) (hr : I.rm = J.rm) (hf : I.fp = J.fp) {Γ : String → Option TName} {ρ : String → Val U}
    (hρ : ∀ x t T, Γ x = some t → Resolves (typeDecls m) t T → Val.Is T (ρ x)) :
    ∀ {es Ts}, HasTys (sig m) Γ es Ts →
      (∀ d ∈ decls m, d.sym ∈ callsAll es → ∀ Ts, ResolvesAll (sig m) d.params Ts → ∀ args, AllIs Ts args → I.fn d.sym args = J.fn d.sym args) →
      evals I ρ es = evals J ρ es
  | _, _, .nil, _ => by rw [evals, evals]
  | _, _, .cons he hs, hc => by
    rw [evals, evals, eval_agree hI hfp hr hf hρ he (fun d hd h => hc d hd (List.mem_append_left _ h)),
      evals_agree hI hfp hr hf hρ hs (fun d hd h => hc d hd (List.mem_append_right _ h))]

end
end

end Smack.PreSem
