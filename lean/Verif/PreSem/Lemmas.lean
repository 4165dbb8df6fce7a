/-
Well-typed expressions have values of their types; applications of declared functions.
-/
import Verif.PreSem.Spec
import Verif.PreludeTy.Names
import Verif.PreludeTy.Typing
import Verif.PreludeTy.Rank
import Verif.PreludeTy.Props

namespace Smack.PreSem
open PreludeTy FloatLit

variable {U : Type} {m : Mode} {A : Arith U} {I : Interp U}

/-! ### Values of a type -/

theorem is_sc {T : Ty} {x : Sc U} : Val.Is T (.sc x) ↔ x.Is T := by
  cases T <;> cases x <;> simp [Val.Is, Sc.Is]

theorem is_int {v : Val U} : v.Is .int ↔ ∃ z, v = .int z := by
  cases v with
  | sc x => cases x <;> simp [Val.Is, Sc.Is]
  | map f => simp [Val.Is]

theorem is_bool {v : Val U} : v.Is .bool ↔ ∃ b, v = .bool b := by
  cases v with
  | sc x => cases x <;> simp [Val.Is, Sc.Is]
  | map f => simp [Val.Is]

theorem is_bv {v : Val U} {n : Nat} : v.Is (.bv n) ↔ ∃ b, v = .bv n b := by
  cases v with
  | sc x =>
    cases x with
    | bv w b =>
      constructor
      · intro h
        have h : w = n := h
        subst h; exact ⟨b, rfl⟩
      · intro ⟨b', e⟩; cases e; exact rfl
    | _ => simp [Val.Is, Sc.Is]
  | map f => simp [Val.Is]

theorem is_rm {v : Val U} : v.Is .rmode ↔ ∃ r, v = .sc (.rm r) := by
  cases v with
  | sc x => cases x <;> simp [Val.Is, Sc.Is]
  | map f => simp [Val.Is]

theorem is_fp {v : Val U} {s e : Nat} : v.Is (.fp s e) ↔ ∃ bits : BitVec (e + s), v = .fp s e (ieee e s bits) := by
  cases v with
  | sc x =>
    cases x with
    | fp s' e' d =>
      constructor
      · intro h
        obtain ⟨rfl, rfl, bits, rfl⟩ := (h : s' = s ∧ e' = e ∧ ∃ bits : BitVec (e + s), ieee e s bits = d)
        exact ⟨bits, rfl⟩
      · intro ⟨b, e⟩; cases e; exact ⟨rfl, rfl, b, rfl⟩
    | _ => simp [Val.Is, Sc.Is]
  | map f => simp [Val.Is]

theorem is_map {v : Val U} {D R : Ty} :
    v.Is (.map D R) ↔ ∃ f, v = .map f ∧ (∀ D' R', D ≠ .map D' R') ∧ ∀ k, k.Is D → (f k).Is R := by
  cases v with
  | sc x => simp [Val.Is]
  | map f => simp [Val.Is]

theorem is_scalar {v : Val U} {T : Ty} (h : v.Is T) (hT : ∀ D R, T ≠ .map D R) : ∃ x, v = .sc x ∧ x.Is T := by
  cases v with
  | sc x => exact ⟨x, rfl, is_sc.mp h⟩
  | map f => cases T <;> simp [Val.Is] at h <;> exact absurd rfl (hT _ _)

/-! ### Expressions -/

theorem evalBin_eq {op : Bin} (h : op.isEq = true) (a b : Val U) : (evalBin op a b).Is .bool := by
  cases op <;> first | (cases h; done) | exact is_bool.mpr ⟨_, rfl⟩

/-- Declared functions return values of their types. -/
def FnTyped (m : Mode) (I : Interp U) : Prop :=
  ∀ d ∈ decls m, ∀ Ts T, ResolvesAll (sig m) d.params Ts → Resolves (typeDecls m) d.ret T →
    ∀ args, AllIs Ts args → Val.Is T (I.fn d.sym args)

/-- Floating-point literals have values of their formats. -/
def LitTyped (I : Interp U) : Prop := ∀ s e, ∃ bits : BitVec (e + s), ieee e s bits = I.fp s e

mutual

theorem eval_is (hI : FnTyped m I) (hfp : LitTyped I) {Γ : String → Option TName} {ρ : String → Val U}
    (hρ : ∀ x t T, Γ x = some t → Resolves (typeDecls m) t T → Val.Is T (ρ x)) :
    ∀ {e T}, HasTy (sig m) Γ e T → Val.Is T (eval I ρ e)
  | _, _, .var h1 h2 => by rw [eval]; exact hρ _ _ _ h1 h2
  | _, _, .int v => by rw [eval]; exact is_int.mpr ⟨_, rfl⟩
  | _, _, .negInt v => by rw [eval]; exact is_int.mpr ⟨_, rfl⟩
  | _, _, .bv v w => by rw [eval]; exact is_bv.mpr ⟨_, rfl⟩
  | _, _, .bool b => by rw [eval]; exact is_bool.mpr ⟨_, rfl⟩
  | _, _, .rm => by rw [eval]; exact is_rm.mpr ⟨_, rfl⟩
  | _, _, .fp s e => by
    rw [eval]; obtain ⟨b, hb⟩ := hfp s e
    exact is_fp.mpr ⟨b, by rw [hb]⟩
  | _, _, .fn hd hs hp ha hr => by
    rw [eval, ← hs]
    exact hI _ hd _ _ hp hr _ (evals_is hI hfp hρ ha)
  | _, _, .eq ho hl hr => by rw [eval]; exact evalBin_eq ho _ _
  | _, _, .rel (op := op) ho hl hr => by
    obtain ⟨a, ea⟩ := is_int.mp (eval_is hI hfp hρ hl)
    obtain ⟨b, eb⟩ := is_int.mp (eval_is hI hfp hρ hr)
    rw [eval, ea, eb]
    cases op <;> first | (cases ho; done) | exact is_bool.mpr ⟨_, rfl⟩
  | _, _, .arith (op := op) ho hl hr => by
    obtain ⟨a, ea⟩ := is_int.mp (eval_is hI hfp hρ hl)
    obtain ⟨b, eb⟩ := is_int.mp (eval_is hI hfp hρ hr)
    rw [eval, ea, eb]
    cases op <;> first | (cases ho; done) | exact is_int.mpr ⟨_, rfl⟩
  | _, _, .conn (op := op) ho hl hr => by
    obtain ⟨a, ea⟩ := is_bool.mp (eval_is hI hfp hρ hl)
    obtain ⟨b, eb⟩ := is_bool.mp (eval_is hI hfp hρ hr)
    rw [eval, ea, eb]
    cases op <;> first | (cases ho; done) | exact is_bool.mpr ⟨_, rfl⟩
  | _, _, .not he => by
    obtain ⟨a, ea⟩ := is_bool.mp (eval_is hI hfp hρ he)
    rw [eval, ea]; exact is_bool.mpr ⟨_, rfl⟩
  | _, _, .ite hc ha hb => by
    obtain ⟨c, ec⟩ := is_bool.mp (eval_is hI hfp hρ hc)
    have h1 := eval_is hI hfp hρ ha
    have h2 := eval_is hI hfp hρ hb
    rw [eval, ec]
    cases c
    · exact h2
    · exact h1
  | _, _, .sel hm hi => by
    obtain ⟨f, ef, hD, hf⟩ := is_map.mp (eval_is hI hfp hρ hm)
    obtain ⟨k, ek, hk⟩ := is_scalar (eval_is hI hfp hρ hi) hD
    rw [eval, ef, ek]
    exact hf k hk
  | _, _, .upd hm hi hx => by
    obtain ⟨f, ef, hD, hf⟩ := is_map.mp (eval_is hI hfp hρ hm)
    obtain ⟨k, ek, hk⟩ := is_scalar (eval_is hI hfp hρ hi) hD
    have hx := eval_is hI hfp hρ hx
    rw [eval, ef, ek]
    refine is_map.mpr ⟨_, rfl, hD, fun j hj => ?_⟩
    split
    · exact hx
    · exact hf j hj
  | _, _, .extract he _ _ => by
    obtain ⟨b, eb⟩ := is_bv.mp (eval_is hI hfp hρ he)
    rw [eval, eb]; exact is_bv.mpr ⟨_, rfl⟩
  | _, _, .concat hl hr => by
    obtain ⟨a, ea⟩ := is_bv.mp (eval_is hI hfp hρ hl)
    obtain ⟨b, eb⟩ := is_bv.mp (eval_is hI hfp hρ hr)
    rw [eval, ea, eb]; exact is_bv.mpr ⟨_, rfl⟩

theorem evals_is (hI : FnTyped m I) (hfp : LitTyped I) {Γ : String → Option TName} {ρ : String → Val U}
    (hρ : ∀ x t T, Γ x = some t → Resolves (typeDecls m) t T → Val.Is T (ρ x)) :
    ∀ {es Ts}, HasTys (sig m) Γ es Ts → AllIs Ts (evals I ρ es)
  | _, _, .nil => by rw [evals]; exact .nil
  | _, _, .cons he hs => by rw [evals]; exact .cons (eval_is hI hfp hρ he) (evals_is hI hfp hρ hs)

end

/-- The variables in a body have values of their types. -/
theorem bind_is {Γ : String → Option TName} {ρ : String → Val U}
    (hρ : ∀ x t T, Γ x = some t → Resolves (typeDecls m) t T → Val.Is T (ρ x)) :
    ∀ {ps Ts args}, ResolvesAll (sig m) ps Ts → AllIs Ts args →
      ∀ x t T, scope ps Γ x = some t → Resolves (typeDecls m) t T → Val.Is T (bind ps args ρ x)
  | _, _, _, .nil, .nil => fun x t T hx hT => hρ x t T hx hT
  | _, _, _, .cons (x := y) (t := u) h hs, .cons ha has => fun x t T hx hT => by
    by_cases e : y = x
    · subst e
      have hx : some u = some t := by rw [← hx]; simp [scope]
      cases hx
      rw [bind, if_pos rfl]
      rw [(resolves_inv hT).1, ← (resolves_inv h).1]
      exact ha
    · rw [bind, if_neg e]
      refine bind_is hρ hs has x t T ?_ hT
      rw [← hx]; simp [scope, e]

/-! ### Values only depend on the functions that are called -/

mutual

theorem eval_congr {I J : Interp U} (hr : I.rm = J.rm) (hf : I.fp = J.fp) {ρ : String → Val U} :
    ∀ {e : Ex}, (∀ f ∈ e.calls, I.fn f = J.fn f) → eval I ρ e = eval J ρ e
  | .var x, _ => by rw [eval, eval]
  | .int v, _ => by rw [eval, eval]
  | .negInt v, _ => by rw [eval, eval]
  | .bv v w, _ => by rw [eval, eval]
  | .bool b, _ => by rw [eval, eval]
  | .rm, _ => by rw [eval, eval, hr]
  | .fp s e, _ => by rw [eval, eval, hf]
  | .fn f args, h => by
    rw [eval, eval, evals_congr hr hf (es := args) fun g hg => h g (by rw [Ex.calls]; exact List.mem_cons_of_mem _ hg),
      h f (by rw [Ex.calls]; exact List.mem_cons_self)]
  | .bin op l r, h => by
    rw [eval, eval, eval_congr hr hf (e := l) fun g hg => h g (by rw [Ex.calls]; exact List.mem_append_left _ hg),
      eval_congr hr hf (e := r) fun g hg => h g (by rw [Ex.calls]; exact List.mem_append_right _ hg)]
  | .not e, h => by rw [eval, eval, eval_congr hr hf (e := e) fun g hg => h g (by rw [Ex.calls]; exact hg)]
  | .ite c a b, h => by
    rw [eval, eval, eval_congr hr hf (e := c) fun g hg => h g (by rw [Ex.calls]; exact List.mem_append_left _ (List.mem_append_left _ hg)),
      eval_congr hr hf (e := a) fun g hg => h g (by rw [Ex.calls]; exact List.mem_append_left _ (List.mem_append_right _ hg)),
      eval_congr hr hf (e := b) fun g hg => h g (by rw [Ex.calls]; exact List.mem_append_right _ hg)]
  | .sel a i, h => by
    rw [eval, eval, eval_congr hr hf (e := a) fun g hg => h g (by rw [Ex.calls]; exact List.mem_append_left _ hg),
      eval_congr hr hf (e := i) fun g hg => h g (by rw [Ex.calls]; exact List.mem_append_right _ hg)]
  | .upd c a b, h => by
    rw [eval, eval, eval_congr hr hf (e := c) fun g hg => h g (by rw [Ex.calls]; exact List.mem_append_left _ (List.mem_append_left _ hg)),
      eval_congr hr hf (e := a) fun g hg => h g (by rw [Ex.calls]; exact List.mem_append_left _ (List.mem_append_right _ hg)),
      eval_congr hr hf (e := b) fun g hg => h g (by rw [Ex.calls]; exact List.mem_append_right _ hg)]
  | .extract e hi lo, h => by rw [eval, eval, eval_congr hr hf (e := e) fun g hg => h g (by rw [Ex.calls]; exact hg)]
  | .concat l r, h => by
    rw [eval, eval, eval_congr hr hf (e := l) fun g hg => h g (by rw [Ex.calls]; exact List.mem_append_left _ hg),
      eval_congr hr hf (e := r) fun g hg => h g (by rw [Ex.calls]; exact List.mem_append_right _ hg)]

theorem evals_congr {I J : Interp U} (hr : I.rm = J.rm) (hf : I.fp = J.fp) {ρ : String → Val U} :
    ∀ {es : List Ex}, (∀ f ∈ callsAll es, I.fn f = J.fn f) → evals I ρ es = evals J ρ es
  | [], _ => by rw [evals, evals]
  | e :: es, h => by
    rw [evals, evals, eval_congr hr hf (e := e) fun g hg => h g (by rw [callsAll]; exact List.mem_append_left _ hg),
      evals_congr hr hf (es := es) fun g hg => h g (by rw [callsAll]; exact List.mem_append_right _ hg)]

end

/-! ### Applications -/

/-- The types of the parameters. -/
theorem params_of {d : Fun} (ok : FunOk (sig m) (globals m) d) : ResolvesAll (sig m) d.params (d.params.map fun p => den m p.2) := by
  obtain ⟨_, ⟨Ts, hp⟩, _⟩ := ok
  rw [← resolvesAll_inv hp]; exact hp

theorem app_body (D : Defines A m I) {d : Fun} (hd : d ∈ decls m) (ok : FunOk (sig m) (globals m) d) {b : Ex}
    (hb : d.body = some b) {args : List (Val U)} (ha : AllIs (d.params.map fun p => den m p.2) args) :
    I.fn d.sym args = eval I (bind d.params args I.const) b :=
  D.body d hd ok b hb _ (params_of ok) args ha

theorem app_attr (D : Defines A m I) {d : Fun} (hd : d ∈ decls m) (ok : FunOk (sig m) (globals m) d) {s : Smt}
    (hs : d.attr = some s) {args : List (Val U)} (ha : AllIs (d.params.map fun p => den m p.2) args) :
    I.fn d.sym args = smt A s args :=
  D.attr d hd s hs _ (params_of ok) args ha

end Smack.PreSem
