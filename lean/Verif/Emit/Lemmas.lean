/-
Lemmas for C72: expressions.
-/
import Verif.PreludeTy.Typing
import Verif.PreludeTy.Names
import Verif.Emit.Spec

namespace Smack.Emit

open Smack.PreludeTy

variable {m : Mode} {Γ : String → Option TName}

/-- The globals of the prelude are declared. -/
def Ext (m : Mode) (Γ : String → Option TName) : Prop := ∀ x t, globals m x = some t → Γ x = some t

theorem widths_eq : widths = sizes := rfl

theorem fpBits_eq (k : FK) : fpBits k = k.width := by cases k <;> rfl

theorem fpBits_mem (k : FK) : fpBits k ∈ sizes := by cases k <;> decide

/-! ### Types -/

theorem tyName_fp (k : FK) : tyName m (.fp k) = fpT m k := by
  cases h : m.flt <;> cases k <;> simp [tyName, fpT, h, FK.name]

theorem okT_ty {t : LTy} (h : t.Sup) : okT m (tyName m t) = true := by
  cases t with
  | int n => exact okT_intT h
  | ptr => rfl
  | agg => rfl
  | fp k => rw [tyName_fp]; exact okT_fpT k

theorem den_ty (t : LTy) : den m (tyName m t) = boogieTy m t := by
  cases t with
  | int n => cases h : m.bp <;> simp [tyName, intT, h, den, boogieTy]
  | ptr => rfl
  | agg => rfl
  | fp k => cases h : m.flt <;> cases k <;> simp [tyName, h, den, boogieTy]

theorem resolves_ty (hm : m.Ok) {t : LTy} (h : t.Sup) : Resolves (typeDecls m) (tyName m t) (boogieTy m t) := by
  rw [← den_ty]; exact resolves_den hm _ (okT_ty h)

theorem boogie_int (n : Nat) : boogieTy m (.int n) = den m (intT m n) := (den_ty (.int n)).symm

theorem boogie_ptr : boogieTy m .ptr = den m .ref := rfl

theorem boogie_fp (k : FK) : boogieTy m (.fp k) = den m (fpT m k) := by rw [← tyName_fp, den_ty]

/-! ### Literals and pointer arithmetic -/

theorem ty_litInt (hm : m.Ok) {w : Nat} (hw : w ∈ sizes) (v : Nat) (u ui : Bool) :
    HasTy (sig m) Γ (litInt m w v u ui) (boogieTy m (.int w)) := by
  unfold litInt
  dsimp only
  generalize (decide (1 < w) && if u then if ui then false else sext w v == -1 else decide (sext w v < 0)) = neg
  rw [boogie_int]
  cases neg
  · exact ty_iLit _ _
  · exact ty_bin hm (f := "$sub") (by decide) hw (ty_iLit _ _) (ty_iLit _ _)

theorem ty_litLL (v : Int) : HasTy (sig m) Γ (litLL v) .int := by
  unfold litLL; split
  · exact .int _
  · exact .negInt _

theorem ty_litFp (hm : m.Ok) (k : FK) (i f e : Int) : HasTy (sig m) Γ (litFp m k i f e) (boogieTy m (.fp k)) := by
  unfold litFp boogieTy
  cases h : m.flt
  · exact ty_fn (m := m) hm (fp_ctor h) (by simp [okT]) (by simp [okT, h]) (tys3 (ty_litLL _) (ty_litLL _) (ty_litLL _))
  · cases k <;> exact .fp _ _

theorem ty_pa (hm : m.Ok) {b i : Ex} (hb : HasTy (sig m) Γ b (den m .ref)) (hi : HasTy (sig m) Γ i (den m .ref)) (n : Nat) :
    HasTy (sig m) Γ (pa m b i n) (den m .ref) :=
  ty_refBin hm (by decide) hb (ty_refBin hm (by decide) hi (ty_pLit n))

theorem ty_paConst (hm : m.Ok) {b : Ex} (hb : HasTy (sig m) Γ b (den m .ref)) (i : Int) (n : Nat) :
    HasTy (sig m) Γ (paConst m b i n) (den m .ref) := by
  unfold paConst; split
  · exact ty_pa hm hb (ty_pLit _) n
  · exact ty_pa hm hb (ty_refBin hm (by decide) (ty_pLit _) (ty_pLit _)) n

/-! ### Conversions -/

theorem ty_rmode (hm : m.Ok) (hg : Ext m Γ) (hf : m.flt = true) : HasTy (sig m) Γ (.var "$rmode") .rmode :=
  .var (t := .rmode) (hg _ _ (by simp [globals, hf])) (resolves_den hm .rmode rfl)

theorem fi_mem (s : String) (b : Bool) (hs : (s, b) ∈ [("$bitcast", true), ("$bitcast", false), ("$fp2si", true), ("$fp2ui", true),
    ("$si2fp", false), ("$ui2fp", false)]) : ∃ c ∈ fpIntTable, c.name = s ∧ c.f2i = b ∧ c.bitCast = (s == "$bitcast") := by
  simp only [List.mem_cons, List.not_mem_nil, or_false, Prod.mk.injEq] at hs
  rcases hs with ⟨rfl, rfl⟩ | ⟨rfl, rfl⟩ | ⟨rfl, rfl⟩ | ⟨rfl, rfl⟩ | ⟨rfl, rfl⟩ | ⟨rfl, rfl⟩
  · exact ⟨_, .head _, rfl, rfl, rfl⟩
  · exact ⟨_, .tail _ (.head _), rfl, rfl, rfl⟩
  · exact ⟨_, .tail _ (.tail _ (.head _)), rfl, rfl, rfl⟩
  · exact ⟨_, .tail _ (.tail _ (.tail _ (.head _))), rfl, rfl, rfl⟩
  · exact ⟨_, .tail _ (.tail _ (.tail _ (.tail _ (.head _)))), rfl, rfl, rfl⟩
  · exact ⟨_, .tail _ (.tail _ (.tail _ (.tail _ (.tail _ (.head _))))), rfl, rfl, rfl⟩

/-- `$bitcast` from floating point to integer and back. -/
theorem ty_bitFi (hm : m.Ok) (k : FK) {e : Ex} (he : HasTy (sig m) Γ e (boogieTy m (.fp k))) :
    HasTy (sig m) Γ (.fn ⟨"$bitcast", [.ty (tyName m (.fp k)), .ty (tyName m (.int (fpBits k)))]⟩ [e]) (boogieTy m (.int (fpBits k))) := by
  obtain ⟨c, hc, hn, hf, hb⟩ := fi_mem "$bitcast" true (by decide)
  have hd := f2i_decl (m := m) hc hf k (fpBits_mem k) (fun _ => .inl (fpBits_eq k))
  rw [hn, hb] at hd
  rw [tyName_fp, boogie_int]
  refine ty_fn hm hd ?_ (okT_intT (fpBits_mem k)) ?_
  · simp [rmT, okT_fpT]
  · rw [boogie_fp] at he; simpa [rmT] using tys1 he

theorem ty_bitIf (hm : m.Ok) (k : FK) {e : Ex} (he : HasTy (sig m) Γ e (boogieTy m (.int (fpBits k)))) :
    HasTy (sig m) Γ (.fn ⟨"$bitcast", [.ty (tyName m (.int (fpBits k))), .ty (tyName m (.fp k))]⟩ [e]) (boogieTy m (.fp k)) := by
  obtain ⟨c, hc, hn, hf, hb⟩ := fi_mem "$bitcast" false (by decide)
  have hd := i2f_decl (m := m) hc hf k (fpBits_mem k) (fun _ => .inl (fpBits_eq k))
  rw [hn, hb] at hd
  rw [tyName_fp, boogie_fp]
  refine ty_fn hm hd ?_ (okT_fpT k) ?_
  · simp [rmT, okT_intT (fpBits_mem k)]
  · rw [boogie_int] at he; simpa [rmT] using tys1 he

/-- A conversion with a rounding mode when floating point is enabled. -/
theorem ty_rm1 (hm : m.Ok) {f : Sym} {a r : TName} (hd : Declares m f (rmT m true ++ [a]) r) (ha : okT m a = true) (hr : okT m r = true)
    {ro e : Ex} (hrm : m.flt = true → HasTy (sig m) Γ ro .rmode) (he : HasTy (sig m) Γ e (den m a)) :
    HasTy (sig m) Γ (if m.flt then .fn f [ro, e] else .fn f [e]) (den m r) := by
  cases h : m.flt with
  | true =>
    rw [rmT, h] at hd
    exact ty_fn hm hd (by simp [okT, ha]) hr (tys2 (hrm h) he)
  | false =>
    rw [rmT, h] at hd
    exact ty_fn hm hd (by simp [ha]) hr (tys1 he)

theorem ty_cast (hm : m.Ok) (hg : Ext m Γ) {op : CastOp} {s t : LTy} (hc : CastOk op s t) (hs : CastSup op s t) (h1 : s.Sup)
    (h2 : t.Sup) {e : Ex} (he : HasTy (sig m) Γ e (boogieTy m s)) : HasTy (sig m) Γ (castEx m op s t e) (boogieTy m t) := by
  cases hc with
  | @trunc a b hab => rw [boogie_int] at he ⊢; exact ty_trunc hm h2 h1 hab he
  | @zext a b hab => rw [boogie_int] at he ⊢; exact ty_ext hm false h1 h2 hab he
  | @sext a b hab => rw [boogie_int] at he ⊢; exact ty_ext hm true h1 h2 hab he
  | @fptrunc a b hab =>
    rw [fpBits_eq, fpBits_eq] at hab
    rw [boogie_fp] at he ⊢
    simp only [castEx, tyName_fp]
    exact ty_rm1 hm (fptrunc_decl a b fun _ => hab) (okT_fpT a) (okT_fpT b) (ty_rmode hm hg) he
  | @fpext a b hab =>
    rw [fpBits_eq, fpBits_eq] at hab
    rw [boogie_fp] at he ⊢
    simp only [castEx, tyName_fp]
    exact ty_rm1 hm (fpext_decl a b fun _ => hab) (okT_fpT a) (okT_fpT b) (ty_rmode hm hg) he
  | @fptoui k n =>
    obtain ⟨c, hc, hn, hf, hb⟩ := fi_mem "$fp2ui" true (by decide)
    have hd := f2i_decl (m := m) hc hf k h2 (fun hh => by rw [hb] at hh; cases hh)
    rw [hn, hb] at hd
    rw [boogie_fp] at he; rw [boogie_int]
    simp only [castEx, tyName_fp]
    exact ty_rm1 hm hd (okT_fpT k) (okT_intT h2) (fun _ => .rm) he
  | @fptosi k n =>
    obtain ⟨c, hc, hn, hf, hb⟩ := fi_mem "$fp2si" true (by decide)
    have hd := f2i_decl (m := m) hc hf k h2 (fun hh => by rw [hb] at hh; cases hh)
    rw [hn, hb] at hd
    rw [boogie_fp] at he; rw [boogie_int]
    simp only [castEx, tyName_fp]
    exact ty_rm1 hm hd (okT_fpT k) (okT_intT h2) (fun _ => .rm) he
  | @uitofp k n =>
    obtain ⟨c, hc, hn, hf, hb⟩ := fi_mem "$ui2fp" false (by decide)
    have hd := i2f_decl (m := m) hc hf k h1 (fun hh => by rw [hb] at hh; cases hh)
    rw [hn, hb] at hd
    rw [boogie_int] at he; rw [boogie_fp]
    simp only [castEx, tyName_fp]
    exact ty_rm1 hm hd (okT_intT h1) (okT_fpT k) (ty_rmode hm hg) he
  | @sitofp k n =>
    obtain ⟨c, hc, hn, hf, hb⟩ := fi_mem "$si2fp" false (by decide)
    have hd := i2f_decl (m := m) hc hf k h1 (fun hh => by rw [hb] at hh; cases hh)
    rw [hn, hb] at hd
    rw [boogie_int] at he; rw [boogie_fp]
    simp only [castEx, tyName_fp]
    exact ty_rm1 hm hd (okT_intT h1) (okT_fpT k) (ty_rmode hm hg) he
  | ptrtoint => rw [boogie_int]; exact ty_fn hm (p2i_decl hs) (by simp [okT]) (okT_intT h2) (tys1 he)
  | inttoptr => rw [boogie_int] at he; exact ty_fn hm (i2p_decl hs) (by simp [okT_intT h1]) rfl (tys1 he)
  | bitPtr => exact ty_fn hm bitcast_ref (by simp [okT]) rfl (tys1 he)
  | bitSame _ => cases hs rfl; exact ty_fn hm bitcast_ref (by simp [okT]) rfl (tys1 he)
  | bitFi => exact ty_bitFi hm _ he
  | bitIf => exact ty_bitIf hm _ he

/-! ### Operations -/

theorem ty_fpBin (hm : m.Ok) {o : String × Nat × Bool × String} (ho : o ∈ fpArithTable) (h2 : o.2.1 = 2) (k : FK) {l r : Ex}
    (hr : o.2.2.1 = false ∨ m.flt = false) (hl : HasTy (sig m) Γ l (boogieTy m (.fp k))) (hr' : HasTy (sig m) Γ r (boogieTy m (.fp k))) :
    HasTy (sig m) Γ (.fn ⟨o.1, [.ty (tyName m (.fp k))]⟩ [l, r]) (boogieTy m (.fp k)) := by
  have hd := fpArith_decl (m := m) ho k
  rw [h2] at hd
  have : rmT m o.2.2.1 = [] := by rcases hr with h | h <;> simp [rmT, h]
  rw [this] at hd
  rw [boogie_fp] at *; rw [tyName_fp]
  exact ty_fn hm hd (by simp [vars2f, okT_fpT]) (okT_fpT k) (tys2 hl hr')

theorem ty_fpBinRm (hm : m.Ok) {o : String × Nat × Bool × String} (ho : o ∈ fpArithTable) (h2 : o.2.1 = 2) (hr : o.2.2.1 = true)
    (hf : m.flt = true) (k : FK) {ro l r : Ex} (hrm : HasTy (sig m) Γ ro .rmode) (hl : HasTy (sig m) Γ l (boogieTy m (.fp k)))
    (hr' : HasTy (sig m) Γ r (boogieTy m (.fp k))) :
    HasTy (sig m) Γ (.fn ⟨o.1, [.ty (tyName m (.fp k))]⟩ [ro, l, r]) (boogieTy m (.fp k)) := by
  have hd := fpArith_decl (m := m) ho k
  rw [h2, hr] at hd
  have : rmT m true = [.rmode] := by simp [rmT, hf]
  rw [this] at hd
  rw [boogie_fp] at *; rw [tyName_fp]
  exact ty_fn hm hd (by simp [vars2f, okT_fpT, okT]) (okT_fpT k) (tys3 hrm hl hr')

theorem ty_bop (hm : m.Ok) (hg : Ext m Γ) {op : BinOp} {t : LTy} (ho : BopOk op t) (ht : t.Sup) {l r : Ex}
    (hl : HasTy (sig m) Γ l (boogieTy m t)) (hr : HasTy (sig m) Γ r (boogieTy m t)) :
    HasTy (sig m) Γ (bopEx m op t l r) (boogieTy m t) := by
  cases ho with
  | @int n ho =>
    have h : op.isFpArith = false ∧ op.name ∈ arNames ++ binNames := by
      revert ho; cases op <;> decide
    unfold bopEx
    rw [h.1]
    rw [boogie_int] at *
    exact ty_bin hm h.2 ht hl hr
  | @fp k ho =>
    simp only [List.mem_cons, List.not_mem_nil, or_false] at ho
    have fam : ∀ o : BinOp, o.isFpArith = true → (∃ s, (o.name, 2, true, s) ∈ fpArithTable) →
        HasTy (sig m) Γ (bopEx m o (.fp k) l r) (boogieTy m (.fp k)) := by
      intro o h1 ⟨s, h2⟩
      unfold bopEx
      rw [h1]
      cases hf : m.flt
      · exact ty_fpBin hm h2 rfl k (.inr hf) hl hr
      · exact ty_fpBinRm hm h2 rfl rfl hf k (ty_rmode hm hg hf) hl hr
    rcases ho with rfl | rfl | rfl | rfl | rfl
    · exact fam _ rfl ⟨_, by unfold fpArithTable; pos⟩
    · exact fam _ rfl ⟨_, by unfold fpArithTable; pos⟩
    · exact fam _ rfl ⟨_, by unfold fpArithTable; pos⟩
    · exact fam _ rfl ⟨_, by unfold fpArithTable; pos⟩
    · exact ty_fpBin (o := ("$frem", 2, false, "fp.rem")) hm (by unfold fpArithTable; pos) rfl k (.inl rfl) hl hr

theorem fcmp_row {p : CmpOp} (hp : p ∈ fcmps) : ∃ o ∈ fpPredTable, o.1 = p.name ∧ o.2.1 = 2 ∧ o.2.2.1 = true := by
  simp only [fcmps, List.mem_cons, List.not_mem_nil, or_false] at hp
  unfold fpPredTable
  rcases hp with rfl | rfl | rfl | rfl | rfl | rfl | rfl | rfl | rfl | rfl | rfl | rfl | rfl | rfl | rfl | rfl
  · exact ⟨("$ffalse", 2, true, _), by pos, rfl, rfl, rfl⟩
  · exact ⟨("$foeq", 2, true, _), by pos, rfl, rfl, rfl⟩
  · exact ⟨("$foge", 2, true, _), by pos, rfl, rfl, rfl⟩
  · exact ⟨("$fogt", 2, true, _), by pos, rfl, rfl, rfl⟩
  · exact ⟨("$fole", 2, true, _), by pos, rfl, rfl, rfl⟩
  · exact ⟨("$folt", 2, true, _), by pos, rfl, rfl, rfl⟩
  · exact ⟨("$fone", 2, true, _), by pos, rfl, rfl, rfl⟩
  · exact ⟨("$ford", 2, true, _), by pos, rfl, rfl, rfl⟩
  · exact ⟨("$ftrue", 2, true, _), by pos, rfl, rfl, rfl⟩
  · exact ⟨("$fueq", 2, true, _), by pos, rfl, rfl, rfl⟩
  · exact ⟨("$fuge", 2, true, _), by pos, rfl, rfl, rfl⟩
  · exact ⟨("$fugt", 2, true, _), by pos, rfl, rfl, rfl⟩
  · exact ⟨("$fule", 2, true, _), by pos, rfl, rfl, rfl⟩
  · exact ⟨("$fult", 2, true, _), by pos, rfl, rfl, rfl⟩
  · exact ⟨("$fune", 2, true, _), by pos, rfl, rfl, rfl⟩
  · exact ⟨("$funo", 2, true, _), by pos, rfl, rfl, rfl⟩

theorem ty_cmp (hm : m.Ok) {p : CmpOp} {t : LTy} (hp : CmpOk p t) (ht : t.Sup) {l r : Ex}
    (hl : HasTy (sig m) Γ l (boogieTy m t)) (hr : HasTy (sig m) Γ r (boogieTy m t)) :
    HasTy (sig m) Γ (cmpEx m p t l r) (boogieTy m (.int 1)) := by
  have name : p ∈ icmps → p.name ∈ predNames := by cases p <;> decide
  rw [boogie_int]
  cases hp with
  | int hp => rw [boogie_int] at *; exact ty_fn hm (pred_val (name hp) ht) (by simp [okT_intT ht]) (okT_intT (by decide)) (tys2 hl hr)
  | ptr hp => exact ty_fn hm (ref_pred_val (name hp)) (by simp [okT]) (okT_intT (by decide)) (tys2 hl hr)
  | @fp k hp =>
    obtain ⟨o, ho, h1, h2, h3⟩ := fcmp_row hp
    have hd := fpPred_decl (m := m) ho k (.inr h3)
    rw [h1, h2] at hd
    rw [boogie_fp] at hl hr
    unfold cmpEx
    simp only [tyName_fp]
    exact .ite (ty_fn (r := .bool) hm hd (by simp [vars2f, okT_fpT]) rfl (tys2 hl hr)) (ty_iLit _ _) (ty_iLit _ _)

theorem ty_sel {c a b : Ex} {T : Ty} (hc : HasTy (sig m) Γ c (boogieTy m (.int 1))) (ha : HasTy (sig m) Γ a T) (hb : HasTy (sig m) Γ b T) :
    HasTy (sig m) Γ (selEx m c a b) T := by
  rw [boogie_int] at hc
  exact .ite (.eq rfl hc (ty_iLit _ _)) ha hb

/-! ### Values -/

theorem sup_ty {v : Val} (h : v.All Val.sup) (hw : v.All Val.wt) : v.ty.Sup := by
  induction v using Val.rec (motive_2 := fun _ => True) with
  | reg x t => exact h
  | cint w v => exact h
  | cfp => trivial
  | null => trivial
  | gep => trivial
  | cast op v t _ => exact h.1.2
  | bop op l r ih _ => exact ih h.2.1 hw.2.1
  | cmp => show 1 ∈ widths; decide
  | sel c a b _ ih _ => exact ih h.2.2.1 hw.2.2.1
  | nil => trivial
  | field => trivial
  | idx => trivial

mutual

theorem ty_expr (hm : m.Ok) (hg : Ext m Γ) : ∀ (v : Val) (u ui : Bool), v.All Val.wt → v.All Val.sup → v.All (Val.decl m Γ) →
    HasTy (sig m) Γ (expr m v u ui) (boogieTy m v.ty)
  | .reg x t, _, _, _, hs, hd => by
    rw [expr]; exact .var hd (resolves_ty hm hs)
  | .cint w v, u, ui, _, hs, _ => by rw [expr]; exact ty_litInt hm hs v u ui
  | .cfp k i f e, _, _, _, _, _ => by rw [expr]; exact ty_litFp hm k i f e
  | .null, _, _, _, _, _ => by
    rw [expr]; exact .var (t := .ref) (hg _ _ (by simp [globals])) (resolves_den hm .ref rfl)
  | .gep p ixs, u, ui, hw, hs, hd => by
    have hp : boogieTy m p.ty = boogieTy m .ptr := by rw [hw.1.1]
    rw [expr]
    show HasTy _ _ _ (boogieTy m .ptr)
    split
    · rw [← hp]; exact ty_expr hm hg p u ui hw.2.1 hs.2.1 hd.2.1
    · have he := ty_expr hm hg p false false hw.2.1 hs.2.1 hd.2.1
      rw [hp] at he
      exact ty_arith hm hg ixs _ hw.1.2 hw.2.2 hs.2.2 hd.2.2 he
  | .cast op v t, u, ui, hw, hs, hd => by
    rw [expr]
    show HasTy _ _ _ (boogieTy m t)
    split
    · rename_i hc
      have := ty_expr hm hg v u ui hw.2 hs.2 hd.2
      rw [hc.2.1] at this
      rw [hc.2.2]; exact this
    · exact ty_cast hm hg hw.1 hs.1.1 (sup_ty hs.2 hw.2) hs.1.2 (ty_expr hm hg v false false hw.2 hs.2 hd.2)
  | .bop op l r, _, _, hw, hs, hd => by
    rw [expr]
    show HasTy _ _ _ (boogieTy m l.ty)
    refine ty_bop hm hg hw.1.2 (sup_ty hs.2.1 hw.2.1) (ty_expr hm hg l _ _ hw.2.1 hs.2.1 hd.2.1) ?_
    rw [hw.1.1]; exact ty_expr hm hg r _ _ hw.2.2 hs.2.2 hd.2.2
  | .cmp p l r, _, _, hw, hs, hd => by
    rw [expr]
    refine ty_cmp hm hw.1.2 (sup_ty hs.2.1 hw.2.1) (ty_expr hm hg l _ _ hw.2.1 hs.2.1 hd.2.1) ?_
    rw [hw.1.1]; exact ty_expr hm hg r _ _ hw.2.2 hs.2.2 hd.2.2
  | .sel c a b, _, _, hw, hs, hd => by
    rw [expr]
    show HasTy _ _ _ (boogieTy m a.ty)
    refine ty_sel ?_ (ty_expr hm hg a _ _ hw.2.2.1 hs.2.2.1 hd.2.2.1) ?_
    · rw [← hw.1.1]; exact ty_expr hm hg c _ _ hw.2.1 hs.2.1 hd.2.1
    · rw [hw.1.2]; exact ty_expr hm hg b _ _ hw.2.2.2 hs.2.2.2 hd.2.2.2

theorem ty_arith (hm : m.Ok) (hg : Ext m Γ) : ∀ (is : Ixs) (e : Ex), is.Ints → is.All Val.wt → is.All Val.sup → is.All (Val.decl m Γ) →
    HasTy (sig m) Γ e (boogieTy m .ptr) → HasTy (sig m) Γ (arith m e is) (boogieTy m .ptr)
  | .nil, e, _, _, _, _, he => by rw [arith]; exact he
  | .field no off rest, e, hi, hw, hs, hd, he => by
    rw [arith]; exact ty_arith hm hg rest _ hi hw hs hd (ty_paConst hm he _ _)
  | .idx i n rest, e, hi, hw, hs, hd, he => by
    obtain ⟨⟨w, ht⟩, hi⟩ := hi
    have go : HasTy (sig m) Γ (arith m (pa m e (integerToPointer m (expr m i false false) i.ty.width) n) rest) (boogieTy m .ptr) := by
      refine ty_arith hm hg rest _ hi hw.2 hs.2 hd.2 (ty_pa hm he ?_ _)
      have h1 := ty_expr hm hg i false false hw.1 hs.1 hd.1
      have h2 := sup_ty hs.1 hw.1
      rw [ht, boogie_int] at h1
      rw [ht] at h2
      rw [ht]
      exact ty_i2p hm h2 h1
    cases i with
    | cint w v => rw [arith]; exact ty_arith hm hg rest _ hi hw.2 hs.2 hd.2 (ty_paConst hm he _ _)
    | _ => rw [arith]; · exact go
           · simp

end

theorem ty_good (hm : m.Ok) (hg : Ext m Γ) {v : Val} (h : v.Good m Γ) (u ui : Bool) : HasTy (sig m) Γ (expr m v u ui) (boogieTy m v.ty) :=
  ty_expr hm hg v u ui h.1 h.2.1 h.2.2

theorem sup_good {v : Val} (h : v.Good m Γ) : v.ty.Sup := sup_ty h.2.1 h.1

end Smack.Emit
