/-
Lemmas for C72: all instructions.
-/
import Verif.Emit.Instr

namespace Smack.Emit

open Smack.PreludeTy

variable {m : Mode} {Γ : String → Option TName}

theorem pos_width {n : Nat} (h : (LTy.int n).Sup) : 0 < n := by
  have : ∀ n ∈ widths, 0 < n := by decide
  exact this n h

theorem half_name (hf : m.flt = true) : tyName m (.fp .half) = .half := by simp [tyName, hf]

theorem ty_halfBits (hm : m.Ok) (hf : m.flt = true) {e : Ex} (he : HasTy (sig m) Γ e (boogieTy m (.int 16))) :
    HasTy (sig m) Γ (.fn ⟨"$bitcast", [.ty (tyName m (.int 16)), .ty .half]⟩ [e]) (boogieTy m (.fp .half)) := by
  have := ty_bitIf (Γ := Γ) hm .half he
  rw [half_name hf] at this
  exact this

theorem ty_fpext (hm : m.Ok) (hg : Ext m Γ) (hf : m.flt = true) {k : FK} (hk : 16 < fpBits k) {e : Ex}
    (he : HasTy (sig m) Γ e (boogieTy m (.fp .half))) :
    HasTy (sig m) Γ (.fn ⟨"$fpext", [.ty .half, .ty (tyName m (.fp k))]⟩ [.var "$rmode", e]) (boogieTy m (.fp k)) := by
  have := ty_cast (m := m) hm hg (op := .fpext) (s := .fp .half) (t := .fp k) (.fpext hk) trivial trivial trivial he
  simpa [castEx, hf, half_name hf, CastOp.name] using this

theorem ty_fptrunc (hm : m.Ok) (hg : Ext m Γ) (hf : m.flt = true) {k : FK} (hk : 16 < fpBits k) {e : Ex}
    (he : HasTy (sig m) Γ e (boogieTy m (.fp k))) :
    HasTy (sig m) Γ (.fn ⟨"$fptrunc", [.ty (tyName m (.fp k)), .ty .half]⟩ [.var "$rmode", e]) (boogieTy m (.fp .half)) := by
  have := ty_cast (m := m) hm hg (op := .fptrunc) (s := .fp k) (t := .fp .half) (.fptrunc hk) trivial trivial trivial he
  simpa [castEx, hf, half_name hf, CastOp.name] using this

theorem ok_inverse (hm : m.Ok) {s t : LTy} (h : s = t ∨ t = .int (match s with | .fp k => fpBits k | _ => 0) ∨ ∀ k, s ≠ .fp k) {e r : Ex}
    (he : HasTy (sig m) Γ e (boogieTy m s)) (hr : inverseAssume m s t e = some r) : HasTy (sig m) Γ r .bool := by
  unfold inverseAssume at hr
  split at hr
  · cases hr
  · cases s with
    | fp k =>
      cases t with
      | int n =>
        cases hr
        rcases h with h | h | h
        · cases h
        · cases h
          exact .eq rfl (ty_bitIf hm k (ty_bitFi hm k he)) he
        · exact absurd rfl (h k)
      | _ => cases hr
    | _ => cases hr

theorem good_ok (hm : m.Ok) (hg : Ext m Γ) (rb : Bool) {i : Instr} (h : i.Good m Γ) (hh : handled m rb i) (hc : ¬ i.Clash m) :
    ∀ s ∈ emit m i, StOk (sig m) Γ s := by
  have bool : Γ "$exn" = some .bool → StOk (sig m) Γ (.assign "$exn" (.bool false)) := fun h =>
    ⟨_, _, h, resolves_den hm .bool rfl, .bool _⟩
  cases i with
  | ret v =>
    cases v with
    | none =>
      intro s hs
      rw [emit] at hs
      rw [List.mem_singleton.mp hs]
      exact bool h
    | some v =>
      obtain ⟨h1, h2, h3⟩ := h
      intro s hs
      rw [emit] at hs
      simp only [List.mem_cons, List.not_mem_nil, or_false] at hs
      rcases hs with rfl | rfl
      · exact ok_assign hm h2 (sup_good h1) (ty_good hm hg h1 _ _)
      · exact bool h3
  | br c =>
    obtain ⟨h1, h2⟩ := h
    have hc := ty_good hm hg h1 false false
    rw [h2, boogie_int] at hc
    have he := HasTy.eq (op := .eq) rfl hc (ty_iLit (Γ := Γ) (m := m) 1 1)
    intro s hs
    rw [emit] at hs
    simp only [List.mem_cons, List.not_mem_nil, or_false] at hs
    rcases hs with rfl | rfl
    · exact he
    · exact HasTy.not he
  | bin x op nsw l r =>
    obtain ⟨h1, h2, h3, h4, h5⟩ := h
    intro s hs
    rw [emit] at hs
    rw [List.mem_singleton.mp hs]
    refine ok_assign hm h5 (sup_good h1) (ty_bop hm hg h4 (sup_good h1) (ty_good hm hg h1 _ _) ?_)
    rw [h3]; exact ty_good hm hg h2 _ _
  | fneg x v =>
    obtain ⟨h1, ⟨k, h2⟩, h3⟩ := h
    intro s hs
    rw [emit] at hs
    rw [List.mem_singleton.mp hs]
    refine ok_assign hm h3 (sup_good h1) ?_
    have := ty_good hm hg h1 false false
    rw [h2] at this ⊢
    exact ty_fpUn hm (by decide) k this
  | extract x v path =>
    obtain ⟨h1, t, h2, h3⟩ := h
    intro s hs
    rw [emit] at hs
    rw [List.mem_singleton.mp hs]
    obtain ⟨h4, h5⟩ := ty_extractEx hm path _ _ _ h2 (sup_good h1) (ty_good hm hg h1 false false)
    exact ok_assign hm h3 h5 h4
  | insert x v w path =>
    obtain ⟨h1, h2, h3, h4⟩ := h
    rw [emit]
    exact ok_insertSts hm (ty_good hm hg h2 _ _) path _ _ _ h3 (ty_reg hm h4 (sup_good h1)) (ty_good hm hg h1 _ _)
  | alloca x n v =>
    obtain ⟨h1, ⟨w, h2⟩, h3⟩ := h
    intro s hs
    rw [emit] at hs
    rw [List.mem_singleton.mp hs]
    have := ty_good hm hg h1 false false
    have hw := sup_good h1
    rw [h2] at hw
    rw [h2, boogie_int] at this
    refine ⟨_, den m .ref, h3, resolves_den hm .ref rfl, resolves_den hm .ref rfl, ty_refBin hm (by decide) (ty_pLit n) ?_⟩
    rw [h2]
    exact ty_i2p hm hw this
  | load x a =>
    intro s hs
    rw [emit] at hs
    rw [List.mem_singleton.mp hs]
    exact ok_assign hm h.2 h.1.ty (ty_load hm hg h.1 hc)
  | store a v =>
    obtain ⟨h1, h2, h3⟩ := h
    have hv := ty_good hm hg h2 false false
    rw [h3] at hv
    intro s hs
    rw [emit] at hs
    rcases List.mem_cons.mp hs with rfl | hs
    · exact ok_store hm hg h1 hc hv
    · split at hs
      · rename_i e he
        rw [List.mem_singleton.mp hs]
        unfold storeAssume at he
        split at he
        · rename_i k hk
          split at he
          · cases he
          · rw [hk] at hv
            exact ok_inverse hm (.inr (.inl (by show _ = LTy.int (fpBits k); rw [fpBits_eq]))) hv he
        · cases he
      · cases hs
  | cmpxchg x a c w =>
    obtain ⟨h1, h2, h3, h4, h5, _, h6⟩ := h
    have hc1 : ¬ a.Clash m := fun h => hc (.inl h)
    have hc2 : boogieTy m a.ty = boogieTy m .agg := Decidable.byContradiction fun h => hc (.inr h)
    have hl := ty_load hm hg h1 hc1
    have hv1 := ty_good hm hg h2 false false
    have hv2 := ty_good hm hg h3 false false
    rw [h4] at hv1
    rw [h5] at hv2
    intro s hs
    rw [emit] at hs
    simp only [List.mem_cons, List.not_mem_nil, or_false] at hs
    rcases hs with rfl | rfl
    · exact ok_assign hm (t := .agg) h6 trivial (hc2 ▸ hl)
    · exact ok_store hm hg h1 hc1 (.ite (.eq rfl hl hv1) hv2 hl)
  | rmw x op a v =>
    obtain ⟨h1, h2, h3, h4, h5⟩ := h
    have hl := ty_load hm hg h1 hc
    have hv := ty_good hm hg h2 false false
    rw [h3] at hv
    intro s hs
    simp only [emit, List.mem_cons, List.not_mem_nil, or_false] at hs
    rcases hs with rfl | rfl
    · exact ok_assign hm h5 h1.ty hl
    · refine ok_store hm hg h1 hc ?_
      cases op with
      | none => exact hv
      | some o =>
        obtain ⟨n, hn⟩ := h4 (by simp)
        have hsup := h1.ty
        rw [hn] at hsup
        dsimp only
        rw [h3, hn]
        rw [hn, boogie_int] at hl hv
        rw [boogie_int]
        exact ty_bin hm (by cases o <;> decide) hsup hl hv
  | gep x p ixs =>
    obtain ⟨h1, h2, h3, h4⟩ := h
    intro s hs
    rw [emit] at hs
    rw [List.mem_singleton.mp hs]
    have := ty_good hm hg h1 false false
    rw [h2] at this
    exact ok_assign hm h4 trivial (ty_arith hm hg ixs _ h3.1 h3.2.1 h3.2.2.1 h3.2.2.2 this)
  | cast x op v t =>
    obtain ⟨h1, h2, h3, h4, h5⟩ := h
    have hv := ty_good hm hg h1 false false
    intro s hs
    rw [emit] at hs
    rcases List.mem_cons.mp hs with rfl | hs2
    · exact ok_assign hm h5 h4 (ty_cast hm hg h2 h3 (sup_good h1) h4 hv)
    · split at hs2
      · rename_i ho
        subst ho
        cases he : inverseAssume m v.ty t (expr m v false false) with
        | some e =>
          rw [he] at hs2
          rw [List.mem_singleton.mp hs2]
          refine ok_inverse hm ?_ hv he
          generalize v.ty = s at h2
          cases h2 with
          | bitPtr => exact .inl rfl
          | bitSame => exact .inl rfl
          | bitFi => exact .inr (.inl rfl)
          | bitIf => exact .inr (.inr fun k hk => by cases hk)
        | none => rw [he] at hs2; cases hs2
      · cases hs2
  | cmp x p l r =>
    obtain ⟨h1, h2, h3, h4, h5⟩ := h
    intro s hs
    rw [emit] at hs
    rw [List.mem_singleton.mp hs]
    refine ok_assign hm (t := .int 1) h5 (show 1 ∈ widths by decide) (ty_cmp hm h4 (sup_good h1) (ty_good hm hg h1 _ _) ?_)
    rw [h3]; exact ty_good hm hg h2 _ _
  | sel x c a b =>
    obtain ⟨h1, h2, h3, h4, h5, h6⟩ := h
    intro s hs
    rw [emit] at hs
    rw [List.mem_singleton.mp hs]
    refine ok_assign hm h6 (sup_good h2) (ty_sel ?_ (ty_good hm hg h2 _ _) ?_)
    · rw [← h4]; exact ty_good hm hg h1 _ _
    · rw [h5]; exact ty_good hm hg h3 _ _
  | llvmAssume v =>
    obtain ⟨h1, h2⟩ := h
    intro s hs
    rw [emit] at hs
    rw [List.mem_singleton.mp hs]
    have hv := ty_good hm hg h1 false false
    rw [h2] at hv
    refine HasTy.eq rfl hv ?_
    cases hb : m.bp <;> simp only [boogieTy, hb, if_true]
    · exact .int _
    · exact .bv _ _
  | expect x v =>
    intro s hs
    rw [emit] at hs
    rw [List.mem_singleton.mp hs]
    exact ok_assign hm h.2 (sup_good h.1) (ty_good hm hg h.1 _ _)
  | fp16up x v t =>
    obtain ⟨h1, h2, ⟨k, rfl, hk⟩, h3⟩ := h
    intro s hs
    rw [emit] at hs
    rw [List.mem_singleton.mp hs]
    have hv := ty_good hm hg h1 false false
    rw [h2] at hv
    refine ok_assign hm h3 trivial (ty_fpext hm hg hh.1 hk ?_)
    rw [h2]
    exact ty_halfBits hm hh.1 hv
  | fp16down x v =>
    obtain ⟨h1, ⟨k, h2, hk⟩, h3⟩ := h
    intro s hs
    rw [emit] at hs
    rw [List.mem_singleton.mp hs]
    have hv := ty_good hm hg h1 false false
    rw [h2] at hv
    refine HasTy.eq rfl (T := boogieTy m (.fp .half)) ?_ (ty_halfBits hm hh.1 (ty_reg hm h3 (show 16 ∈ widths by decide)))
    rw [h2]
    exact ty_fptrunc hm hg hh.1 hk hv
  | fma x a b c => exact absurd hh hc
  | unFp x op v =>
    obtain ⟨h1, ⟨k, h2⟩, h3⟩ := h
    intro s hs
    rw [emit] at hs
    rw [List.mem_singleton.mp hs]
    cases op with
    | sqrt => exact absurd hh hc
    | fabs =>
      refine ok_assign hm h3 (sup_good h1) ?_
      have := ty_good hm hg h1 false false
      rw [h2] at this ⊢
      exact ty_fpUn hm (by decide) k this
  | minmax x isMax a b =>
    obtain ⟨h1, h2, ⟨k, h3⟩, h4, h5⟩ := h
    intro s hs
    rw [emit] at hs
    rw [List.mem_singleton.mp hs]
    refine ok_assign hm h5 (sup_good h1) ?_
    have ha := ty_good hm hg h1 false false
    have hb := ty_good hm hg h2 false false
    rw [← h4] at hb
    rw [h3] at ha hb ⊢
    exact ty_fpMinMax hm isMax k ha hb
  | round x op v =>
    obtain ⟨h1, ⟨k, h2⟩, h3⟩ := h
    intro s hs
    rw [emit] at hs
    rw [List.mem_singleton.mp hs]
    refine ok_assign hm h3 (sup_good h1) ?_
    have := ty_good hm hg h1 false false
    rw [h2] at this ⊢
    refine ty_round hm hh k ?_ this
    cases op <;> first | exact .rm | exact ty_rmode hm hg hh
  | bitreverse x v =>
    obtain ⟨h1, ⟨n, h2⟩, h3⟩ := h
    intro s hs
    rw [emit] at hs
    rw [List.mem_singleton.mp hs]
    refine ok_assign hm h3 (sup_good h1) ?_
    have hv := ty_good hm hg h1 false false
    have hsup := sup_good h1
    rw [h2] at hv hsup ⊢
    have hb : m.bp = true := hh
    simp only [boogieTy, hb, if_true, LTy.width] at hv ⊢
    exact ty_reverse (pos_width hsup) hv
  | bswap x v =>
    obtain ⟨h1, ⟨n, h2, h16⟩, h3⟩ := h
    intro s hs
    rw [emit] at hs
    rw [List.mem_singleton.mp hs]
    refine ok_assign hm h3 (sup_good h1) ?_
    have hv := ty_good hm hg h1 false false
    have hsup := sup_good h1
    rw [h2] at hv hsup ⊢
    have hb : m.bp = true := hh
    simp only [boogieTy, hb, if_true, LTy.width] at hv ⊢
    exact ty_swap (pos_width hsup) h16 hv
  | ctlz x v z =>
    obtain ⟨h1, h2, ⟨n, h3⟩, h4, h5⟩ := h
    have hv := ty_good hm hg h1 false false
    have hz := ty_good hm hg h2 false false
    have hsup := sup_good h1
    have hx := ty_reg hm h5 hsup
    have hb : m.bp = true := hh
    rw [h4] at hz
    rw [h3] at hv hx
    simp only [boogieTy, hb, if_true] at hv hx hz
    intro s hs
    rw [emit] at hs
    simp only [List.mem_cons, List.not_mem_nil, or_false] at hs
    rcases hs with rfl | rfl
    · exact ⟨_, _, h5, resolves_ty hm hsup⟩
    · refine ok_assign hm h5 hsup ?_
      rw [h3]
      simp only [boogieTy, hb, if_true, LTy.width]
      exact ty_zeroUndef hx hv hz (ty_ctlz hv _ (Nat.le_refl _))
  | cttz x v z =>
    obtain ⟨h1, h2, ⟨n, h3⟩, h4, h5⟩ := h
    have hv := ty_good hm hg h1 false false
    have hz := ty_good hm hg h2 false false
    have hsup := sup_good h1
    have hx := ty_reg hm h5 hsup
    have hb : m.bp = true := hh
    rw [h4] at hz
    rw [h3] at hv hx
    simp only [boogieTy, hb, if_true] at hv hx hz
    intro s hs
    rw [emit] at hs
    simp only [List.mem_cons, List.not_mem_nil, or_false] at hs
    rcases hs with rfl | rfl
    · exact ⟨_, _, h5, resolves_ty hm hsup⟩
    · refine ok_assign hm h5 hsup ?_
      rw [h3]
      simp only [boogieTy, hb, if_true, LTy.width]
      exact ty_zeroUndef hx hv hz (ty_cttz hv _ (Nat.le_refl _))
  | ctpop x v =>
    obtain ⟨h1, ⟨n, h2⟩, h3⟩ := h
    intro s hs
    rw [emit] at hs
    rw [List.mem_singleton.mp hs]
    refine ok_assign hm h3 (sup_good h1) ?_
    have hv := ty_good hm hg h1 false false
    have hsup := sup_good h1
    rw [h2] at hv hsup ⊢
    cases hb : m.bp with
    | true =>
      have h1' : 1 < n := by
        have := pos_width hsup
        have : n ≠ 1 := fun e => hc ⟨hb, by rw [h2, e]⟩
        omega
      simp only [boogieTy, hb, if_true, LTy.width] at hv ⊢
      exact ty_popBv hm hb hsup h1' hv _ (Nat.le_refl _)
    | false =>
      have hi : boogieTy m (.int n) = .int := by simp [boogieTy, hb]
      rw [hi] at hv ⊢
      rw [if_neg (by decide)]
      exact ty_popInt hm hb hsup hv _

theorem eq_inv {l r : Ex} {T U : Ty} (h : HasTy (sig m) Γ (.bin .eq l r) U) (hr : HasTy (sig m) Γ r T) : HasTy (sig m) Γ l T := by
  cases h with
  | eq _ h1 h2 => cases ty_unique h2 hr; exact h1
  | rel h => cases h
  | arith h => cases h
  | conn h => cases h

/-- If the store of `cmpxchg` is accepted, the load in it has the type of the access. -/
theorem xchg_inv {a : Acc} (ha : a.Good m Γ) {l c v : Ex} (hc : HasTy (sig m) Γ c (boogieTy m a.ty))
    (h : StOk (sig m) Γ (.assign a.mem (storeEx m a.mem a.reg a.ty (expr m a.ptr false false) (.ite (.bin .eq l c) v l)))) :
    HasTy (sig m) Γ l (boogieTy m a.ty) := by
  obtain ⟨_, _, _, _, h⟩ := h
  cases hs : a.reg.singleton with
  | true =>
    unfold storeEx at h; rw [if_pos hs] at h
    cases h with
    | ite h1 _ _ => exact eq_inv h1 hc
  | false =>
    rw [storeEx_eq a _ _ hs] at h
    obtain ⟨e, _, _, hst, _⟩ := acc_decl (m := m) ha.ty ha.scalar ha.reg
    obtain ⟨hargs, _⟩ := args_of_decl hst h
    cases hargs with
    | cons _ h2 =>
      cases h2 with
      | cons _ h3 =>
        cases h3 with
        | cons h4 _ =>
          cases h4 with
          | ite h1 _ _ => exact eq_inv h1 hc

theorem clash_bad (hm : m.Ok) (hg : Ext m Γ) {i : Instr} (h : i.Good m Γ) (hc : i.Clash m) :
    ∃ s ∈ emit m i, ¬ StOk (sig m) Γ s := by
  cases i with
  | load x a =>
    exact ⟨_, .head _, fun hs => load_bad h.1 hc (ty_of_assign h.2 hs)⟩
  | store a v =>
    refine ⟨_, .head _, store_bad h.1 hc ?_⟩
    have := ty_good hm hg h.2.1 false false
    rw [h.2.2] at this; exact this
  | cmpxchg x a c w =>
    by_cases hcl : a.Clash m
    · refine ⟨_, .tail _ (.head _), fun hs => load_bad h.1 hcl ?_⟩
      have hv := ty_good hm hg h.2.1 false false
      rw [h.2.2.2.1] at hv
      exact xchg_inv h.1 hv hs
    · refine ⟨_, .head _, fun hs => ?_⟩
      have hs := ty_of_assign (t := .agg) h.2.2.2.2.2.2 hs
      have hl := ty_load hm hg h.1 hcl
      exact (hc.resolve_left hcl) (ty_unique hl hs)
  | rmw x op a v =>
    exact ⟨_, .head _, fun hs => load_bad h.1 hc (ty_of_assign h.2.2.2.2 hs)⟩
  | fma x a b c =>
    obtain ⟨_, _, _, ⟨k, hk⟩, _, _, h7⟩ := h
    refine ⟨_, .head _, fun hs => ?_⟩
    obtain ⟨_, _, _, _, hs⟩ := hs
    rw [hk] at hs
    exact fma_bad hc k hs
  | unFp x op v =>
    obtain ⟨_, ⟨k, hk⟩, _⟩ := h
    cases op with
    | fabs => cases hc
    | sqrt =>
      refine ⟨_, .head _, fun hs => ?_⟩
      obtain ⟨_, _, _, _, hs⟩ := hs
      rw [hk] at hs
      exact sqrt_bad hc k hs
  | ctpop x v =>
    obtain ⟨hb, hv⟩ := hc
    refine ⟨_, .head _, fun hs => ?_⟩
    obtain ⟨_, _, _, _, hs⟩ := hs
    rw [if_pos hb, hv] at hs
    obtain ⟨_, _, _, hargs, _⟩ := ty_fn_inv hs
    generalize List.map _ _ = Ts at hargs
    cases hargs with
    | cons h1 _ =>
      rcases zext_same (m := m) (Γ := Γ) (w := 1) with h | h
      · exact h h1
      · rw [h] at hb; cases hb
  | ret => cases hc
  | br => cases hc
  | bin => cases hc
  | fneg => cases hc
  | extract => cases hc
  | insert => cases hc
  | alloca => cases hc
  | gep => cases hc
  | cast => cases hc
  | cmp => cases hc
  | sel => cases hc
  | llvmAssume => cases hc
  | expect => cases hc
  | fp16up => cases hc
  | fp16down => cases hc
  | minmax => cases hc
  | round => cases hc
  | bitreverse => cases hc
  | bswap => cases hc
  | ctlz => cases hc
  | cttz => cases hc

end Smack.Emit
