/-
Lemmas for C72: statements.
-/
import Verif.Emit.Lemmas

namespace Smack.Emit

open Smack.PreludeTy

variable {m : Mode} {Γ : String → Option TName}

/-! ### Types are unique -/

theorem ty_unique : ∀ {e : Ex} {T T' : Ty}, HasTy (sig m) Γ e T → HasTy (sig m) Γ e T' → T = T'
  | .var _, _, _, .var h1 h2, h' => by
    cases h' with
    | var h3 h4 => rw [h1] at h3; cases h3; rw [(resolves_inv h2).1, (resolves_inv h4).1]
  | .int _, _, _, .int _, h' => by cases h'; rfl
  | .negInt _, _, _, .negInt _, h' => by cases h'; rfl
  | .bv _ _, _, _, .bv _ _, h' => by cases h'; rfl
  | .bool _, _, _, .bool _, h' => by cases h'; rfl
  | .rm, _, _, .rm, h' => by cases h'; rfl
  | .fp _ _, _, _, .fp _ _, h' => by cases h'; rfl
  | .fn f args, T, T', h, h' => by
    obtain ⟨d, hd, hs, _, hT⟩ := ty_fn_inv h
    obtain ⟨d', hd', hs', _, hT'⟩ := ty_fn_inv h'
    have := distinct_eq decls_distinct hd hd' (by rw [hs, hs'])
    subst this
    rw [hT, hT']
  | .bin op l r, _, _, h, h' => by
    cases h <;> cases h' <;> first | rfl | (cases op <;> first | rfl | contradiction)
  | .not _, _, _, .not _, h' => by cases h'; rfl
  | .ite c a b, _, _, .ite _ ha _, h' => by cases h' with | ite _ ha' _ => exact ty_unique ha ha'
  | .sel _ _, _, _, .sel h _, h' => by cases h' with | sel h'' _ => cases ty_unique h h''; rfl
  | .upd _ _ _, _, _, .upd h _ _, h' => by cases h' with | upd h'' _ _ => exact ty_unique h h''
  | .extract _ _ _, _, _, .extract _ _ _, h' => by cases h'; rfl
  | .concat _ _, _, _, .concat h1 h2, h' => by
    cases h' with
    | concat h3 h4 => cases ty_unique h1 h3; cases ty_unique h2 h4; rfl

theorem tys_length : ∀ {es : List Ex} {Ts : List Ty}, HasTys (sig m) Γ es Ts → es.length = Ts.length
  | _, _, .nil => rfl
  | _, _, .cons _ h => by simp [tys_length h]

/-- The types of the arguments of a declared function. -/
theorem args_of_decl {f : Sym} {ps : List TName} {r : TName} (hd : Declares m f ps r) {args : List Ex} {T : Ty}
    (h : HasTy (sig m) Γ (.fn f args) T) : HasTys (sig m) Γ args (ps.map (den m)) ∧ T = den m r := by
  obtain ⟨d, hm, hs, ha, hT⟩ := ty_fn_inv h
  obtain ⟨d', hm', hs', rfl, rfl⟩ := hd
  have hdd := distinct_eq decls_distinct hm hm' (by rw [hs, hs'])
  rw [← hdd]
  exact ⟨by rw [List.map_map]; exact ha, hT⟩

/-- Boogie types of values are not maps. -/
theorem boogie_not_map (t : LTy) (D R : Ty) : boogieTy m t ≠ .map D R := by
  cases t with
  | int n => cases h : m.bp <;> simp [boogieTy, h]
  | ptr => cases h : m.bpp <;> simp [boogieTy, h]
  | agg => cases h : m.bpp <;> simp [boogieTy, h]
  | fp k => cases h : m.flt <;> cases k <;> simp [boogieTy, h]

/-! ### Loads and stores -/

/-- The element type of a memory variable. -/
def elemT (m : Mode) (r : Reg) : TName := match r.ty with | some t => tyName m t | none => intT m 8

theorem memType_sing {r : Reg} (hs : r.singleton = true) (h : ¬ (m.bp = true ∧ m.noInfer = true)) : memType m r = elemT m r := by
  have : (m.bp && m.noInfer) = false := by cases hb : m.bp <;> cases hn : m.noInfer <;> simp_all
  unfold memType elemT
  simp only [hs, this]
  cases r.ty <;> rfl

theorem memType_map {r : Reg} (h : r.singleton = false ∨ (m.bp = true ∧ m.noInfer = true)) : memType m r = .map (elemT m r) := by
  unfold memType elemT
  rcases h with h | ⟨h, h'⟩
  · cases r.ty <;> simp [h]
  · cases r.ty <;> simp [h, h']

/-- The function name of an access. -/
def accSym (m : Mode) (b : String) (r : Reg) (t : LTy) : Sym :=
  ⟨b, (if r.bytewise then [.bytes] else if unsafeFp m t r.ty then [.unsf] else []) ++ [.ty (tyName m t)]⟩

/-- The prelude declares the load and the store for an access that does not clash, on a map type that is that of the region. -/
theorem acc_decl {a : Acc} (hsup : a.ty.Sup) (hsc : a.ty.scalar) (hr : a.reg.Consistent m a.ty) :
    ∃ e, okT m e = true ∧ Declares m (accSym m "$load" a.reg a.ty) [.map e, .ref] (tyName m a.ty) ∧
      Declares m (accSym m "$store" a.reg a.ty) [.map e, .ref, tyName m a.ty] (.map e) ∧
      (den m e = den m (elemT m a.reg) ∨ (a.reg.ty = none ∧ m.bp = false ∧ m.bpp = true ∧ a.ty = .ptr ∧ e = .ref)) := by
  obtain ⟨mem, reg, t, p⟩ := a
  obtain ⟨ty, sing, byt⟩ := reg
  obtain ⟨hty, hby⟩ := hr
  dsimp only at *
  rcases hty with rfl | rfl
  · -- no type
    cases hb : m.bp with
    | true =>
      have : byt = true := hby.mpr ⟨hb, rfl⟩
      subst this
      cases t with
      | int n =>
        refine ⟨.bv 8, rfl, ?_, ?_, .inl ?_⟩
        · simpa [accSym, tyName, intT, hb] using load_bytes hsup hb
        · simpa [accSym, tyName, intT, hb] using store_bytes hsup hb
        · simp [elemT, intT, hb]
      | ptr =>
        refine ⟨.bv 8, rfl, ?_, ?_, .inl ?_⟩
        · simpa [accSym, tyName] using load_bytes_ref hb
        · simpa [accSym, tyName] using store_bytes_ref hb
        · simp [elemT, intT, hb]
      | agg => cases hsc
      | fp k =>
        refine ⟨intT m 8, okT_intT (by decide), ?_, ?_, .inl rfl⟩
        · simpa [accSym, tyName_fp, rawC, hb] using load_raw_fp (m := m) k
        · simpa [accSym, tyName_fp, rawC, hb] using store_raw_fp (m := m) k
    | false =>
      have : byt = false := by
        cases byt with
        | false => rfl
        | true => rw [(hby.mp rfl).1] at hb; cases hb
      subst this
      cases t with
      | int n =>
        refine ⟨intT m n, okT_intT hsup, ?_, ?_, .inl ?_⟩
        · simpa [accSym, tyName, unsafeFp] using load_int (m := m) hsup
        · simpa [accSym, tyName, unsafeFp] using store_int (m := m) hsup
        · simp [elemT, intT, hb, den]
      | ptr =>
        refine ⟨.ref, rfl, ?_, ?_, ?_⟩
        · simpa [accSym, tyName, unsafeFp] using load_ref (m := m)
        · simpa [accSym, tyName, unsafeFp] using store_ref (m := m)
        · cases hp : m.bpp with
          | true => exact .inr ⟨rfl, rfl, rfl, rfl, rfl⟩
          | false => exact .inl (by simp [elemT, intT, hb, den, hp])
      | agg => cases hsc
      | fp k =>
        refine ⟨intT m 8, okT_intT (by decide), ?_, ?_, .inl rfl⟩
        · simpa [accSym, tyName_fp, rawC, hb, unsafeFp] using load_raw_fp (m := m) k
        · simpa [accSym, tyName_fp, rawC, hb, unsafeFp] using store_raw_fp (m := m) k
  · -- the type of the access
    have : byt = false := by
      cases byt with
      | false => rfl
      | true => cases (hby.mp rfl).2
    subst this
    cases t with
    | int n =>
      refine ⟨intT m n, okT_intT hsup, ?_, ?_, .inl rfl⟩
      · simpa [accSym, tyName, unsafeFp] using load_int (m := m) hsup
      · simpa [accSym, tyName, unsafeFp] using store_int (m := m) hsup
    | ptr =>
      refine ⟨.ref, rfl, ?_, ?_, .inl rfl⟩
      · simpa [accSym, tyName, unsafeFp] using load_ref (m := m)
      · simpa [accSym, tyName, unsafeFp] using store_ref (m := m)
    | agg => cases hsc
    | fp k =>
      have hu : unsafeFp m (.fp k) (some (.fp k)) = false := by simp [unsafeFp]
      refine ⟨fpT m k, okT_fpT k, ?_, ?_, .inl (by rw [← tyName_fp]; rfl)⟩
      · simpa [accSym, tyName_fp, hu] using load_fp (m := m) k
      · simpa [accSym, tyName_fp, hu] using store_fp (m := m) k

theorem loadEx_eq (a : Acc) (p : Ex) (h : a.reg.singleton = false) :
    loadEx m a.mem a.reg a.ty p = .fn (accSym m "$load" a.reg a.ty) [.var a.mem, p] := by
  unfold loadEx; rw [if_neg (by simp [h])]; rfl

theorem storeEx_eq (a : Acc) (p x : Ex) (h : a.reg.singleton = false) :
    storeEx m a.mem a.reg a.ty p x = .fn (accSym m "$store" a.reg a.ty) [.var a.mem, p, x] := by
  unfold storeEx; rw [if_neg (by simp [h])]; rfl

theorem okT_elem {a : Acc} (hsup : a.ty.Sup) (hr : a.reg.Consistent m a.ty) : okT m (elemT m a.reg) = true := by
  unfold elemT
  rcases hr.ty with h | h <;> rw [h]
  · exact okT_intT (by decide)
  · exact okT_ty hsup

theorem not_clash {a : Acc} (h : ¬ a.Clash m) : (a.reg.singleton = true → ¬ (m.bp = true ∧ m.noInfer = true)) ∧
    (a.reg.singleton = true → a.reg.ty = none → boogieTy m a.ty = boogieTy m (.int 8)) ∧
    (a.reg.singleton = false → ¬ (a.reg.ty = none ∧ m.bp = false ∧ m.bpp = true ∧ a.ty = .ptr)) := by
  refine ⟨fun hs hb => h (.inl ⟨hs, hb.1, hb.2⟩), fun hs ht => ?_, fun hs hb => h (.inr (.inr ⟨hs, hb.1, hb.2.1, hb.2.2.1, hb.2.2.2⟩))⟩
  exact Decidable.byContradiction fun hn => h (.inr (.inl ⟨hs, ht, hn⟩))

/-- The type of the memory variable of a scalar region. -/
theorem sing_elem {a : Acc} (hr : a.reg.Consistent m a.ty) (hc : ¬ a.Clash m) (hs : a.reg.singleton = true) :
    memType m a.reg = elemT m a.reg ∧ den m (elemT m a.reg) = boogieTy m a.ty := by
  obtain ⟨h1, h2, _⟩ := not_clash hc
  refine ⟨memType_sing hs (h1 hs), ?_⟩
  unfold elemT
  rcases hr.ty with h | h
  · rw [h2 hs h, h]; exact (boogie_int 8).symm
  · rw [h]; exact den_ty _

theorem ty_load (hm : m.Ok) (hg : Ext m Γ) {a : Acc} (ha : a.Good m Γ) (hc : ¬ a.Clash m) :
    HasTy (sig m) Γ (loadEx m a.mem a.reg a.ty (expr m a.ptr false false)) (boogieTy m a.ty) := by
  cases hs : a.reg.singleton with
  | true =>
    obtain ⟨h1, h2⟩ := sing_elem ha.reg hc hs
    unfold loadEx; rw [if_pos hs, ← h2]
    exact .var (by rw [ha.mem, h1]) (resolves_den hm _ (okT_elem ha.ty ha.reg))
  | false =>
    rw [loadEx_eq a _ hs]
    obtain ⟨e, he, hl, _, hd⟩ := acc_decl (m := m) ha.ty ha.scalar ha.reg
    have hd : den m e = den m (elemT m a.reg) := hd.resolve_right fun h => (not_clash hc).2.2 hs ⟨h.1, h.2.1, h.2.2.1, h.2.2.2.1⟩
    rw [← den_ty]
    refine ty_fn hm hl (by simp [okT, he]) (okT_ty ha.ty) (tys2 ?_ ?_)
    · rw [den_map, hd, ← den_map]
      exact .var (by rw [ha.mem, memType_map (.inl hs)]) (resolves_den hm _ (okT_elem ha.ty ha.reg))
    · have := ty_good hm hg ha.ptr false false
      rw [ha.isPtr] at this; exact this

theorem ok_store (hm : m.Ok) (hg : Ext m Γ) {a : Acc} (ha : a.Good m Γ) (hc : ¬ a.Clash m) {x : Ex}
    (hx : HasTy (sig m) Γ x (boogieTy m a.ty)) :
    StOk (sig m) Γ (.assign a.mem (storeEx m a.mem a.reg a.ty (expr m a.ptr false false) x)) := by
  refine ⟨_, den m (memType m a.reg), ha.mem, ?_, ?_⟩
  · cases hs : a.reg.singleton with
    | true => rw [(sing_elem ha.reg hc hs).1]; exact resolves_den hm _ (okT_elem ha.ty ha.reg)
    | false => rw [memType_map (.inl hs)]; exact resolves_den hm _ (okT_elem ha.ty ha.reg)
  · cases hs : a.reg.singleton with
    | true =>
      obtain ⟨h1, h2⟩ := sing_elem ha.reg hc hs
      unfold storeEx; rw [if_pos hs, h1, h2]; exact hx
    | false =>
      rw [storeEx_eq a _ _ hs, memType_map (.inl hs)]
      obtain ⟨e, he, _, hst, hd⟩ := acc_decl (m := m) ha.ty ha.scalar ha.reg
      have hd : den m e = den m (elemT m a.reg) := hd.resolve_right fun h => (not_clash hc).2.2 hs ⟨h.1, h.2.1, h.2.2.1, h.2.2.2.1⟩
      rw [den_map, ← hd, ← den_map]
      refine ty_fn hm hst (by simp [okT, he, okT_ty ha.ty]) he (tys3 ?_ ?_ ?_)
      · rw [den_map, hd, ← den_map]
        exact .var (by rw [ha.mem, memType_map (.inl hs)]) (resolves_den hm _ (okT_elem ha.ty ha.reg))
      · have := ty_good hm hg ha.ptr false false
        rw [ha.isPtr] at this; exact this
      · rw [den_ty]; exact hx

/-- The type of the memory variable when the accesses clash. -/
theorem clash_var {a : Acc} (hc : a.Clash m) (hs : a.reg.singleton = true) :
    den m (memType m a.reg) ≠ boogieTy m a.ty := by
  rcases hc with ⟨_, hb, hn⟩ | ⟨_, ht, hne⟩ | ⟨h, _⟩
  · rw [memType_map (.inr ⟨hb, hn⟩), den_map]; exact fun h => boogie_not_map _ _ _ h.symm
  · by_cases hb : m.bp = true ∧ m.noInfer = true
    · rw [memType_map (.inr hb), den_map]; exact fun h => boogie_not_map _ _ _ h.symm
    · rw [memType_sing hs hb]
      unfold elemT; rw [ht]
      intro h; exact hne (by rw [← h, boogie_int])
  · rw [hs] at h; cases h

theorem clash_arg {a : Acc} (ha : a.Good m Γ) (hc : a.Clash m) (hs : a.reg.singleton = false) {e : TName}
    (hd : den m e = den m (elemT m a.reg) ∨ (a.reg.ty = none ∧ m.bp = false ∧ m.bpp = true ∧ a.ty = .ptr ∧ e = .ref))
    (he : Declares m (accSym m "$load" a.reg a.ty) [.map e, .ref] (tyName m a.ty)) :
    ¬ HasTy (sig m) Γ (.var a.mem) (den m (.map e)) := by
  have h3 : a.reg.ty = none ∧ m.bp = false ∧ m.bpp = true ∧ a.ty = .ptr := by
    rcases hc with ⟨h, _⟩ | ⟨h, _⟩ | ⟨_, h1, h2, h3, h4⟩
    · rw [hs] at h; cases h
    · rw [hs] at h; cases h
    · exact ⟨h1, h2, h3, h4⟩
  obtain ⟨h1, h2, h4, h5⟩ := h3
  have hby : a.reg.bytewise = false := by
    cases hb : a.reg.bytewise with
    | false => rfl
    | true => rw [(ha.reg.byte.mp hb).1] at h2; cases h2
  have hsym : accSym m "$load" a.reg a.ty = ⟨"$load", [.ty .ref]⟩ := by simp [accSym, hby, h5, unsafeFp, tyName]
  have hee : e = .ref := by
    obtain ⟨d, hd1, hs1, hp1, _⟩ := he
    obtain ⟨d', hd2, hs2, hp2, _⟩ := load_ref (m := m)
    have := distinct_eq decls_distinct hd1 hd2 (by rw [hs1, hs2, hsym])
    subst this
    rw [hp1] at hp2
    simpa using hp2
  subst hee
  intro hv
  cases hv with
  | var hx hr =>
    rw [ha.mem] at hx
    cases hx
    rw [memType_map (.inl hs)] at hr
    have := (resolves_inv hr).1
    rw [den_map, den_map, elemT, h1] at this
    simp [den, intT, h2, h4] at this

theorem load_bad {a : Acc} (ha : a.Good m Γ) (hc : a.Clash m) :
    ¬ HasTy (sig m) Γ (loadEx m a.mem a.reg a.ty (expr m a.ptr false false)) (boogieTy m a.ty) := by
  intro h
  cases hs : a.reg.singleton with
  | true =>
    unfold loadEx at h; rw [if_pos hs] at h
    cases h with
    | var hx hr =>
      rw [ha.mem] at hx; cases hx
      exact clash_var hc hs (resolves_inv hr).1.symm
  | false =>
    rw [loadEx_eq a _ hs] at h
    obtain ⟨e, he, hl, _, hd⟩ := acc_decl (m := m) ha.ty ha.scalar ha.reg
    obtain ⟨hargs, _⟩ := args_of_decl hl h
    cases hargs with
    | cons h1 _ => exact clash_arg ha hc hs hd hl h1

theorem store_bad {a : Acc} (ha : a.Good m Γ) (hc : a.Clash m) {x : Ex}
    (hx : HasTy (sig m) Γ x (boogieTy m a.ty)) :
    ¬ StOk (sig m) Γ (.assign a.mem (storeEx m a.mem a.reg a.ty (expr m a.ptr false false) x)) := by
  rintro ⟨t, T, h1, h2, h3⟩
  rw [ha.mem] at h1; cases h1
  cases hs : a.reg.singleton with
  | true =>
    unfold storeEx at h3; rw [if_pos hs] at h3
    exact clash_var hc hs (by rw [← (resolves_inv h2).1]; exact ty_unique h3 hx)
  | false =>
    rw [storeEx_eq a _ _ hs] at h3
    obtain ⟨e, he, hl, hst, hd⟩ := acc_decl (m := m) ha.ty ha.scalar ha.reg
    obtain ⟨hargs, _⟩ := args_of_decl hst h3
    cases hargs with
    | cons h1 _ => exact clash_arg ha hc hs hd hl h1

end Smack.Emit
