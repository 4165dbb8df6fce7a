import Verif.PreludeTy.Typing
import Verif.PreludeTy.Names

namespace Smack.PreludeTy

variable {m : Mode} {Γ : String → Option TName}

/-! ### The load of 33 bits -/

theorem mem33 (hb : m.bp = true) : rawLoad true (.bv 33) (loadBytes m 3) ∈ decls m := by
  refine mem_decls (g := memDecls m) (by unfold groups; pos) ?_
  refine List.mem_flatMap.mpr ⟨33, by decide, ?_⟩
  simp [memFuns, hb]

theorem ty_mapSel_inv {k : Nat} {T : Ty} (hs : Γ "M" = some (.map (.bv 8))) (h : HasTy (sig m) Γ (mapSel m k) T) : T = .bv 8 := by
  unfold mapSel at h
  cases h with
  | sel hM _ =>
    cases hM with
    | var hx hr =>
      rw [hs] at hx; cases hx
      have := (resolves_inv hr).1
      simp only [den, Ty.map.injEq] at this
      exact this.2

theorem ty_loadBytes_inv (hs : Γ "M" = some (.map (.bv 8))) : ∀ {k : Nat} {T : Ty}, HasTy (sig m) Γ (loadBytes m k) T →
    T = .bv (8 * (k + 1))
  | 0, _, h => ty_mapSel_inv hs h
  | k + 1, _, h => by
    unfold loadBytes at h
    cases h with
    | concat h1 h2 =>
      have e1 := ty_mapSel_inv hs h1
      have e2 := ty_loadBytes_inv hs h2
      cases e1; cases e2
      congr 1; omega

theorem load33_bad (hb : m.bp = true) {d : Fun} (hd : d ∈ decls m) (hs : d.sym = ⟨"$load", [.bytes, .ty (.bv 33)]⟩) :
    ¬ FunOk (sig m) Γ d := by
  rw [distinct_eq decls_distinct hd (mem33 hb) hs]
  intro ⟨_, _, T, hT, hbody⟩
  have e1 := (resolves_inv hT).1
  have e2 := ty_loadBytes_inv (m := m) rfl (hbody _ rfl)
  rw [e1] at e2
  simp [rawLoad, den] at e2

/-! ### The wrapped comparisons of bit-vectors -/

theorem memEq (hw : m.wrap = true) (hp : m.bpp = true) {n : Nat} (hn : n ∈ sizes) {b : String} (hb : b ∈ ["$eq", "$ne"]) :
    ∃ op l r,
      ({ sym := ⟨b, [.ty (.bv n), .ty .bool]⟩, params := vars "i" 2 (.bv n), ret := .bool,
         body := some (.bin op (.fn ⟨"$tou", [.ty (.i n)]⟩ [l]) r) } : Fun) ∈ decls m ∧ l = v "i1" := by
  have key : ∀ {o : PredOp} {op : Bin}, o ∈ predTable m → o.bvOp = .inlined (intPred m op false) →
      ({ sym := ⟨"$" ++ o.name, [.ty (.bv n), .ty .bool]⟩, params := vars "i" 2 (.bv n), ret := .bool,
         body := some (intPred m op false n) } : Fun) ∈ decls m := by
    intro o op ho hbv
    refine mem_decls (g := predDecls m) (by unfold groups; pos) ?_
    refine List.mem_flatMap.mpr ⟨o, ho, List.mem_flatMap.mpr ⟨n, hn, ?_⟩⟩
    unfold PredOp.funs
    refine List.mem_append_right _ ?_
    rw [if_pos (by simp [hp])]
    refine List.mem_append_left _ ?_
    rw [hbv]; exact List.mem_singleton.mpr rfl
  have wr : ∀ op, intPred m op false n = .bin op (.fn ⟨"$tou", [.ty (.i n)]⟩ [v "i1"]) (.fn ⟨"$tou", [.ty (.i n)]⟩ [v "i2"]) := by
    intro op; simp [intPred, wrapped, hw]
  simp only [List.mem_cons, List.not_mem_nil, or_false] at hb
  rcases hb with rfl | rfl
  · have := key (o := ⟨"eq", intPred m .eq false, .inlined (intPred m .eq false)⟩) (op := .eq) (by unfold predTable; pos) rfl
    rw [wr] at this
    exact ⟨_, _, _, this, rfl⟩
  · have := key (o := ⟨"ne", intPred m .neq false, .inlined (intPred m .neq false)⟩) (op := .neq) (by unfold predTable; pos) rfl
    rw [wr] at this
    exact ⟨_, _, _, this, rfl⟩

theorem tou_inv (h : m.Ok) (hw : m.wrap = true) {n : Nat} (hn : n ∈ sizes) {e : Ex} {T : Ty}
    (ht : HasTy (sig m) Γ (.fn ⟨"$tou", [.ty (.i n)]⟩ [e]) T) : HasTy (sig m) Γ e .int := by
  obtain ⟨d, hd, hs, ha, _⟩ := ty_fn_inv ht
  obtain ⟨d', hd', hs', hp', _⟩ := wrap_decl hw (h.wrap hw) true hn
  have e : d = d' := distinct_eq decls_distinct hd hd' (by rw [hs, hs']; rfl)
  subst e
  have : (d.params.map fun p => den m p.2) = [.int] := by
    have := congrArg (List.map (den m)) hp'
    rw [List.map_map] at this
    exact this
  rw [this] at ha
  cases ha with
  | cons h1 _ => exact h1

theorem wrappedEq_bad (h : m.Ok) {d : Fun} (hd : d ∈ decls m) (hs : BadPred m d.sym) : ¬ FunOk (sig m) Γ d := by
  obtain ⟨hw, hp, n, hn, hb, hi⟩ := hs
  obtain ⟨op, l, r, hd', rfl⟩ := memEq hw hp hn hb
  have e := distinct_eq decls_distinct hd hd' (by
    obtain ⟨⟨b, i⟩, ps, rt, bd, at'⟩ := d
    simp only at hi ⊢
    rw [hi])
  rw [e]
  intro ⟨_, _, T, hT, hbody⟩
  have hb := hbody _ rfl
  have key : ∀ {A : Ty}, ¬ HasTy (sig m) (scope (vars "i" 2 (.bv n)) Γ) (.fn ⟨"$tou", [.ty (.i n)]⟩ [v "i1"]) A := by
    intro A hA
    have := tou_inv h hw hn hA
    cases this with
    | var hx hr =>
      have hx' : some (TName.bv n) = some _ := (scope_i1 (Γ := Γ) (.bv n)).symm.trans hx
      cases hx'
      exact nomatch (resolves_inv hr).1
  dsimp only at hb
  cases hb with
  | eq _ h1 _ => exact key h1
  | rel _ h1 _ => exact key h1
  | arith _ h1 _ => exact key h1
  | conn _ h1 _ => exact key h1

end Smack.PreludeTy
