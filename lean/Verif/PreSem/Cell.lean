/-
Pointers and floating-point values in memory.
-/
import Verif.PreSem.Exec
import Verif.PreSem.Exist

namespace Smack.PreSem
open PreludeTy FloatLit

variable {U : Type} {m : Mode} {A : Arith U} {I : Interp U} {gl ex : Int} {ρ ρ' : String → Val U}

theorem steps_append {ss ts : List Emit.St} : ∀ {σ : String → Val U}, Steps I σ (ss ++ ts) ρ' ↔ ∃ τ, Steps I σ ss τ ∧ Steps I τ ts ρ' := by
  induction ss with
  | nil => intro σ; exact ⟨fun h => ⟨σ, .nil, h⟩, fun ⟨τ, h1, h2⟩ => by cases h1; exact h2⟩
  | cons s ss ih =>
    intro σ
    constructor
    · intro h
      cases h with
      | cons h1 h2 =>
        obtain ⟨τ, h3, h4⟩ := ih.mp h2
        exact ⟨τ, .cons h1 h3, h4⟩
    · rintro ⟨τ, h1, h2⟩
      cases h1 with
      | cons h1 h3 => exact .cons h1 (ih.mpr ⟨τ, h3, h2⟩)


/-! ### Pointers -/

theorem p2i (D : Defines A m I) (h : m.Ok) (hb : m.bp = true) (z : Int) :
    I.fn ⟨"$p2i", [.ty .ref, .ty (.bv m.ptr)]⟩ [ptrV m z] = .bv m.ptr (BitVec.ofInt m.ptr z) := by
  have hp : m.ptr ∈ [8, 16, 32, 64] := by rcases h.ptr with h | h <;> rw [h] <;> decide
  have hd : ({ sym := ⟨"$p2i", [.ty .ref, .ty (intT m m.ptr)]⟩, params := [("p", .ref)], ret := intT m m.ptr, body := some (pointerToInteger m (v "p") m.ptr) } : Fun) ∈ ptrNumDecls m := List.mem_flatMap.mpr ⟨m.ptr, hp, by pos⟩
  have e := app_body D (mem_decls (g := ptrNumDecls m) (by unfold groups; pos) hd) (ptrNum_ok h hd) rfl (args := [ptrV m z]) (all1 (ptrV_is z))
  simp only [intT, hb, if_true] at e
  rw [e]
  unfold pointerToInteger
  simp only [Nat.lt_irrefl, if_false, hb]
  cases hpp : m.bpp
  · simp only [bitConversion, ptrV, hpp, Bool.false_eq_true, if_false, eval, evals, PreludeTy.v]
    have hd : ({ sym := ⟨"$int2bv", [.num m.ptr]⟩, params := [("i", .i m.ptr)], ret := .bv m.ptr, attr := some ⟨"int2bv", [m.ptr]⟩ } : Fun) ∈ bvIntDecls m := by
      unfold bvIntDecls; rw [if_pos (by simp [hb, hpp])]; pos
    have hm := mem_decls (g := bvIntDecls m) (by unfold groups; pos) hd
    have ok : FunOk (sig m) (globals m) _ := decls_ok h hm (by rintro ⟨_, e⟩; simp at e) (by rintro ⟨_, _, n, _, _, e⟩; simp at e)
    exact app_attr D hm ok rfl (args := [.int z]) (all1 (intIs z))
  · simp only [bitConversion, ptrV, hpp, if_true, eval, PreludeTy.v]
    rfl

theorem i2p_fn (D : Defines A m I) (h : m.Ok) (hb : m.bp = true) (a : BitVec m.ptr) :
    I.fn ⟨"$i2p", [.ty (.bv m.ptr), .ty .ref]⟩ [.bv m.ptr a] = ptrV m a.toInt := by
  have hp : m.ptr ∈ [8, 16, 32, 64] := by rcases h.ptr with h | h <;> rw [h] <;> decide
  have hd : ({ sym := ⟨"$i2p", [.ty (intT m m.ptr), .ty .ref]⟩, params := [("i", intT m m.ptr)], ret := .ref, body := some (integerToPointer m (v "i") m.ptr) } : Fun) ∈ ptrNumDecls m := List.mem_flatMap.mpr ⟨m.ptr, hp, by pos⟩
  have e := app_body D (mem_decls (g := ptrNumDecls m) (by unfold groups; pos) hd) (ptrNum_ok h hd) rfl (args := [.bv m.ptr a])
    (all1 (by simp only [intT, hb, if_true]; exact bvIs a))
  simp only [intT, hb, if_true] at e
  rw [e]
  exact i2p D h hb h.ptr_mem a rfl (.inl rfl)

theorem ptr8 (h : m.Ok) : m.ptr % 8 = 0 ∨ m.ptr < 8 := by rcases h.ptr with h | h <;> rw [h] <;> decide

theorem ptr_nlt (h : m.Ok) : ¬ m.ptr < 8 := by rcases h.ptr with h | h <;> rw [h] <;> decide

theorem load_ptr (D : Defines A m I) (h : m.Ok) (hb : m.bp = true) {f : Sc U → Val U} (hf : ∀ z, ∃ b, f (key m z) = .bv 8 b) (z : Int) :
    ∃ a : BitVec m.ptr, I.fn ⟨"$load", [.bytes, .ty .ref]⟩ [.map f, ptrV m z] = ptrV m a.toInt ∧
      ∀ i : Nat, i < m.ptr / 8 → f (key m (z + i)) = .bv 8 (a.extractLsb' (8 * i) 8) := by
  obtain ⟨a, ha, hl⟩ := load_bytes D h hb h.ptr_mem (ptr8 h) hf z
  rw [if_neg (ptr_nlt h)] at hl
  refine ⟨a, ?_, hl⟩
  have hd : rawLoad true .ref (.fn ⟨"$i2p", [.ty (.bv m.ptr), .ty .ref]⟩ [.fn ⟨"$load", [.bytes, .ty (.bv m.ptr)]⟩ [v "M", v "p"]]) ∈ ptrMemDecls m := by
    unfold ptrMemDecls; rw [if_pos hb]; pos
  refine (app_body D (mem_decls (g := ptrMemDecls m) (by unfold groups; pos) hd) (ptrMem_ok h hd) rfl (args := [.map f, ptrV m z])
    (all2 (map_is hf) (ptrV_is z))).trans ?_
  simp only [eval, evals, PreludeTy.v]
  refine Eq.trans ?_ (i2p_fn D h hb a)
  rw [← ha]; rfl

theorem store_ptr (D : Defines A m I) (h : m.Ok) (hb : m.bp = true) {f : Sc U → Val U} (hf : ∀ z, ∃ b, f (key m z) = .bv 8 b) (z y : Int) :
    I.fn ⟨"$store", [.bytes, .ty .ref]⟩ [.map f, ptrV m z, ptrV m y] =
      I.fn ⟨"$store", [.bytes, .ty (.bv m.ptr)]⟩ [.map f, ptrV m z, .bv m.ptr (BitVec.ofInt m.ptr y)] := by
  have hd : rawStore true "p1" .ref (.fn ⟨"$store", [.bytes, .ty (.bv m.ptr)]⟩
        [v "M", v "p", .fn ⟨"$p2i", [.ty .ref, .ty (.bv m.ptr)]⟩ [v "p1"]]) ∈ ptrMemDecls m := by
    unfold ptrMemDecls; rw [if_pos hb]; pos
  refine (app_body D (mem_decls (g := ptrMemDecls m) (by unfold groups; pos) hd) (ptrMem_ok h hd) rfl (args := [.map f, ptrV m z, ptrV m y])
    (all3 (map_is hf) (ptrV_is z) (ptrV_is y))).trans ?_
  simp only [eval, evals, PreludeTy.v]
  rw [← p2i D h hb y]; rfl

/-! ### Floating point -/

theorem fk_width (k : FK) : k.width ∈ sizes ∧ k.width % 8 = 0 ∧ ¬ k.width < 8 ∧ k.width = k.layout.1 + k.layout.2 := by cases k <;> decide

theorem den_fk (k : FK) : den m k.name = .fp k.layout.2 k.layout.1 := by cases k <;> rfl

theorem fpT_flt (hf : m.flt = true) (k : FK) : fpT m k = k.name := by simp [fpT, hf]

theorem tyName_fp (k : FK) : Emit.tyName m (.fp k) = fpT m k := by
  cases hf : m.flt <;> cases k <;> simp [Emit.tyName, fpT, hf, FK.name]

def castTo : FpIntConv := ⟨"$bitcast", true, true, fun _ _ => none⟩
def castOf : FpIntConv := ⟨"$bitcast", false, true, fun k _ => some ⟨"to_fp", [k.layout.1, k.layout.2]⟩⟩

theorem castTo_decl (k : FK) : ({ sym := ⟨"$bitcast", [.ty (fpT m k), .ty (intT m k.width)]⟩, params := [("f", fpT m k)], ret := intT m k.width } : Fun) ∈ decls m := by
  have := mem_fpInt (m := m) (c := castTo) (by unfold fpIntTable castTo; pos) k (fk_width k).1 (fun _ => .inl rfl)
  simpa [castTo, FpIntConv.decl, vars1] using this

theorem castOf_decl (k : FK) : ({ sym := ⟨"$bitcast", [.ty (intT m k.width), .ty (fpT m k)]⟩, params := [("i", intT m k.width)], ret := fpT m k, attr := if m.flt && m.bp then some ⟨"to_fp", [k.layout.1, k.layout.2]⟩ else none } : Fun) ∈ decls m := by
  have := mem_fpInt (m := m) (c := castOf) (by unfold fpIntTable castOf; pos) k (fk_width k).1 (fun _ => .inl rfl)
  simpa [castOf, FpIntConv.decl, vars1] using this

theorem not_bad_cast (h : m.Ok) {d : Fun} (hd : d ∈ decls m) (hs : d.sym.base = "$bitcast") : FunOk (sig m) (globals m) d :=
  decls_ok h hd (fun ⟨_, e⟩ => by rw [e] at hs; exact absurd hs (by decide)) fun ⟨_, _, _, _, e, _⟩ => by rw [hs] at e; exact absurd e (by decide)

/-- The value of a bit pattern. -/
def fpV (k : FK) (a : BitVec k.width) : Val U := .fp k.layout.2 k.layout.1 (ieee k.layout.1 k.layout.2 (a.setWidth _))

theorem cast_of (D : Defines A m I) (h : m.Ok) (hb : m.bp = true) (hf : m.flt = true) (k : FK) (a : BitVec k.width) :
    I.fn ⟨"$bitcast", [.ty (.bv k.width), .ty k.name]⟩ [.bv k.width a] = fpV k a := by
  have hd := castOf_decl (m := m) k
  have ok := not_bad_cast h hd rfl
  simp only [hb, hf, Bool.and_self, if_true, intT, fpT] at hd ok
  exact app_attr D hd ok rfl (args := [.bv k.width a]) (all1 (bvIs a))

theorem ret_of {d : Fun} (ok : FunOk (sig m) (globals m) d) : Resolves (typeDecls m) d.ret (den m d.ret) := by
  obtain ⟨_, _, T, hr, _⟩ := ok
  rw [← (resolves_inv hr).1]; exact hr

theorem cast_to (D : Defines A m I) (h : m.Ok) (hb : m.bp = true) (k : FK) {x : Val U} (hx : x.Is (den m (fpT m k))) :
    ∃ a, I.fn ⟨"$bitcast", [.ty (fpT m k), .ty (.bv k.width)]⟩ [x] = .bv k.width a := by
  have hd := castTo_decl (m := m) k
  have ok := not_bad_cast h hd rfl
  simp only [hb, intT, if_true] at hd ok
  exact is_bv.mp (D.typed _ hd _ _ (params_of ok) (ret_of ok) [x] (all1 hx))

theorem fpMem_decls {d : Fun} (hd : d ∈ fpMemDecls m) : d ∈ decls m := mem_decls (g := fpMemDecls m) (by unfold groups; pos) hd

theorem load_fp (D : Defines A m I) (h : m.Ok) (hb : m.bp = true) (hf : m.flt = true) (k : FK) {f : Sc U → Val U}
    (hk : ∀ z, ∃ b, f (key m z) = .bv 8 b) (z : Int) :
    ∃ a : BitVec k.width, I.fn ⟨"$load", [.bytes, .ty k.name]⟩ [.map f, ptrV m z] = fpV k a ∧
      ∀ i : Nat, i < k.width / 8 → f (key m (z + i)) = .bv 8 (a.extractLsb' (8 * i) 8) := by
  obtain ⟨hw, h8, hlt, _⟩ := fk_width k
  obtain ⟨a, ha, hl⟩ := load_bytes D h hb hw (.inl h8) hk z
  rw [if_neg hlt] at hl
  refine ⟨a, ?_, hl⟩
  have hd : rawLoad true k.name (.fn ⟨"$bitcast", [.ty (.bv k.width), .ty k.name]⟩ [.fn ⟨"$load", [.bytes, .ty (.bv k.width)]⟩ [v "M", v "p"]]) ∈ fpMemDecls m := by
    unfold fpMemDecls; rw [if_pos hf]; exact List.mem_flatMap.mpr ⟨k, mem_fks k, List.mem_append_right _ (by rw [if_pos hb]; pos)⟩
  refine (app_body D (fpMem_decls hd) (fpMem_ok h hd) rfl (args := [.map f, ptrV m z]) (all2 (map_is hk) (ptrV_is z))).trans ?_
  simp only [eval, evals, PreludeTy.v]
  rw [← cast_of D h hb hf k a, ← ha]; rfl

theorem store_fp (D : Defines A m I) (h : m.Ok) (hb : m.bp = true) (hf : m.flt = true) (k : FK) {f : Sc U → Val U}
    (hk : ∀ z, ∃ b, f (key m z) = .bv 8 b) (z : Int) {x : Val U} (hx : x.Is (den m k.name)) :
    I.fn ⟨"$store", [.bytes, .ty k.name]⟩ [.map f, ptrV m z, x] =
      I.fn ⟨"$store", [.bytes, .ty (.bv k.width)]⟩ [.map f, ptrV m z, I.fn ⟨"$bitcast", [.ty k.name, .ty (.bv k.width)]⟩ [x]] := by
  have hd : rawStore true "f" k.name (.fn ⟨"$store", [.bytes, .ty (.bv k.width)]⟩
        [v "M", v "p", .fn ⟨"$bitcast", [.ty k.name, .ty (.bv k.width)]⟩ [v "f"]]) ∈ fpMemDecls m := by
    unfold fpMemDecls; rw [if_pos hf]; exact List.mem_flatMap.mpr ⟨k, mem_fks k, List.mem_append_right _ (by rw [if_pos hb]; pos)⟩
  refine (app_body D (fpMem_decls hd) (fpMem_ok h hd) rfl (args := [.map f, ptrV m z, x]) (all3 (map_is hk) (ptrV_is z) hx)).trans ?_
  simp only [eval, evals, PreludeTy.v]
  rfl

theorem cast8_to (D : Defines A m I) (h : m.Ok) (hb : m.bp = true) (hf : m.flt = false) {x : Val U} (hx : x.Is (den m .ufloat)) :
    ∃ a, I.fn ⟨"$bitcast", [.ty .ufloat, .ty (.bv 8)]⟩ [x] = .bv 8 a := by
  have hd := mem_fpInt (m := m) (c := castTo) (by unfold fpIntTable castTo; pos) .half (by decide : 8 ∈ sizes) (fun _ => .inr ⟨hf, rfl⟩)
  have ok := not_bad_cast h hd rfl
  simp only [castTo, FpIntConv.decl, fpT, hf, intT, hb, if_true, if_false, Bool.false_eq_true, Bool.false_and, vars1, List.nil_append] at hd ok
  exact is_bv.mp (D.typed _ hd _ _ (params_of ok) (ret_of ok) [x] (all1 hx))

theorem load_uf (D : Defines A m I) (h : m.Ok) (hb : m.bp = true) (hf : m.flt = false) {f : Sc U → Val U}
    (hk : ∀ z, ∃ b, f (key m z) = .bv 8 b) (z : Int) :
    I.fn ⟨"$load", [.bytes, .ty .ufloat]⟩ [.map f, ptrV m z] = I.fn ⟨"$bitcast", [.ty (.bv 8), .ty .ufloat]⟩ [f (key m z)] := by
  have hd : rawLoad true .ufloat (.fn ⟨"$bitcast", [.ty (.bv 8), .ty .ufloat]⟩ [mapSel m 0]) ∈ fpMemDecls m := by
    unfold fpMemDecls; rw [if_neg (by simp [hf])]; exact List.mem_append_right _ (by rw [if_pos hb]; pos)
  refine (app_body D (fpMem_decls hd) (fpMem_ok h hd) rfl (args := [.map f, ptrV m z]) (all2 (map_is hk) (ptrV_is z))).trans ?_
  rw [eval, evals, evals, eval_mapSel D h (f := f) (z := z) rfl rfl, key0]

theorem store_uf (D : Defines A m I) (h : m.Ok) (hb : m.bp = true) (hf : m.flt = false) {f : Sc U → Val U}
    (hk : ∀ z, ∃ b, f (key m z) = .bv 8 b) (z : Int) {x : Val U} (hx : x.Is (den m .ufloat)) :
    ∃ f', I.fn ⟨"$store", [.bytes, .ty .ufloat]⟩ [.map f, ptrV m z, x] = .map f' ∧ (∃ b, f' (key m z) = .bv 8 b) ∧
      ∀ κ, κ ≠ key m z → f' κ = f κ := by
  have hd : rawStore true "f" .ufloat (mapUpd m 0 (.fn ⟨"$bitcast", [.ty .ufloat, .ty (.bv 8)]⟩ [v "f"]) (v "M")) ∈ fpMemDecls m := by
    unfold fpMemDecls; rw [if_neg (by simp [hf])]; exact List.mem_append_right _ (by rw [if_pos hb]; pos)
  obtain ⟨a, ha⟩ := cast8_to D h hb hf hx
  refine ⟨fun κ => open Classical in if κ = key m (z + (0 : Nat)) then .bv 8 a else f κ,
    (app_body D (fpMem_decls hd) (fpMem_ok h hd) rfl (args := [.map f, ptrV m z, x]) (all3 (map_is hk) (ptrV_is z) hx)).trans ?_, ⟨a, by simp⟩, ?_⟩
  · rw [eval_mapUpd D h (z := z) rfl]
    simp only [eval, evals, PreludeTy.v]
    rw [← ha]; rfl
  · intro κ hκ
    simp [hκ]

/-! ### Cells -/

/-- The load and store functions of the cells of a type. -/
theorem cell_decls (hm : m.Ok) {t : Emit.LTy} (ht : match t with | .int n => n ∈ sizes | .agg => False | _ => True) :
    ∃ x, (x ≠ "M" ∧ x ≠ "p") ∧ safeLoad m (Emit.tyName m t) ∈ decls m ∧ safeStore m x (Emit.tyName m t) ∈ decls m ∧
      FunOk (sig m) (globals m) (safeLoad m (Emit.tyName m t)) ∧ FunOk (sig m) (globals m) (safeStore m x (Emit.tyName m t)) := by
  cases t with
  | int n =>
    have ht : n ∈ sizes := ht
    have h1 : safeLoad m (Emit.tyName m (.int n)) ∈ memFuns m n ∧ safeStore m "i" (Emit.tyName m (.int n)) ∈ memFuns m n := by
      simp only [Emit.tyName]
      cases hb : m.bp
      · rw [memFuns]; simp [hb, intT]
      · simp only [intT, hb, if_true]; exact safe_decl hb
    exact ⟨"i", by decide, mem_mem ht h1.1, mem_mem ht h1.2, mem_decl_ok hm ht h1.1 (by intro e; simp [safeLoad] at e),
      mem_decl_ok hm ht h1.2 (by intro e; simp [safeStore] at e)⟩
  | ptr =>
    have h1 : safeLoad m .ref ∈ ptrMemDecls m := List.mem_append_right _ (by pos)
    have h2 : safeStore m "i" .ref ∈ ptrMemDecls m := List.mem_append_right _ (by pos)
    exact ⟨"i", by decide, mem_decls (g := ptrMemDecls m) (by unfold groups; pos) h1, mem_decls (g := ptrMemDecls m) (by unfold groups; pos) h2,
      ptrMem_ok hm h1, ptrMem_ok hm h2⟩
  | fp k =>
    have h1 : safeLoad m (fpT m k) ∈ fpMemDecls m ∧ safeStore m "f" (fpT m k) ∈ fpMemDecls m := by
      unfold fpMemDecls fpT
      cases hf : m.flt
      · simp
      · simp only [if_true]
        exact ⟨List.mem_flatMap.mpr ⟨k, mem_fks k, List.mem_append_left _ (by pos)⟩, List.mem_flatMap.mpr ⟨k, mem_fks k, List.mem_append_left _ (by pos)⟩⟩
    rw [tyName_fp]
    exact ⟨"f", by decide, fpMem_decls h1.1, fpMem_decls h1.2, fpMem_ok hm h1.1, fpMem_ok hm h1.2⟩
  | agg => exact ht.elim

end Smack.PreSem
