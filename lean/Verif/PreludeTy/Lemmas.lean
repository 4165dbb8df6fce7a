import Verif.PreludeTy.Spec

namespace Smack.PreludeTy

/-- The option combinations of share/smack/top.py:738-744: one integer encoding, and a target with 32- or 64-bit pointers. -/
structure Mode.Ok (m : Mode) : Prop where
  ptr : m.ptr = 32 ∨ m.ptr = 64
  wrap : m.wrap = true → m.bp = false

/-- The declarations of the prelude. -/
def sig (m : Mode) : Sig := ⟨typeDecls m, decls m⟩

variable {m : Mode} {Γ : String → Option TName}

theorem Mode.Ok.ptr_mem (h : m.Ok) : m.ptr ∈ sizes := by
  rcases h.ptr with h | h <;> rw [h] <;> decide

/-! ### Types -/

def den (m : Mode) : TName → Ty
  | .i _ => .int
  | .bv n => .bv n
  | .ref => if m.bpp then .bv m.ptr else .int
  | .half => .fp 11 5
  | .single => .fp 24 8
  | .double => .fp 53 11
  | .longdouble => .fp 65 15
  | .ufloat => .opaque .ufloat
  | .bool => .bool
  | .int => .int
  | .rmode => .rmode
  | .fpB s e => .fp s e
  | .map t => .map (if m.bpp then .bv m.ptr else .int) (den m t)

def okT (m : Mode) : TName → Bool
  | .i n => sizes.contains n
  | .half | .single | .double | .longdouble => m.flt
  | .ufloat => !m.flt
  | .map t => okT m t
  | _ => true

theorem den_ptrT : den m (ptrT m) = den m .ref := by
  cases h : m.bpp <;> simp [ptrT, den, h]

theorem okT_ptrT (h : m.Ok) : okT m (ptrT m) = true := by
  unfold ptrT; split
  · rfl
  · simpa [okT] using h.ptr_mem

theorem okT_intT {n : Nat} (h : n ∈ sizes) : okT m (intT m n) = true := by
  unfold intT; split
  · rfl
  · simpa [okT] using h

theorem mem_syn_i {n : Nat} (h : n ∈ sizes) : (TName.i n, some TName.int) ∈ typeDecls m := by
  simp only [typeDecls, List.mem_append, List.mem_map]
  exact Or.inl (Or.inl ⟨n, h, rfl⟩)

theorem mem_syn_ref : (TName.ref, some (ptrT m)) ∈ typeDecls m := by
  simp [typeDecls]

theorem resolves_ref (h : m.Ok) : Resolves (typeDecls m) .ref (den m .ref) := by
  refine .syn mem_syn_ref ?_
  unfold ptrT den
  split
  · exact .bv _
  · exact .syn (mem_syn_i h.ptr_mem) .int

theorem resolves_den (h : m.Ok) : ∀ t, okT m t = true → Resolves (typeDecls m) t (den m t)
  | .i n, ht => .syn (mem_syn_i (by simpa [okT] using ht)) .int
  | .bv _, _ => .bv _
  | .ref, _ => resolves_ref h
  | .half, ht => .syn (u := .fpB 11 5) (by simp [okT] at ht; simp [typeDecls, ht]) (.fp _ _)
  | .single, ht => .syn (u := .fpB 24 8) (by simp [okT] at ht; simp [typeDecls, ht]) (.fp _ _)
  | .double, ht => .syn (u := .fpB 53 11) (by simp [okT] at ht; simp [typeDecls, ht]) (.fp _ _)
  | .longdouble, ht => .syn (u := .fpB 65 15) (by simp [okT] at ht; simp [typeDecls, ht]) (.fp _ _)
  | .ufloat, ht => .opq (by simp [okT] at ht; simp [typeDecls, ht])
  | .bool, _ => .bool
  | .int, _ => .int
  | .rmode, _ => .rmode
  | .fpB _ _, _ => .fp _ _
  | .map t, ht => .map (resolves_ref h) (resolves_den h t ht)

theorem mem_typeDecls {t : TName} {u : Option TName} (h : (t, u) ∈ typeDecls m) :
    okT m t = true ∧ (match u with | some u => den m u = den m t | none => t = .ufloat) := by
  simp only [typeDecls, List.mem_append, List.mem_map, List.mem_singleton] at h
  rcases h with (⟨n, hn, e⟩ | e) | h
  · cases e; exact ⟨by simpa [okT] using hn, rfl⟩
  · cases e; exact ⟨rfl, den_ptrT⟩
  · split at h
    · rename_i hf
      simp only [List.mem_cons, List.not_mem_nil, or_false] at h
      rcases h with e | e | e | e <;> cases e <;> exact ⟨hf, rfl⟩
    · rename_i hf
      simp only [List.mem_singleton] at h
      cases h; exact ⟨by simpa [okT] using hf, rfl⟩

theorem resolves_inv {t : TName} {T : Ty} (h : Resolves (typeDecls m) t T) : T = den m t ∧ okT m t = true := by
  induction h with
  | int => exact ⟨rfl, rfl⟩
  | bool => exact ⟨rfl, rfl⟩
  | rmode => exact ⟨rfl, rfl⟩
  | bv n => exact ⟨rfl, rfl⟩
  | fp s e => exact ⟨rfl, rfl⟩
  | syn hm _ ih => exact ⟨ih.1.trans (mem_typeDecls hm).2, (mem_typeDecls hm).1⟩
  | opq hm => have := mem_typeDecls hm; have e := this.2; simp only at e; subst e; exact ⟨rfl, this.1⟩
  | map _ _ i1 i2 => exact ⟨by rw [i1.1, i2.1]; rfl, i2.2⟩

theorem resolvesAll (h : m.Ok) : ∀ ps : List (String × TName), (∀ p ∈ ps, okT m p.2 = true) →
    ResolvesAll (sig m) ps (ps.map fun p => den m p.2)
  | [], _ => .nil
  | (_, t) :: ps, hp => .cons (resolves_den h t (hp _ (List.mem_cons_self ..))) (resolvesAll h ps fun p h => hp p (List.mem_cons_of_mem _ h))

theorem resolvesAll_inv : ∀ {ps Ts}, ResolvesAll (sig m) ps Ts → Ts = ps.map fun p => den m p.2
  | _, _, .nil => rfl
  | _, _, .cons h hs => by rw [resolvesAll_inv hs, (resolves_inv h).1]; rfl

/-! ### Applications -/

/-- The prelude declares `f` with these parameter and result types. -/
def Declares (m : Mode) (f : Sym) (ps : List TName) (r : TName) : Prop :=
  ∃ d ∈ decls m, d.sym = f ∧ d.params.map (·.2) = ps ∧ d.ret = r

theorem ty_fn (h : m.Ok) {f : Sym} {ps : List TName} {r : TName} {args : List Ex} (hd : Declares m f ps r)
    (hp : ∀ t ∈ ps, okT m t = true) (hr : okT m r = true) (ha : HasTys (sig m) Γ args (ps.map (den m))) :
    HasTy (sig m) Γ (.fn f args) (den m r) := by
  obtain ⟨d, hd, hs, rfl, rfl⟩ := hd
  refine .fn (d := d) hd hs (resolvesAll h d.params fun p hp' => hp _ (List.mem_map_of_mem hp')) ?_ (resolves_den h _ hr)
  rw [List.map_map] at ha
  exact ha

theorem ty_fn_inv {f : Sym} {args : List Ex} {T : Ty} (h : HasTy (sig m) Γ (.fn f args) T) :
    ∃ d ∈ decls m, d.sym = f ∧ HasTys (sig m) Γ args (d.params.map fun p => den m p.2) ∧ T = den m d.ret := by
  cases h with
  | fn hd hs hp ha hr =>
    refine ⟨_, hd, hs, ?_, (resolves_inv hr).1⟩
    rw [← resolvesAll_inv hp]; exact ha

theorem tys1 {a : Ex} {A : Ty} (h : HasTy (sig m) Γ a A) : HasTys (sig m) Γ [a] [A] := .cons h .nil
theorem tys2 {a b : Ex} {A B : Ty} (h : HasTy (sig m) Γ a A) (h2 : HasTy (sig m) Γ b B) : HasTys (sig m) Γ [a, b] [A, B] :=
  .cons h (.cons h2 .nil)
theorem tys3 {a b c : Ex} {A B C : Ty} (h : HasTy (sig m) Γ a A) (h2 : HasTy (sig m) Γ b B) (h3 : HasTy (sig m) Γ c C) :
    HasTys (sig m) Γ [a, b, c] [A, B, C] := .cons h (.cons h2 (.cons h3 .nil))

/-! ### What is declared -/

theorem mem_decls {g : List Fun} {d : Fun} (hg : g ∈ groups m) (hd : d ∈ g) : d ∈ decls m :=
  List.mem_flatten.mpr ⟨g, hg, hd⟩

theorem vars1 (p : String) (t : TName) : vars p 1 t = [(p, t)] := rfl

theorem vars2i (t : TName) : vars "i" 2 t = [("i1", t), ("i2", t)] := rfl

theorem vars2f (t : TName) : vars "f" 2 t = [("f1", t), ("f2", t)] := rfl

theorem vars3f (t : TName) : vars "f" 3 t = [("f1", t), ("f2", t), ("f3", t)] := rfl

theorem mem_arith {o : ArithOp} {n : Nat} {d : Fun} (ho : o ∈ arithTable m) (hn : n ∈ sizes) (hd : d ∈ o.funs m n) :
    d ∈ decls m := by
  refine mem_decls (g := arithDecls m) (by simp [groups]) ?_
  exact List.mem_flatMap.mpr ⟨o, ho, List.mem_flatMap.mpr ⟨n, hn, hd⟩⟩

def OpKind.present : OpKind → Bool
  | .absent => false
  | _ => true

theorem declare_mem {k : OpKind} (hk : k.present = true) (size : Nat) (s : Sym) (ps : List (String × TName)) (r : TName) :
    ∃ d ∈ declare k size s ps r, d.sym = s ∧ d.params = ps ∧ d.ret = r := by
  cases k with
  | absent => cases hk
  | builtin a => exact ⟨_, List.mem_singleton.mpr rfl, rfl, rfl, rfl⟩
  | inlined a => exact ⟨_, List.mem_singleton.mpr rfl, rfl, rfl, rfl⟩
  | uninterpreted => exact ⟨_, List.mem_singleton.mpr rfl, rfl, rfl, rfl⟩

theorem arith_int {o : ArithOp} {n : Nat} (ho : o ∈ arithTable m) (hn : n ∈ sizes) (hk : o.intOp.present = true)
    (hc : m.bp = false ∨ m.bpp = false ∧ o.usedByPtr = true) :
    Declares m ⟨"$" ++ o.name, [.ty (.i n)]⟩ ((vars "i" o.arity (.i n)).map (·.2)) (.i n) := by
  obtain ⟨d, hd, h1, h2, h3⟩ := declare_mem hk n ⟨"$" ++ o.name, [.ty (.i n)]⟩ (vars "i" o.arity (.i n)) (.i n)
  refine ⟨d, mem_arith ho hn ?_, h1, by rw [h2], h3⟩
  unfold ArithOp.funs
  refine List.mem_append_left _ ?_
  rw [if_pos (by rcases hc with h | ⟨h, h'⟩ <;> simp [*])]
  exact hd

theorem arith_bv {o : ArithOp} {n : Nat} (ho : o ∈ arithTable m) (hn : n ∈ sizes) (hk : o.bvOp.present = true)
    (hc : m.bp = true ∨ m.bpp = true ∧ o.usedByPtr = true) :
    Declares m ⟨"$" ++ o.name, [.ty (.bv n)]⟩ ((vars "i" o.arity (.bv n)).map (·.2)) (.bv n) := by
  obtain ⟨d, hd, h1, h2, h3⟩ := declare_mem hk n ⟨"$" ++ o.name, [.ty (.bv n)]⟩ (vars "i" o.arity (.bv n)) (.bv n)
  refine ⟨d, mem_arith ho hn ?_, h1, by rw [h2], h3⟩
  unfold ArithOp.funs
  refine List.mem_append_right _ ?_
  rw [if_pos (by rcases hc with h | ⟨h, h'⟩ <;> simp [*])]
  exact hd

/-- The binary operations used on integers and pointers. -/
def arNames : List String := ["$add", "$sub", "$mul"]

/-- The other binary operations. -/
def binNames : List String :=
  ["$idiv", "$sdiv", "$udiv", "$smod", "$srem", "$urem", "$shl", "$lshr", "$ashr", "$and", "$or", "$xor", "$nand", "$smin",
    "$smax", "$umin", "$umax"]

theorem arNames_row {f : String} (hf : f ∈ arNames) :
    ∃ o ∈ arithTable m, f = "$" ++ o.name ∧ o.arity = 2 ∧ o.intOp.present = true ∧ o.bvOp.present = true ∧ o.usedByPtr = true := by
  simp only [arNames, List.mem_cons, List.not_mem_nil, or_false] at hf
  rcases hf with rfl | rfl | rfl
  · exact ⟨_, .head _, rfl, rfl, rfl, rfl, rfl⟩
  · exact ⟨_, .tail _ (.head _), rfl, rfl, rfl, rfl, rfl⟩
  · exact ⟨_, .tail _ (.tail _ (.head _)), rfl, rfl, rfl, rfl, rfl⟩

/-- Membership in a literal list at some position. -/
macro "pos" : tactic => `(tactic| repeat (first | exact List.Mem.head _ | apply List.Mem.tail))

theorem binNames_row {f : String} (hf : f ∈ binNames) :
    ∃ o ∈ arithTable m, f = "$" ++ o.name ∧ o.arity = 2 ∧ o.intOp.present = true ∧ o.bvOp.present = true := by
  simp only [binNames, List.mem_cons, List.not_mem_nil, or_false] at hf
  unfold arithTable
  rcases hf with rfl | rfl | rfl | rfl | rfl | rfl | rfl | rfl | rfl | rfl | rfl | rfl | rfl | rfl | rfl | rfl | rfl
  · exact ⟨⟨"idiv", 2, _, _, _⟩, by pos, rfl, rfl, rfl, rfl⟩
  · exact ⟨⟨"sdiv", 2, _, _, _⟩, by pos, rfl, rfl, rfl, rfl⟩
  · exact ⟨⟨"udiv", 2, _, _, _⟩, by pos, rfl, rfl, rfl, rfl⟩
  · exact ⟨⟨"smod", 2, _, _, _⟩, by pos, rfl, rfl, rfl, rfl⟩
  · exact ⟨⟨"srem", 2, _, _, _⟩, by pos, rfl, rfl, rfl, rfl⟩
  · exact ⟨⟨"urem", 2, _, _, _⟩, by pos, rfl, rfl, rfl, rfl⟩
  · exact ⟨⟨"shl", 2, _, _, _⟩, by pos, rfl, rfl, rfl, rfl⟩
  · exact ⟨⟨"lshr", 2, _, _, _⟩, by pos, rfl, rfl, rfl, rfl⟩
  · exact ⟨⟨"ashr", 2, _, _, _⟩, by pos, rfl, rfl, rfl, rfl⟩
  · exact ⟨⟨"and", 2, _, _, _⟩, by pos, rfl, rfl, rfl, rfl⟩
  · exact ⟨⟨"or", 2, _, _, _⟩, by pos, rfl, rfl, rfl, rfl⟩
  · exact ⟨⟨"xor", 2, _, _, _⟩, by pos, rfl, rfl, rfl, rfl⟩
  · exact ⟨⟨"nand", 2, _, _, _⟩, by pos, rfl, rfl, rfl, rfl⟩
  · exact ⟨⟨"smin", 2, _, _, _⟩, by pos, rfl, rfl, rfl, rfl⟩
  · exact ⟨⟨"smax", 2, _, _, _⟩, by pos, rfl, rfl, rfl, rfl⟩
  · exact ⟨⟨"umin", 2, _, _, _⟩, by pos, rfl, rfl, rfl, rfl⟩
  · exact ⟨⟨"umax", 2, _, _, _⟩, by pos, rfl, rfl, rfl, rfl⟩


theorem bin_decl {f : String} (hf : f ∈ arNames ++ binNames) {n : Nat} (hn : n ∈ sizes) :
    Declares m ⟨f, [.ty (intT m n)]⟩ [intT m n, intT m n] (intT m n) := by
  have row : ∃ o ∈ arithTable m, f = "$" ++ o.name ∧ o.arity = 2 ∧ o.intOp.present = true ∧ o.bvOp.present = true := by
    rcases List.mem_append.mp hf with h | h
    · obtain ⟨o, h1, h2, h3, h4, h5, _⟩ := arNames_row (m := m) h; exact ⟨o, h1, h2, h3, h4, h5⟩
    · exact binNames_row h
  obtain ⟨o, ho, rfl, ha, hi, hb⟩ := row
  cases h : m.bp with
  | true => have := arith_bv ho hn hb (.inl h); rw [ha] at this; simpa [intT, h, vars1, vars2i] using this
  | false => have := arith_int ho hn hi (.inl h); rw [ha] at this; simpa [intT, h, vars1, vars2i] using this

theorem ptr_bin_decl (hm : m.Ok) {f : String} (hf : f ∈ arNames) :
    Declares m ⟨f, [.ty (ptrT m)]⟩ [ptrT m, ptrT m] (ptrT m) := by
  obtain ⟨o, ho, rfl, ha, hi, hb, hu⟩ := arNames_row (m := m) hf
  cases h : m.bpp with
  | true => have := arith_bv ho hm.ptr_mem hb (.inr ⟨h, hu⟩); rw [ha] at this; simpa [ptrT, h, vars2i] using this
  | false => have := arith_int ho hm.ptr_mem hi (.inr ⟨h, hu⟩); rw [ha] at this; simpa [ptrT, h, vars2i] using this

theorem not_decl {n : Nat} (hn : n ∈ sizes) : Declares m ⟨"$not", [.ty (intT m n)]⟩ [intT m n] (intT m n) := by
  have ho : ⟨"not", 1, .uninterpreted, bvAttr "not", false⟩ ∈ arithTable m := by unfold arithTable; pos
  cases h : m.bp with
  | true => have := arith_bv ho hn rfl (.inl h); simpa [intT, h, vars1, vars2i] using this
  | false => have := arith_int ho hn rfl (.inl h); simpa [intT, h, vars1, vars2i] using this

theorem wrap_decl (hw : m.wrap = true) (hb : m.bp = false) (u : Bool) {n : Nat} (hn : n ∈ sizes) :
    Declares m ⟨if u then "$tou" else "$tos", [.ty (.i n)]⟩ [.i n] (.i n) := by
  cases u with
  | true =>
    have ho : ⟨"tou", 1, if m.wrap then .inlined touBody else .absent, .absent, true⟩ ∈ arithTable m := by unfold arithTable; pos
    exact arith_int ho hn (by simp [hw, OpKind.present]) (.inl hb)
  | false =>
    have ho : ⟨"tos", 1, if m.wrap then .inlined tosBody else .absent, .absent, true⟩ ∈ arithTable m := by unfold arithTable; pos
    exact arith_int ho hn (by simp [hw, OpKind.present]) (.inl hb)

def predNames : List String := ["$ule", "$ult", "$uge", "$ugt", "$sle", "$slt", "$sge", "$sgt", "$eq", "$ne"]

theorem predNames_row {f : String} (hf : f ∈ predNames) :
    ∃ o ∈ predTable m, f = "$" ++ o.name ∧ o.bvOp.present = true := by
  simp only [predNames, List.mem_cons, List.not_mem_nil, or_false] at hf
  unfold predTable
  rcases hf with rfl | rfl | rfl | rfl | rfl | rfl | rfl | rfl | rfl | rfl
  · exact ⟨⟨"ule", _, _⟩, by pos, rfl, rfl⟩
  · exact ⟨⟨"ult", _, _⟩, by pos, rfl, rfl⟩
  · exact ⟨⟨"uge", _, _⟩, by pos, rfl, rfl⟩
  · exact ⟨⟨"ugt", _, _⟩, by pos, rfl, rfl⟩
  · exact ⟨⟨"sle", _, _⟩, by pos, rfl, rfl⟩
  · exact ⟨⟨"slt", _, _⟩, by pos, rfl, rfl⟩
  · exact ⟨⟨"sge", _, _⟩, by pos, rfl, rfl⟩
  · exact ⟨⟨"sgt", _, _⟩, by pos, rfl, rfl⟩
  · exact ⟨⟨"eq", _, _⟩, by pos, rfl, rfl⟩
  · exact ⟨⟨"ne", _, _⟩, by pos, rfl, rfl⟩

theorem mem_pred {o : PredOp} {n : Nat} {d : Fun} (ho : o ∈ predTable m) (hn : n ∈ sizes) (hd : d ∈ o.funs m n) :
    d ∈ decls m := by
  refine mem_decls (g := predDecls m) (by simp [groups]) ?_
  exact List.mem_flatMap.mpr ⟨o, ho, List.mem_flatMap.mpr ⟨n, hn, hd⟩⟩

theorem pred_bool_i {f : String} (hf : f ∈ predNames) {n : Nat} (hn : n ∈ sizes) (hc : m.bp = false ∨ m.bpp = false) :
    Declares m ⟨f, [.ty (.i n), .ty .bool]⟩ [.i n, .i n] .bool := by
  obtain ⟨o, ho, rfl, _⟩ := predNames_row (m := m) hf
  have hc' : (!m.bp || !m.bpp) = true := by rcases hc with h | h <;> simp [h]
  refine ⟨_, mem_pred ho hn (by unfold PredOp.funs; rw [if_pos hc']; exact List.mem_append_left _ (.head _)), rfl, rfl, rfl⟩

theorem pred_bool_bv {f : String} (hf : f ∈ predNames) {n : Nat} (hn : n ∈ sizes) (hc : m.bp = true ∨ m.bpp = true) :
    Declares m ⟨f, [.ty (.bv n), .ty .bool]⟩ [.bv n, .bv n] .bool := by
  obtain ⟨o, ho, rfl, hb⟩ := predNames_row (m := m) hf
  have hc' : (m.bp || m.bpp) = true := by rcases hc with h | h <;> simp [h]
  obtain ⟨d, hd, h1, h2, h3⟩ := declare_mem hb n ⟨"$" ++ o.name, [.ty (.bv n), .ty .bool]⟩ (vars "i" 2 (.bv n)) .bool
  refine ⟨d, mem_pred ho hn ?_, h1, by rw [h2]; rfl, h3⟩
  unfold PredOp.funs; rw [if_pos hc']
  exact List.mem_append_right _ (List.mem_append_left _ hd)

theorem pred_bool {f : String} (hf : f ∈ predNames) {n : Nat} (hn : n ∈ sizes) :
    Declares m ⟨f, [.ty (intT m n), .ty .bool]⟩ [intT m n, intT m n] .bool := by
  cases h : m.bp with
  | true => simpa [intT, h] using pred_bool_bv hf hn (.inl h)
  | false => simpa [intT, h] using pred_bool_i hf hn (.inl h)

theorem pred_val {f : String} (hf : f ∈ predNames) {n : Nat} (hn : n ∈ sizes) :
    Declares m ⟨f, [.ty (intT m n)]⟩ [intT m n, intT m n] (intT m 1) := by
  obtain ⟨o, ho, rfl, _⟩ := predNames_row (m := m) hf
  cases h : m.bp with
  | true =>
    refine ⟨_, mem_pred ho hn (by
      unfold PredOp.funs; rw [if_pos (c := (m.bp || m.bpp) = true) (by simp [h])]
      exact List.mem_append_right _ (List.mem_append_right _ (.head _))), by simp [intT, h], by simp [intT, h, vars2i], by simp [intT, h]⟩
  | false =>
    refine ⟨_, mem_pred ho hn (by
      unfold PredOp.funs; rw [if_pos (c := (!m.bp || !m.bpp) = true) (by simp [h])]
      exact List.mem_append_left _ (.tail _ (.head _))), by simp [intT, h], by simp [intT, h, vars2i], by simp [intT, h]⟩

theorem ptrT_pred_bool (hm : m.Ok) {f : String} (hf : f ∈ predNames) (hb : m.bpp = true) :
    Declares m ⟨f, [.ty (ptrT m), .ty .bool]⟩ [ptrT m, ptrT m] .bool := by
  simpa [ptrT, hb] using pred_bool_bv hf hm.ptr_mem (.inr hb)

/-! Conversions. -/

theorem mem_pairs : ∀ {l : List Nat} {a b : Nat}, l.Pairwise (· < ·) → a ∈ l → b ∈ l → a < b → (a, b) ∈ pairs l
  | x :: l, a, b, hp, ha, hb, hab => by
    rw [pairs]
    rcases List.mem_cons.mp ha with rfl | ha
    · rcases List.mem_cons.mp hb with rfl | hb
      · omega
      · exact List.mem_append_left _ (List.mem_map_of_mem hb)
    · rcases List.mem_cons.mp hb with rfl | hb
      · have := (List.pairwise_cons.mp hp).1 _ ‹_›; omega
      · exact List.mem_append_right _ (mem_pairs (List.pairwise_cons.mp hp).2 ha hb hab)

theorem pairs_mem : ∀ {l : List Nat} {a b : Nat}, l.Pairwise (· < ·) → (a, b) ∈ pairs l → a ∈ l ∧ b ∈ l ∧ a < b
  | [], _, _, _, h => by cases h
  | x :: l, a, b, hp, h => by
    rw [pairs] at h
    rcases List.mem_append.mp h with h | h
    · obtain ⟨c, hc, e⟩ := List.mem_map.mp h
      cases e
      exact ⟨.head _, .tail _ hc, (List.pairwise_cons.mp hp).1 _ hc⟩
    · have := pairs_mem (List.pairwise_cons.mp hp).2 h
      exact ⟨.tail _ this.1, .tail _ this.2.1, this.2.2⟩

theorem sizes_sorted : sizes.Pairwise (· < ·) := by decide

theorem trunc_decl {a b : Nat} (ha : a ∈ sizes) (hb : b ∈ sizes) (hab : a < b) :
    Declares m ⟨"$trunc", [.ty (intT m b), .ty (intT m a)]⟩ [intT m b] (intT m a) := by
  refine ⟨convTrunc m (a, b), mem_decls (g := convDecls m) (by simp [groups]) ?_, ?_⟩
  · exact List.mem_append_left _ (List.mem_append_left _ (List.mem_map_of_mem (mem_pairs sizes_sorted ha hb hab)))
  · cases h : m.bp <;> simp [convTrunc, intT, h, vars1]

theorem ext_decl (s : Bool) {a b : Nat} (ha : a ∈ sizes) (hb : b ∈ sizes) (hab : a < b) :
    Declares m ⟨if s then "$sext" else "$zext", [.ty (intT m a), .ty (intT m b)]⟩ [intT m a] (intT m b) := by
  refine ⟨convExt m s (a, b), mem_decls (g := convDecls m) (by simp [groups]) ?_, ?_⟩
  · have hp := mem_pairs sizes_sorted ha hb hab
    cases s
    · exact List.mem_append_right _ (List.mem_map_of_mem hp)
    · exact List.mem_append_left _ (List.mem_append_right _ (List.mem_map_of_mem hp))
  · cases h : m.bp <;> simp [convExt, intT, h, vars1]

/-! Memory. -/

theorem mem_mem {n : Nat} {d : Fun} (hn : n ∈ sizes) (hd : d ∈ memFuns m n) : d ∈ decls m :=
  mem_decls (g := memDecls m) (by simp [groups]) (List.mem_flatMap.mpr ⟨n, hn, hd⟩)

theorem load_int {n : Nat} (hn : n ∈ sizes) : Declares m ⟨"$load", [.ty (intT m n)]⟩ [.map (intT m n), .ref] (intT m n) := by
  refine ⟨safeLoad m (intT m n), mem_mem hn ?_, rfl, rfl, rfl⟩
  cases h : m.bp <;> simp [memFuns, intT, h]

theorem store_int {n : Nat} (hn : n ∈ sizes) :
    Declares m ⟨"$store", [.ty (intT m n)]⟩ [.map (intT m n), .ref, intT m n] (.map (intT m n)) := by
  refine ⟨safeStore m "i" (intT m n), mem_mem hn ?_, rfl, rfl, rfl⟩
  cases h : m.bp <;> simp [memFuns, intT, h]

theorem load_bytes {n : Nat} (hn : n ∈ sizes) (hb : m.bp = true) :
    Declares m ⟨"$load", [.bytes, .ty (.bv n)]⟩ [.map (.bv 8), .ref] (.bv n) := by
  by_cases h1 : n < 8
  · exact ⟨_, mem_mem hn (d := rawLoad true (.bv n) _) (by rw [memFuns, if_pos hb, if_pos h1]; exact .tail _ (.tail _ (.head _))), rfl, rfl, rfl⟩
  · by_cases h2 : n = 8
    · exact ⟨_, mem_mem hn (d := rawLoad true (.bv n) _) (by rw [memFuns, if_pos hb, if_neg h1, if_pos h2]; exact .tail _ (.tail _ (.head _))), rfl, rfl, rfl⟩
    · exact ⟨_, mem_mem hn (d := rawLoad true (.bv n) _) (by rw [memFuns, if_pos hb, if_neg h1, if_neg h2]; exact .tail _ (.tail _ (.head _))), rfl, rfl, rfl⟩

theorem store_bytes {n : Nat} (hn : n ∈ sizes) (hb : m.bp = true) :
    Declares m ⟨"$store", [.bytes, .ty (.bv n)]⟩ [.map (.bv 8), .ref, .bv n] (.map (.bv 8)) := by
  by_cases h1 : n < 8
  · exact ⟨_, mem_mem hn (d := rawStore true "i" (.bv n) _) (by rw [memFuns, if_pos hb, if_pos h1]; exact .tail _ (.tail _ (.tail _ (.head _)))), rfl, rfl, rfl⟩
  · by_cases h2 : n = 8
    · exact ⟨_, mem_mem hn (d := rawStore true "i" (.bv n) _) (by rw [memFuns, if_pos hb, if_neg h1, if_pos h2]; exact .tail _ (.tail _ (.tail _ (.head _)))), rfl, rfl, rfl⟩
    · exact ⟨_, mem_mem hn (d := rawStore true "i" (.bv n) _) (by rw [memFuns, if_pos hb, if_neg h1, if_neg h2]; exact .tail _ (.tail _ (.tail _ (.head _)))), rfl, rfl, rfl⟩

theorem extract_int {n : Nat} (hn : n ∈ sizes) : Declares m ⟨"$extractvalue", [.ty (intT m n)]⟩ [.ref, .int] (intT m n) :=
  ⟨extractFun (intT m n), mem_decls (g := extractDecls m) (by simp [groups]) (List.mem_map_of_mem (f := fun n => extractFun (intT m n)) hn), rfl, rfl, rfl⟩

theorem int2bv_decl : Declares m ⟨"$int2bv", [.num m.ptr]⟩ [.i m.ptr] (.bv m.ptr) :=
  ⟨_, mem_decls (g := bvIntDecls m) (by simp [groups]) (List.mem_append_left _ (.head _)), rfl, rfl, rfl⟩

theorem bv2int_decl : Declares m ⟨"$bv2int", [.num m.ptr]⟩ [.bv m.ptr] (.i m.ptr) := by
  by_cases h : (m.bp && !m.bpp) = true
  · exact ⟨_, mem_decls (g := bvIntDecls m) (by simp [groups]) (by unfold bvIntDecls; rw [if_pos h]; exact .tail _ (.tail _ (.head _))), rfl, rfl, rfl⟩
  · exact ⟨_, mem_decls (g := bvIntDecls m) (by simp [groups]) (by unfold bvIntDecls; rw [if_neg h]; exact .tail _ (.head _)), rfl, rfl, rfl⟩

theorem bv2uint_decl (h : (m.bp && !m.bpp) = true) : Declares m ⟨"$bv2uint", [.num m.ptr]⟩ [.bv m.ptr] (.i m.ptr) :=
  ⟨_, mem_decls (g := bvIntDecls m) (by simp [groups]) (by unfold bvIntDecls; rw [if_pos h]; exact .tail _ (.head _)), rfl, rfl, rfl⟩

/-! Pointers. -/

theorem ref_bin {f : String} (hf : f ∈ arNames) : Declares m ⟨f, [.ty .ref]⟩ [.ref, .ref] .ref := by
  refine ⟨_, mem_decls (g := ptrArithDecls m) (by simp [groups]) (List.mem_map_of_mem hf), rfl, rfl, rfl⟩

theorem ptrPred_row {f : String} (hf : f ∈ predNames) : ∃ op, (f, op) ∈ ptrPredTable := by
  simp only [predNames, List.mem_cons, List.not_mem_nil, or_false] at hf
  rcases hf with rfl | rfl | rfl | rfl | rfl | rfl | rfl | rfl | rfl | rfl <;> exact ⟨_, by unfold ptrPredTable; pos⟩

theorem ref_pred_bool {f : String} (hf : f ∈ predNames) : Declares m ⟨f, [.ty .ref, .ty .bool]⟩ [.ref, .ref] .bool := by
  obtain ⟨op, ho⟩ := ptrPred_row hf
  exact ⟨_, mem_decls (g := ptrPredDecls m) (by simp [groups]) (List.mem_flatMap.mpr ⟨_, ho, .head _⟩), rfl, rfl, rfl⟩

theorem ref_pred_val {f : String} (hf : f ∈ predNames) : Declares m ⟨f, [.ty .ref]⟩ [.ref, .ref] (intT m 1) := by
  obtain ⟨op, ho⟩ := ptrPred_row hf
  exact ⟨_, mem_decls (g := ptrPredDecls m) (by simp [groups]) (List.mem_flatMap.mpr ⟨_, ho, .tail _ (.head _)⟩), rfl, rfl, rfl⟩

theorem load_ref : Declares m ⟨"$load", [.ty .ref]⟩ [.map .ref, .ref] .ref :=
  ⟨_, mem_decls (g := ptrMemDecls m) (by simp [groups]) (List.mem_append_right _ (.head _)), rfl, rfl, rfl⟩

theorem store_ref : Declares m ⟨"$store", [.ty .ref]⟩ [.map .ref, .ref, .ref] (.map .ref) :=
  ⟨_, mem_decls (g := ptrMemDecls m) (by simp [groups]) (List.mem_append_right _ (.tail _ (.head _))), rfl, rfl, rfl⟩

theorem load_bytes_ref (hb : m.bp = true) : Declares m ⟨"$load", [.bytes, .ty .ref]⟩ [.map (.bv 8), .ref] .ref :=
  ⟨_, mem_decls (g := ptrMemDecls m) (by simp [groups]) (List.mem_append_left _ (by rw [if_pos hb]; exact .head _)), rfl, rfl, rfl⟩

theorem store_bytes_ref (hb : m.bp = true) : Declares m ⟨"$store", [.bytes, .ty .ref]⟩ [.map (.bv 8), .ref, .ref] (.map (.bv 8)) :=
  ⟨_, mem_decls (g := ptrMemDecls m) (by simp [groups]) (List.mem_append_left _ (by rw [if_pos hb]; exact .tail _ (.head _))), rfl, rfl, rfl⟩

theorem bitcast_ref : Declares m ⟨"$bitcast", [.ty .ref, .ty .ref]⟩ [.ref] .ref :=
  ⟨_, mem_decls (g := ptrConvDecls) (by simp [groups]) (.head _), rfl, rfl, rfl⟩

theorem extract_ref : Declares m ⟨"$extractvalue", [.ty .ref]⟩ [.ref, .int] .ref :=
  ⟨_, mem_decls (g := ptrConvDecls) (by simp [groups]) (.tail _ (.head _)), rfl, rfl, rfl⟩

theorem p2i_decl {n : Nat} (hn : n ∈ [8, 16, 32, 64]) : Declares m ⟨"$p2i", [.ty .ref, .ty (intT m n)]⟩ [.ref] (intT m n) :=
  ⟨_, mem_decls (g := ptrNumDecls m) (by simp [groups]) (List.mem_flatMap.mpr ⟨n, hn, .head _⟩), rfl, rfl, rfl⟩

theorem i2p_decl {n : Nat} (hn : n ∈ [8, 16, 32, 64]) : Declares m ⟨"$i2p", [.ty (intT m n), .ty .ref]⟩ [intT m n] .ref :=
  ⟨_, mem_decls (g := ptrNumDecls m) (by simp [groups]) (List.mem_flatMap.mpr ⟨n, hn, .tail _ (.head _)⟩), rfl, rfl, rfl⟩

/-! Floating point. -/

theorem mem_fks (k : FK) : k ∈ fks := by cases k <;> decide

/-- The name of a floating-point type in the current mode. -/
def fpT (m : Mode) (k : FK) : TName := if m.flt then k.name else .ufloat

/-- Rounding mode parameter, if there is one. -/
def rmT (m : Mode) (rm : Bool) : List TName := if m.flt && rm then [.rmode] else []

theorem fpArith_decl {o : String × Nat × Bool × String} (ho : o ∈ fpArithTable) (k : FK) :
    Declares m ⟨o.1, [.ty (fpT m k)]⟩ (rmT m o.2.2.1 ++ (vars "f" o.2.1 (fpT m k)).map (·.2)) (fpT m k) := by
  cases h : m.flt with
  | true =>
    refine ⟨_, mem_decls (g := fpArithDecls m) (by simp [groups]) (List.mem_flatMap.mpr ⟨o, ho, by
      rw [if_pos h]; exact List.mem_map_of_mem (mem_fks k)⟩), ?_⟩
    cases hr : o.2.2.1 <;> simp [fpT, rmT, h]
  | false =>
    refine ⟨_, mem_decls (g := fpArithDecls m) (by simp [groups]) (List.mem_flatMap.mpr ⟨o, ho, by
      rw [if_neg (by simp [h])]; exact .head _⟩), ?_⟩
    simp [fpT, rmT, h]

theorem fpPred_decl {o : String × Nat × Bool × (String ⊕ (FK → Ex))} (ho : o ∈ fpPredTable) (k : FK)
    (hc : m.flt = true ∨ o.2.2.1 = true) :
    Declares m ⟨o.1, [.ty (fpT m k), .ty .bool]⟩ ((vars "f" o.2.1 (fpT m k)).map (·.2)) .bool := by
  cases h : m.flt with
  | true =>
    refine ⟨_, mem_decls (g := fpPredDecls m) (by simp [groups]) (List.mem_flatMap.mpr ⟨o, ho, by
      rw [if_pos h]; exact List.mem_map_of_mem (mem_fks k)⟩), ?_⟩
    simp [fpT, h]
  | false =>
    refine ⟨_, mem_decls (g := fpPredDecls m) (by simp [groups]) (List.mem_flatMap.mpr ⟨o, ho, by
      rw [if_neg (by simp [h]), if_pos (by simpa [h] using hc)]; exact .head _⟩), ?_⟩
    simp [fpT, h]

theorem fpext_decl (s d : FK) (h : m.flt = true → s.width < d.width) :
    Declares m ⟨"$fpext", [.ty (fpT m s), .ty (fpT m d)]⟩ (rmT m true ++ [fpT m s]) (fpT m d) := by
  cases hf : m.flt with
  | true =>
    have h := h hf
    refine ⟨_, mem_decls (g := fpConvDecls m) (by simp [groups]) (by
      unfold fpConvDecls; rw [if_pos hf]
      exact List.mem_flatMap.mpr ⟨s, mem_fks s, List.mem_flatMap.mpr ⟨d, mem_fks d, by rw [if_pos (by omega)]; exact .head _⟩⟩), ?_⟩
    simp [fpT, rmT, hf, h, vars1]
  | false =>
    refine ⟨_, mem_decls (g := fpConvDecls m) (by simp [groups]) (by unfold fpConvDecls; rw [if_neg (by simp [hf])]; exact .head _), ?_⟩
    simp [fpT, rmT, hf, vars1]

theorem fptrunc_decl (s d : FK) (h : m.flt = true → d.width < s.width) :
    Declares m ⟨"$fptrunc", [.ty (fpT m s), .ty (fpT m d)]⟩ (rmT m true ++ [fpT m s]) (fpT m d) := by
  cases hf : m.flt with
  | true =>
    have h := h hf
    refine ⟨_, mem_decls (g := fpConvDecls m) (by simp [groups]) (by
      unfold fpConvDecls; rw [if_pos hf]
      exact List.mem_flatMap.mpr ⟨s, mem_fks s, List.mem_flatMap.mpr ⟨d, mem_fks d, by rw [if_pos (by omega)]; exact .head _⟩⟩), ?_⟩
    have : ¬ s.width < d.width := by omega
    simp [fpT, rmT, hf, this, vars1]
  | false =>
    refine ⟨_, mem_decls (g := fpConvDecls m) (by simp [groups]) (by unfold fpConvDecls; rw [if_neg (by simp [hf])]; exact .tail _ (.head _)), ?_⟩
    simp [fpT, rmT, hf, vars1]

theorem mem_fpInt {c : FpIntConv} (hc : c ∈ fpIntTable) (k : FK) {n : Nat} (hn : n ∈ sizes)
    (hb : c.bitCast = true → n = k.width ∨ m.flt = false ∧ n = 8) :
    c.decl m (fpT m k) n (m.flt && !c.bitCast) (if m.flt && m.bp then c.op k n else none) ∈ decls m := by
  refine mem_decls (g := fpIntDecls m) (by simp [groups]) (List.mem_flatMap.mpr ⟨c, hc, ?_⟩)
  cases h : m.flt with
  | true =>
    rw [if_pos rfl]
    refine List.mem_flatMap.mpr ⟨k, mem_fks k, List.mem_flatMap.mpr ⟨n, hn, ?_⟩⟩
    rw [if_pos]
    · simp [fpT, h]
    · cases hc : c.bitCast <;> simp
      simpa [h, eq_comm] using hb hc
  | false =>
    rw [if_neg (by simp)]
    refine List.mem_flatMap.mpr ⟨n, hn, ?_⟩
    rw [if_pos]
    · simp [fpT, h]
    · cases hc : c.bitCast
      · simp
      · rcases hb hc with rfl | ⟨_, rfl⟩
        · cases k <;> decide
        · decide

theorem f2i_decl {c : FpIntConv} (hc : c ∈ fpIntTable) (hf : c.f2i = true) (k : FK) {n : Nat} (hn : n ∈ sizes)
    (hb : c.bitCast = true → n = k.width ∨ m.flt = false ∧ n = 8) :
    Declares m ⟨c.name, [.ty (fpT m k), .ty (intT m n)]⟩ (rmT m (!c.bitCast) ++ [fpT m k]) (intT m n) := by
  refine ⟨_, mem_fpInt hc k hn hb, ?_⟩
  cases h : m.flt <;> cases hc : c.bitCast <;> simp [FpIntConv.decl, hf, rmT, h, vars1]

theorem i2f_decl {c : FpIntConv} (hc : c ∈ fpIntTable) (hf : c.f2i = false) (k : FK) {n : Nat} (hn : n ∈ sizes)
    (hb : c.bitCast = true → n = k.width ∨ m.flt = false ∧ n = 8) :
    Declares m ⟨c.name, [.ty (intT m n), .ty (fpT m k)]⟩ (rmT m (!c.bitCast) ++ [intT m n]) (fpT m k) := by
  refine ⟨_, mem_fpInt hc k hn hb, ?_⟩
  cases h : m.flt <;> cases hc : c.bitCast <;> simp [FpIntConv.decl, hf, rmT, h, vars1]

theorem mem_fpMem_flt (h : m.flt = true) (k : FK) {d : Fun}
    (hd : d ∈ [safeLoad m k.name, safeStore m "f" k.name] ++
      (if m.bp then
        [ rawLoad true k.name (.fn ⟨"$bitcast", [.ty (.bv k.width), .ty k.name]⟩ [.fn ⟨"$load", [.bytes, .ty (.bv k.width)]⟩ [v "M", v "p"]]),
          rawStore true "f" k.name (.fn ⟨"$store", [.bytes, .ty (.bv k.width)]⟩
            [v "M", v "p", .fn ⟨"$bitcast", [.ty k.name, .ty (.bv k.width)]⟩ [v "f"]]) ]
      else
        [ rawLoad false k.name (.fn ⟨"$bitcast", [.ty (.i k.width), .ty k.name]⟩ [.fn ⟨"$load", [.ty (.i k.width)]⟩ [v "M", v "p"]]),
          rawStore false "f" k.name (.fn ⟨"$store", [.ty (.i k.width)]⟩
            [v "M", v "p", .fn ⟨"$bitcast", [.ty k.name, .ty (.i k.width)]⟩ [v "f"]]) ])) :
    d ∈ decls m := by
  refine mem_decls (g := fpMemDecls m) (by simp [groups]) ?_
  unfold fpMemDecls; rw [if_pos h]
  exact List.mem_flatMap.mpr ⟨k, mem_fks k, hd⟩

theorem load_fp (k : FK) : Declares m ⟨"$load", [.ty (fpT m k)]⟩ [.map (fpT m k), .ref] (fpT m k) := by
  cases h : m.flt with
  | true => exact ⟨_, mem_fpMem_flt h k (List.mem_append_left _ (.head _)), by simp [safeLoad, fpT, h]⟩
  | false =>
    refine ⟨_, mem_decls (g := fpMemDecls m) (by simp [groups]) (by unfold fpMemDecls; rw [if_neg (by simp [h])]; exact List.mem_append_left _ (.head _)), ?_⟩
    simp [safeLoad, fpT, h]

theorem store_fp (k : FK) : Declares m ⟨"$store", [.ty (fpT m k)]⟩ [.map (fpT m k), .ref, fpT m k] (.map (fpT m k)) := by
  cases h : m.flt with
  | true => exact ⟨_, mem_fpMem_flt h k (List.mem_append_left _ (.tail _ (.head _))), by simp [safeStore, fpT, h]⟩
  | false =>
    refine ⟨_, mem_decls (g := fpMemDecls m) (by simp [groups]) (by unfold fpMemDecls; rw [if_neg (by simp [h])]; exact List.mem_append_left _ (.tail _ (.head _))), ?_⟩
    simp [safeStore, fpT, h]

/-- The raw load of a floating-point value: `bytes` in bit-vector mode, `unsafe` otherwise. -/
def rawC (m : Mode) : Comp := if m.bp then .bytes else .unsf

theorem load_raw_fp (k : FK) : Declares m ⟨"$load", [rawC m, .ty (fpT m k)]⟩ [.map (intT m 8), .ref] (fpT m k) := by
  cases h : m.flt <;> cases hb : m.bp
  · refine ⟨_, mem_decls (g := fpMemDecls m) (by simp [groups]) (by unfold fpMemDecls; rw [if_neg (by simp [h]), if_neg (by simp [hb])]; exact List.mem_append_right _ (.head _)), ?_⟩
    simp [rawLoad, fpT, h, rawC, intT, hb]
  · refine ⟨_, mem_decls (g := fpMemDecls m) (by simp [groups]) (by unfold fpMemDecls; rw [if_neg (by simp [h]), if_pos hb]; exact List.mem_append_right _ (.head _)), ?_⟩
    simp [rawLoad, fpT, h, rawC, intT, hb]
  · refine ⟨_, mem_fpMem_flt h k (by rw [if_neg (by simp [hb])]; exact List.mem_append_right _ (.head _)), ?_⟩
    simp [rawLoad, fpT, h, rawC, intT, hb]
  · refine ⟨_, mem_fpMem_flt h k (by rw [if_pos hb]; exact List.mem_append_right _ (.head _)), ?_⟩
    simp [rawLoad, fpT, h, rawC, intT, hb]

theorem store_raw_fp (k : FK) :
    Declares m ⟨"$store", [rawC m, .ty (fpT m k)]⟩ [.map (intT m 8), .ref, fpT m k] (.map (intT m 8)) := by
  cases h : m.flt <;> cases hb : m.bp
  · refine ⟨_, mem_decls (g := fpMemDecls m) (by simp [groups]) (by unfold fpMemDecls; rw [if_neg (by simp [h]), if_neg (by simp [hb])]; exact List.mem_append_right _ (.tail _ (.head _))), ?_⟩
    simp [rawStore, fpT, h, rawC, intT, hb]
  · refine ⟨_, mem_decls (g := fpMemDecls m) (by simp [groups]) (by unfold fpMemDecls; rw [if_neg (by simp [h]), if_pos hb]; exact List.mem_append_right _ (.tail _ (.head _))), ?_⟩
    simp [rawStore, fpT, h, rawC, intT, hb]
  · refine ⟨_, mem_fpMem_flt h k (by rw [if_neg (by simp [hb])]; exact List.mem_append_right _ (.tail _ (.head _))), ?_⟩
    simp [rawStore, fpT, h, rawC, intT, hb]
  · refine ⟨_, mem_fpMem_flt h k (by rw [if_pos hb]; exact List.mem_append_right _ (.tail _ (.head _))), ?_⟩
    simp [rawStore, fpT, h, rawC, intT, hb]

theorem extract_fp (k : FK) : Declares m ⟨"$extractvalue", [.ty (fpT m k)]⟩ [.ref, .int] (fpT m k) := by
  cases h : m.flt with
  | true =>
    refine ⟨extractFun k.name, mem_decls (g := fpExtractDecls m) (by simp [groups]) ?_, by simp [extractFun, fpT, h]⟩
    unfold fpExtractDecls; rw [if_pos h]; exact List.mem_map_of_mem (f := fun k : FK => extractFun k.name) (mem_fks k)
  | false =>
    refine ⟨extractFun .ufloat, mem_decls (g := fpExtractDecls m) (by simp [groups]) ?_, by simp [extractFun, fpT, h]⟩
    unfold fpExtractDecls; rw [if_neg (by simp [h])]; exact .head _

theorem fp_ctor (h : m.flt = false) : Declares m ⟨"$fp", []⟩ [.int, .int, .int] .ufloat :=
  ⟨_, mem_decls (g := fpCtorDecls m) (by simp [groups]) (by unfold fpCtorDecls; rw [if_neg (by simp [h])]; exact .head _), rfl, rfl, rfl⟩

theorem okT_fpT (k : FK) : okT m (fpT m k) = true := by
  cases h : m.flt <;> cases k <;> simp [fpT, h, okT, FK.name]

end Smack.PreludeTy
