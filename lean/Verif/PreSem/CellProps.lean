/-
C91: pointers and floating-point values in memory.
-/
import Verif.PreSem.Cell
import Verif.PreSem.CellSpec
import Verif.PreSem.InstrProps

namespace Smack.PreSem
open PreludeTy FloatLit

variable {U : Type} {m : Mode} {A : Arith U} {I : Interp U} {gl ex : Int} {ρ ρ₁ ρ₂ : String → Val U}

theorem valTy_den (t : Emit.LTy) : valTy m t = den m (Emit.tyName m t) := by
  cases t with
  | int n => cases hb : m.bp <;> simp [valTy, Emit.tyName, intT, hb, den]
  | ptr => rfl
  | agg => rfl
  | fp k => cases hf : m.flt <;> cases k <;> simp [valTy, Emit.tyName, hf, den, format]

theorem valTy_map (t : Emit.LTy) : Ty.map (keyTy m) (valTy m t) = den m (.map (Emit.tyName m t)) := by rw [valTy_den]; rfl

theorem fmt (k : FK) : format k = (k.width, k.layout) := by cases k <;> rfl

/-- **C91.** A region all whose accesses have the same type, in any mode (integers, bit-vectors, floating point or not): a load from the
address of a store gives the value stored, and the store changes nothing at other addresses. -/
theorem c91_cell (D : Defines A m I) (h : m.Ok) {a b : Emit.Acc} (hmem : b.mem = a.mem) (hreg : b.reg = a.reg) (hty : b.ty = a.ty)
    (hr : a.reg.ty = some a.ty) (hby : a.reg.singleton = false → a.reg.bytewise = false)
    (ht : match a.ty with | .int n => n ∈ Emit.widths | .agg => False | _ => True)
    (hc : Typed m a.reg a.ty (ρ a.mem)) {z : Int} (hp : eval I ρ (Emit.expr m a.ptr false false) = .sc (key m z))
    {v : Emit.Val} {V : Val U} (hv : eval I ρ (Emit.expr m v false false) = V) (hV : V.Is (valTy m a.ty)) {x : String}
    (st : Steps I ρ (Emit.emit m (.store a v)) ρ₁) (hp' : eval I ρ₁ (Emit.expr m b.ptr false false) = .sc (key m z))
    (ld : Steps I ρ₁ (Emit.emit m (.load x b)) ρ₂) :
    ρ₂ = set ρ₁ x V ∧ Typed m a.reg a.ty (ρ₁ a.mem) ∧ (∀ y, y ≠ a.mem → ρ₁ y = ρ y) ∧
      (a.reg.singleton = false → Frame m (ρ a.mem) (ρ₁ a.mem) z 1) := by
  have hns : Emit.storeAssume m a.reg a.ty (Emit.expr m v false false) = none := by
    unfold Emit.storeAssume
    split
    · rw [if_pos]
      cases hs : a.reg.singleton
      · simp [hby hs]
      · simp
    · rfl
  have hun : Emit.unsafeFp m a.ty a.reg.ty = false := by
    rw [hr]; cases a.ty <;> simp [Emit.unsafeFp]
  simp only [Emit.emit, hns, Emit.stored] at st ld
  rw [steps_one] at st ld
  rw [ld, hmem, hreg, hty]
  unfold Typed at hc ⊢
  cases hs : a.reg.singleton with
  | true =>
    simp only [hs, if_true, Emit.storeEx, Emit.loadEx, eval, hv] at hc st ⊢
    subst st
    rw [set_same]
    exact ⟨rfl, hV, fun y hy => set_other hy, fun e => by cases e⟩
  | false =>
    have hb := hby hs
    simp only [hs, if_false, Bool.false_eq_true] at hc
    simp only [Emit.storeEx, hs, hb, hun, if_false, Bool.false_eq_true, List.nil_append, eval, evals, hp, hv] at st
    have hden : (ρ a.mem).Is (den m (.map (Emit.tyName m a.ty))) := by rw [← valTy_map]; exact hc
    obtain ⟨n, hn, d1, d2, o1, o2⟩ := cell_decls h (t := a.ty) (by
      revert ht; cases a.ty <;> first | exact id | (intro ht; exact widths_sizes ▸ ht))
    obtain ⟨f, hf, hk⟩ := is_map.mp (hc : (ρ a.mem).Is (.map (keyTy m) (valTy m a.ty)))
    rw [hf] at hden st
    obtain ⟨f', hf', h1, h2⟩ := safe_store D h hn d2 o2 hden z (valTy_den (m := m) a.ty ▸ hV)
    rw [← ptrV_key, hf'] at st
    have hfr : Frame m (ρ a.mem) (.map f') z 1 := ⟨f, f', hf, rfl, fun y hy => h2 _ (by have := hy 0 (by omega); rwa [key0] at this)⟩
    have hty' : (Val.map f').Is (.map (keyTy m) (valTy m a.ty)) := by
      refine is_map.mpr ⟨f', rfl, hk.1, fun κ hκ => ?_⟩
      by_cases e : κ = key m z
      · rw [e, h1]; exact hV
      · rw [h2 κ e]; exact hk.2 κ hκ
    have hm1 : ρ₁ a.mem = .map f' := by rw [st, set_same]
    refine ⟨?_, by rw [hm1]; simpa only [Bool.false_eq_true, if_false] using hty', fun y hy => by rw [st, set_other hy], fun _ => by rw [hm1]; exact hfr⟩
    simp only [Emit.loadEx, hs, hb, hun, if_false, Bool.false_eq_true, List.nil_append, eval, evals, hp', hm1]
    rw [← ptrV_key, safe_load D h d1 o1 (by rw [valTy_map] at hty'; exact hty'), h1]

/-! ### Pointers -/

theorem bytes_frame {z : Int} {w : Nat} {f f' : Sc U → Val U} (h8 : w % 8 = 0)
    (hfr : ∀ κ, (∀ i : Nat, i < (w + 7) / 8 → κ ≠ key m (z + i)) → f' κ = f κ) : Frame m (.map f) (.map f') z (w / 8) :=
  ⟨f, f', rfl, rfl, fun y hy => hfr _ fun i hi => hy i (by omega)⟩

theorem bytes_bytes {z : Int} {w : Nat} {a : BitVec w} {f f' : Sc U → Val U} (h8 : w % 8 = 0) (hk : ∀ z, ∃ b, f (key m z) = .bv 8 b)
    (hl : ∀ i : Nat, i < w / 8 → f' (key m (z + i)) = .bv 8 (a.extractLsb' (8 * i) 8))
    (hfr : ∀ κ, (∀ i : Nat, i < (w + 7) / 8 → κ ≠ key m (z + i)) → f' κ = f κ) : ∀ y, ∃ b, f' (key m y) = .bv 8 b := by
  intro y
  by_cases hin : ∃ i : Nat, i < (w + 7) / 8 ∧ (key m y : Sc U) = key m (z + i)
  · obtain ⟨i, hi, e⟩ := hin
    rw [e]; exact ⟨_, hl i (by omega)⟩
  · rw [hfr _ fun i hi e => hin ⟨i, hi, e⟩]; exact hk y

theorem bytes_unique {V : Val U} {z : Int} {w : Nat} {a b : BitVec w} (h8 : w % 8 = 0) (ha : Bytes m V z a) (hb : Bytes m V z b) : a = b := by
  obtain ⟨f, rfl, ha⟩ := ha
  obtain ⟨g, e, hb⟩ := hb
  injection e with e
  subst e
  apply BitVec.eq_of_getLsbD_eq
  intro i hi
  have e := bv_eq.mp ((ha (i / 8) (by omega)).symm.trans (hb (i / 8) (by omega)))
  have := congrArg (fun v : BitVec 8 => v.getLsbD (i % 8)) e
  simp only [BitVec.getLsbD_extractLsb', Nat.div_add_mod] at this
  simpa [Nat.mod_lt] using this

/-- **C91.** In a region accessed by bytes, storing the pointer to address `y` writes the bytes of `y` and nothing else; the store never
blocks. -/
theorem c91_pointer_store (D : Defines A m I) (h : m.Ok) (hb : m.bp = true) {a : Emit.Acc} (hty : a.ty = .ptr) (hc : Bytewise m a.reg (ρ a.mem))
    {z y : Int} (hp : eval I ρ (Emit.expr m a.ptr false false) = .sc (key m z)) {v : Emit.Val}
    (hv : eval I ρ (Emit.expr m v false false) = .sc (key m y)) :
    ∃ V, (∀ ρ₁, Steps I ρ (Emit.emit m (.store a v)) ρ₁ ↔ ρ₁ = set ρ a.mem V) ∧ Bytewise m a.reg V ∧
      Bytes m V z (BitVec.ofInt m.ptr y) ∧ Frame m (ρ a.mem) V z (m.ptr / 8) := by
  obtain ⟨hs, hby, f, hf, hk⟩ := hc
  obtain ⟨f', hf', hl, hfr⟩ := store_bytes D h hb h.ptr_mem (ptr8 h) hk z (BitVec.ofInt m.ptr y)
  rw [if_neg (ptr_nlt h)] at hl
  have h8 : m.ptr % 8 = 0 := by rcases h.ptr with h | h <;> rw [h]
  refine ⟨.map f', fun ρ₁ => ?_, ⟨hs, hby, f', rfl, bytes_bytes h8 hk hl hfr⟩, ⟨f', rfl, hl⟩, hf ▸ bytes_frame h8 hfr⟩
  simp only [Emit.emit, Emit.stored, hty, Emit.storeAssume, steps_one, Emit.storeEx, hs, hby, if_true, Bool.false_eq_true, if_false, eval, evals,
    Emit.tyName, hp, hv, hf, List.cons_append, List.nil_append]
  rw [← ptrV_key, ← ptrV_key, store_ptr D h hb hk z y, hf']

/-- **C91.** Loading a pointer from the bytes of `y` gives the pointer to `y`, provided `y` is a number that a signed integer of the size of
a pointer can have; with pointers that are bit-vectors, always. -/
theorem c91_pointer_load (D : Defines A m I) (h : m.Ok) (hb : m.bp = true) {a : Emit.Acc} (hty : a.ty = .ptr) (hc : Bytewise m a.reg (ρ a.mem))
    {z y : Int} (hp : eval I ρ (Emit.expr m a.ptr false false) = .sc (key m z)) (hy : Bytes m (ρ a.mem) z (BitVec.ofInt m.ptr y))
    (hr : m.bpp = true ∨ -2 ^ (m.ptr - 1) ≤ y ∧ y < 2 ^ (m.ptr - 1)) {x : String} :
    Steps I ρ (Emit.emit m (.load x a)) ρ₁ ↔ ρ₁ = set ρ x (.sc (key m y)) := by
  obtain ⟨hs, hby, f, hf, hk⟩ := hc
  obtain ⟨c, hc, hl⟩ := load_ptr D h hb hk z
  have h8 : m.ptr % 8 = 0 := by rcases h.ptr with h | h <;> rw [h]
  obtain rfl := bytes_unique h8 hy ⟨f, hf, hl⟩
  simp only [Emit.emit, hty, steps_one, Emit.loadEx, hs, hby, if_true, Bool.false_eq_true, if_false, eval, evals,
    Emit.tyName, hp, hf, List.cons_append, List.nil_append]
  rw [← ptrV_key, hc, ptrV_key]
  have e : (key m (BitVec.ofInt m.ptr y).toInt : Sc U) = key m y := by
    unfold key
    cases hpp : m.bpp
    · simp only [Bool.false_eq_true, if_false]
      rw [BitVec.toInt_ofInt, Int.bmod_eq_of_le_mul_two]
      all_goals
        rcases h.ptr with hw | hw <;> rw [hw] at hr ⊢ <;> simp only [hpp, Bool.false_eq_true, false_or] at hr <;> omega
    · simp only [if_true, BitVec.ofInt_toInt]
  rw [e]

/-- **C91**, the negation of the missing part: when pointers are integers and the address is none that a signed integer can have, another
pointer is loaded than the one stored. -/
theorem c91_pointer_fails (D : Defines A m I) (h : m.Ok) (hb : m.bp = true) (hpp : m.bpp = false) {a : Emit.Acc} (hty : a.ty = .ptr)
    (hc : Bytewise m a.reg (ρ a.mem)) {z y : Int} (hp : eval I ρ (Emit.expr m a.ptr false false) = .sc (key m z))
    (hy : Bytes m (ρ a.mem) z (BitVec.ofInt m.ptr y)) (hr : 2 ^ (m.ptr - 1) ≤ y ∧ y < 2 ^ m.ptr) {x : String} :
    Steps I ρ (Emit.emit m (.load x a)) ρ₁ ↔ ρ₁ = set ρ x (.int (y - 2 ^ m.ptr)) := by
  obtain ⟨hs, hby, f, hf, hk⟩ := hc
  obtain ⟨c, hc, hl⟩ := load_ptr D h hb hk z
  have h8 : m.ptr % 8 = 0 := by rcases h.ptr with h | h <;> rw [h]
  obtain rfl := bytes_unique h8 hy ⟨f, hf, hl⟩
  simp only [Emit.emit, hty, steps_one, Emit.loadEx, hs, hby, if_true, Bool.false_eq_true, if_false, eval, evals,
    Emit.tyName, hp, hf, List.cons_append, List.nil_append]
  rw [← ptrV_key, hc]
  have e : (BitVec.ofInt m.ptr y).toInt = y - 2 ^ m.ptr := by
    rw [BitVec.toInt_ofInt, ← Int.sub_bmod_right, Int.bmod_eq_of_le_mul_two]
    all_goals rcases h.ptr with hw | hw <;> rw [hw] at hr ⊢ <;> omega
  simp only [ptrV, hpp, Bool.false_eq_true, if_false, e]

/-! ### Floating point -/

theorem decoded_fp (k : FK) (a : BitVec k.width) : ∃ b : BitVec (format k).1, (fpV k a : Val U) = decoded k b ∧ ∀ i, b.getLsbD i = a.getLsbD i := by
  cases k <;> exact ⟨a, rfl, fun _ => rfl⟩

theorem valTy_fp (hf : m.flt = true) (k : FK) : valTy m (.fp k) = den m k.name := by rw [valTy_den, tyName_fp, fpT_flt hf]

/-- **C91.** With floating-point types and bit-vectors, in a region accessed by bytes: the statements of a store write the bytes of a bit pattern of
the value, and nothing else. -/
theorem c91_float_store (D : Defines A m I) (h : m.Ok) (hb : m.bp = true) (hf : m.flt = true) {a : Emit.Acc} {k : FK} (hty : a.ty = .fp k)
    (hc : Bytewise m a.reg (ρ a.mem)) {z : Int} (hp : eval I ρ (Emit.expr m a.ptr false false) = .sc (key m z)) {v : Emit.Val} {V : Val U}
    (hv : eval I ρ (Emit.expr m v false false) = V) (hV : V.Is (valTy m (.fp k)))
    (hm : eval I ρ₁ (Emit.expr m v false false) = V) (st : Steps I ρ (Emit.emit m (.store a v)) ρ₁) :
    ∃ W, ρ₁ = set ρ a.mem W ∧ Bytewise m a.reg W ∧ Frame m (ρ a.mem) W z ((format k).1 / 8) ∧
      ∃ b : BitVec (format k).1, Bytes m W z b ∧ decoded k b = V := by
  obtain ⟨hs, hby, f, hfm, hk⟩ := hc
  obtain ⟨hw, h8, hlt, _⟩ := fk_width k
  rw [valTy_fp hf] at hV
  obtain ⟨c, hc⟩ := cast_to D h hb k (x := V) (by rw [fpT_flt hf]; exact hV)
  rw [fpT_flt hf] at hc
  obtain ⟨f', hf', hl, hfr⟩ := store_bytes D h hb hw (.inl h8) hk z c
  rw [if_neg hlt] at hl
  have hW : eval I ρ (Emit.storeEx m a.mem a.reg a.ty (Emit.expr m a.ptr false false) (Emit.stored m v)) = .map f' := by
    simp only [Emit.stored, hty, Emit.storeEx, hs, hby, if_true, Bool.false_eq_true, if_false, eval, evals, hp, hv, hfm, tyName_fp, fpT_flt hf,
      List.cons_append, List.nil_append]
    rw [← ptrV_key, store_fp D h hb hf k hk z hV, hc, hf']
  have hA : Emit.storeAssume m a.reg a.ty (Emit.expr m v false false) = some (.bin .eq (.fn ⟨"$bitcast", [.ty (.bv k.width), .ty k.name]⟩
        [.fn ⟨"$bitcast", [.ty k.name, .ty (.bv k.width)]⟩ [Emit.expr m v false false]]) (Emit.expr m v false false)) := by
    simp only [hty, Emit.storeAssume, hs, hby, Emit.inverseAssume, hb, hf, tyName_fp, fpT_flt hf]
    simp [Emit.tyName, intT, hb]
  simp only [Emit.emit, hA] at st
  rw [steps_assign, hW, steps_assume] at st
  obtain ⟨hq, st⟩ := st
  rw [steps_nil] at st
  subst st
  rw [eval, eval, evals, evals, eval, evals, evals, hm, hc, cast_of D h hb hf] at hq
  have hq : fpV k c = V := by simpa [evalBin] using hq
  obtain ⟨b, hb1, hb2⟩ := decoded_fp (U := U) k c
  refine ⟨_, rfl, ⟨hs, hby, f', rfl, bytes_bytes h8 hk hl hfr⟩, ?_, b, ⟨f', rfl, fun i hi => ?_⟩, hb1 ▸ hq⟩
  · rw [hfm, fmt]; exact bytes_frame h8 hfr
  · rw [fmt] at hi
    rw [hl i hi]
    congr 1
    apply BitVec.eq_of_getLsbD_eq
    intro j hj
    simp [hb2]

/-- **C91.** A load gives the value whose bit pattern is in memory, whether a floating-point value or an integer has been stored there. -/
theorem c91_float_load (D : Defines A m I) (h : m.Ok) (hb : m.bp = true) (hf : m.flt = true) {a : Emit.Acc} {k : FK} (hty : a.ty = .fp k)
    (hc : Bytewise m a.reg (ρ a.mem)) {z : Int} (hp : eval I ρ (Emit.expr m a.ptr false false) = .sc (key m z)) {x : String}
    {b : BitVec (format k).1} (hbits : Bytes m (ρ a.mem) z b) :
    Steps I ρ (Emit.emit m (.load x a)) ρ₁ ↔ ρ₁ = set ρ x (decoded k b) := by
  obtain ⟨hs, hby, f, hfm, hk⟩ := hc
  obtain ⟨c, hc, hl⟩ := load_fp D h hb hf k hk z
  have e : (fpV k c : Val U) = decoded k b := by
    obtain ⟨d, hd, hbits'⟩ := decoded_fp (U := U) k c
    rw [hd]
    congr 1
    refine bytes_unique (by rw [fmt]; exact (fk_width k).2.1) ⟨f, hfm, fun i hi => ?_⟩ hbits
    rw [fmt] at hi
    rw [hl i hi]
    congr 1
    apply BitVec.eq_of_getLsbD_eq
    intro j hj
    simp [hbits']
  simp only [Emit.emit, hty, steps_one, Emit.loadEx, hs, hby, if_true, Bool.false_eq_true, if_false, eval, evals, tyName_fp, fpT_flt hf, hp, hfm,
    List.cons_append, List.nil_append]
  rw [← ptrV_key, hc, e]

/-- **C91.** So a load from the address of a store gives the value stored. -/
theorem c91_float_store_load (D : Defines A m I) (h : m.Ok) (hb : m.bp = true) (hf : m.flt = true) {a b : Emit.Acc} {k : FK} (hty : a.ty = .fp k)
    (hmem : b.mem = a.mem) (hreg : b.reg = a.reg) (hty' : b.ty = a.ty) (hc : Bytewise m a.reg (ρ a.mem)) {z : Int}
    (hp : eval I ρ (Emit.expr m a.ptr false false) = .sc (key m z)) {v : Emit.Val} {V : Val U}
    (hv : eval I ρ (Emit.expr m v false false) = V) (hV : V.Is (valTy m (.fp k)))
    (hm : eval I ρ₁ (Emit.expr m v false false) = V) (hp' : eval I ρ₁ (Emit.expr m b.ptr false false) = .sc (key m z)) {x : String}
    (st : Steps I ρ (Emit.emit m (.store a v)) ρ₁) (ld : Steps I ρ₁ (Emit.emit m (.load x b)) ρ₂) : ρ₂ = set ρ₁ x V := by
  obtain ⟨W, rfl, hw, _, c, hc', rfl⟩ := c91_float_store D h hb hf hty hc hp hv hV hm st
  refine (c91_float_load D h hb hf (hty'.trans hty) ?_ hp' ?_).mp ld
  · rw [hmem, hreg, set_same]; exact hw
  · rw [hmem, set_same]; exact hc'

/-! ### Models in which the assumption holds -/

theorem name_inj {k l : FK} (h : k.name = l.name) : k = l := by cases k <;> cases l <;> first | rfl | cases h

/-- `$bitcast` to an integer gives a bit pattern of the value. -/
noncomputable def patterns [Inhabited U] (m : Mode) (s : Sym) (args : List (Val U)) : Val U :=
  open Classical in
  if h : ∃ k : FK, ∃ a : BitVec k.width, s = ⟨"$bitcast", [.ty k.name, .ty (.bv k.width)]⟩ ∧ args = [fpV k a] then .bv h.choose.width h.choose_spec.choose
  else someFree m s args

theorem patterns_eq [Inhabited U] {k : FK} {x : Val U} (hx : x.Is (.fp k.layout.2 k.layout.1)) :
    ∃ a : BitVec k.width, patterns m ⟨"$bitcast", [.ty k.name, .ty (.bv k.width)]⟩ [x] = .bv k.width a ∧ fpV k a = x := by
  have h : ∃ l : FK, ∃ a : BitVec l.width, (⟨"$bitcast", [.ty k.name, .ty (.bv k.width)]⟩ : Sym) = ⟨"$bitcast", [.ty l.name, .ty (.bv l.width)]⟩ ∧ [x] = [fpV l a] := by
    obtain ⟨b, hb⟩ := is_fp.mp hx
    refine ⟨k, b.setWidth _, rfl, ?_⟩
    rw [hb, fpV, BitVec.setWidth_setWidth_of_le _ (by rw [(fk_width k).2.2.2]; exact Nat.le_refl _), BitVec.setWidth_eq]
  unfold patterns
  rw [dif_pos h]
  have e := h.choose_spec.choose_spec
  revert e
  generalize h.choose_spec.choose = b
  revert b
  generalize h.choose = l
  intro b ⟨e1, e2⟩
  injection e1 with _ e1
  injection e1 with e1
  injection e1 with e1
  obtain rfl := name_inj e1
  injection e2 with e2
  exact ⟨b, rfl, e2.symm⟩

theorem patterns_free [Inhabited U] (hb : m.bp = true) (hf : m.flt = true) : Free m (patterns (U := U) m) where
  typed := by
    intro d hd h1 h2 Ts T hp hr args ha
    unfold patterns
    split
    · rename_i h
      have e := h.choose_spec.choose_spec.1
      revert e
      generalize h.choose_spec.choose = b
      revert b
      generalize h.choose = l
      intro b e
      have h3 := declOf_mem (castTo_decl (m := m) l)
      have h4 := declOf_mem hd
      simp only [intT, hb, if_true, fpT_flt hf] at h3
      rw [e, h3] at h4
      injection h4 with h4
      subst h4
      rw [(resolves_inv hr).1]
      exact bvIs b
    · exact someFree_free.typed d hd h1 h2 Ts T hp hr args ha
  and1 := fun h => by rw [hb] at h; cases h
  or1 := fun h => by rw [hb] at h; cases h
  xor1 := fun h => by rw [hb] at h; cases h
  and32 := fun h => by rw [hb] at h; cases h

/-- **C91.** The assumption that follows a store of a floating-point value excludes no execution: there is a model of the prelude in which it always
holds, for all values of all formats. -/
theorem c91_not_blocking [Inhabited U] (h : m.Ok) (hb : m.bp = true) (hf : m.flt = true) (hA : A.Typed m) (gl ex : Int) :
    ∃ I, Models A m gl ex I ∧ ∀ (ρ : String → Val U) (a : Emit.Acc) (k : FK) (v : Emit.Val) (V : Val U), a.ty = .fp k → V.Is (valTy m (.fp k)) →
      (∀ W, eval I (set ρ a.mem W) (Emit.expr m v false false) = V) → ∃ ρ₁, Steps I ρ (Emit.emit m (.store a v)) ρ₁ := by
  refine ⟨interp A (patterns m) m gl ex, interp_models h hA (patterns_free hb hf), fun ρ a k v V hty hV hv => ?_⟩
  have D := (interp_models (gl := gl) (ex := ex) h hA (patterns_free hb hf)).toDefines
  rw [valTy_fp hf] at hV
  obtain ⟨c, hc, hcV⟩ := patterns_eq (m := m) (k := k) (x := V) (by rw [den_fk] at hV; exact hV)
  have hto : (interp A (patterns m) m gl ex).fn ⟨"$bitcast", [.ty k.name, .ty (.bv k.width)]⟩ [V] = .bv k.width c := by
    have hd := castTo_decl (m := m) k
    simp only [intT, hb, if_true, fpT_flt hf] at hd
    exact (interp_free hd rfl rfl _).trans hc
  simp only [Emit.emit]
  generalize Emit.storeEx m a.mem a.reg a.ty (Emit.expr m a.ptr false false) (Emit.stored m v) = e
  have hA : Emit.storeAssume m a.reg a.ty (Emit.expr m v false false) = none ∨
      Emit.storeAssume m a.reg a.ty (Emit.expr m v false false) = some (.bin .eq (.fn ⟨"$bitcast", [.ty (.bv k.width), .ty k.name]⟩
        [.fn ⟨"$bitcast", [.ty k.name, .ty (.bv k.width)]⟩ [Emit.expr m v false false]]) (Emit.expr m v false false)) := by
    simp only [hty, Emit.storeAssume]
    split
    · exact .inl rfl
    · right
      simp only [Emit.inverseAssume, hb, hf, tyName_fp, fpT_flt hf]
      simp [Emit.tyName, intT, hb]
  rcases hA with hA | hA <;> simp only [hA]
  · exact ⟨_, steps_one.mpr rfl⟩
  · refine ⟨_, steps_assign.mpr (steps_assume.mpr ⟨?_, .nil⟩)⟩
    simp only [eval, evals, hv, hto, cast_of D h hb hf, evalBin, hcV]
    simp

/-! ### What fails -/

theorem someFree_fp [Inhabited U] {d : Fun} (hd : d ∈ decls m) {s e : Nat} (hr : den m d.ret = .fp s e) (args : List (Val U)) :
    someFree m d.sym args = dflt (.fp s e) := by
  unfold someFree
  rw [declOf_mem hd]
  dsimp only
  rw [hr]

theorem someFree_bv [Inhabited U] {d : Fun} (hd : d ∈ decls m) {n : Nat} (hr : den m d.ret = .bv n) (args : List (Val U)) :
    someFree m d.sym args = dflt (.bv n) := by
  unfold someFree
  rw [declOf_mem hd]
  dsimp only
  rw [hr]

/-- **C91**, the negation of the missing part: without the assumption, as in the initialisation of global variables, there is a model in which every
value written to a region accessed by bytes is read as zero. -/
theorem c91_no_assume_fails [Inhabited U] (h : m.Ok) (hb : m.bp = true) (hf : m.flt = true) (hA : A.Typed m) (gl ex : Int) :
    ∃ I, Models A m gl ex I ∧ ∀ (ρ ρ₁ : String → Val U) (a : Emit.Acc) (k : FK) (p e : Ex) (z : Int) (V : Val U) (x : String), a.ty = .fp k →
      Bytewise m a.reg (ρ a.mem) → eval I ρ p = .sc (key m z) → eval I ρ e = V → V.Is (valTy m (.fp k)) →
      (∀ W, eval I (set ρ a.mem W) (Emit.expr m a.ptr false false) = .sc (key m z)) →
      Steps I ρ (.assign a.mem (Emit.storeEx m a.mem a.reg a.ty p e) :: Emit.emit m (.load x a)) ρ₁ → ρ₁ x = decoded k 0#_ := by
  refine ⟨interp A (someFree m) m gl ex, interp_models h hA someFree_free, fun ρ ρ₁ a k p e z V x hty hc hp he hV hp' st => ?_⟩
  have D := (interp_models (gl := gl) (ex := ex) h hA (someFree_free (U := U))).toDefines
  obtain ⟨hs, hby, f, hfm, hk⟩ := hc
  obtain ⟨hw, h8, hlt, _⟩ := fk_width k
  rw [valTy_fp hf] at hV
  have hto : (interp A (someFree m) m gl ex).fn ⟨"$bitcast", [.ty k.name, .ty (.bv k.width)]⟩ [V] = .bv k.width 0#_ := by
    have hd := castTo_decl (m := m) k
    simp only [intT, hb, if_true, fpT_flt hf] at hd
    exact (interp_free hd rfl rfl _).trans (someFree_bv hd rfl _)
  obtain ⟨f', hf', hl, hfr⟩ := store_bytes D h hb hw (.inl h8) hk z 0#k.width
  rw [if_neg hlt] at hl
  have hW : eval (interp A (someFree m) m gl ex) ρ (Emit.storeEx m a.mem a.reg a.ty p e) = .map f' := by
    simp only [hty, Emit.storeEx, hs, hby, if_true, Bool.false_eq_true, if_false, eval, evals, hp, he, hfm, tyName_fp, fpT_flt hf,
      List.cons_append, List.nil_append]
    rw [← ptrV_key, store_fp D h hb hf k hk z hV, hto, hf']
  rw [steps_assign, hW] at st
  rw [(c91_float_load D h hb hf hty (ρ := set ρ a.mem (.map f')) (by rw [set_same]; exact ⟨hs, hby, f', rfl, bytes_bytes h8 hk hl hfr⟩) (hp' _)
    (b := 0#_) (by
      rw [set_same]
      refine ⟨f', rfl, fun i hi => ?_⟩
      rw [fmt] at hi
      rw [hl i hi]; simp)).mp st, set_same]

/-- **C91**, the negation of the missing part: with floating-point types but integers that are no bit-vectors, in a region with accesses of several
types, there is a model in which every value stored is read as the same one. -/
theorem c91_unsafe_fails [Inhabited U] (h : m.Ok) (hb : m.bp = false) (hf : m.flt = true) (hA : A.Typed m) (gl ex : Int) :
    ∃ I, Models A m gl ex I ∧ ∀ k : FK, ∃ c : Val U, ∀ (ρ ρ₁ ρ₂ : String → Val U) (a : Emit.Acc) (v : Emit.Val) (z : Int) (x : String), a.ty = .fp k →
      a.reg = ⟨none, false, false⟩ → Typed m a.reg (.int 8) (ρ₁ a.mem) → 
      eval I ρ₁ (Emit.expr m a.ptr false false) = .sc (key m z) →
      Steps I ρ (Emit.emit m (.store a v)) ρ₁ → Steps I ρ₁ (Emit.emit m (.load x a)) ρ₂ → ρ₂ x = c := by
  refine ⟨interp A (someFree m) m gl ex, interp_models h hA someFree_free, fun k => ⟨dflt (.fp k.layout.2 k.layout.1), fun ρ ρ₁ ρ₂ a v z x hty hr hc hp' _ ld => ?_⟩⟩
  have D := (interp_models (gl := gl) (ex := ex) h hA (someFree_free (U := U))).toDefines
  simp only [Emit.emit, steps_one] at ld
  rw [ld, set_same]
  have hun : Emit.unsafeFp m (.fp k) none = true := by simp [Emit.unsafeFp, hb]
  simp only [Emit.loadEx, hr, hty, hun, Bool.false_eq_true, if_true, if_false, eval, evals, tyName_fp, fpT_flt hf, hp', List.cons_append, List.nil_append]
  have hd : rawLoad false k.name (.fn ⟨"$bitcast", [.ty (.i k.width), .ty k.name]⟩ [.fn ⟨"$load", [.ty (.i k.width)]⟩ [PreludeTy.v "M", PreludeTy.v "p"]]) ∈ fpMemDecls m := by
    unfold fpMemDecls; rw [if_pos hf]; exact List.mem_flatMap.mpr ⟨k, mem_fks k, List.mem_append_right _ (by rw [if_neg (by simp [hb])]; pos)⟩
  have hM : (ρ₁ a.mem).Is (den m (.map (.i 8))) := by
    have := hc
    simp only [Typed, hr, Bool.false_eq_true, if_false, valTy_map, Emit.tyName, intT, hb] at this
    exact this
  rw [← ptrV_key]
  refine (app_body D (fpMem_decls hd) (fpMem_ok h hd) rfl (args := [ρ₁ a.mem, ptrV m z]) (all2 hM (ptrV_is z))).trans ?_
  simp only [eval, evals]
  have hd := castOf_decl (m := m) k
  simp only [intT, hb, Bool.and_false, Bool.false_eq_true, if_false, fpT_flt hf] at hd
  exact (interp_free hd rfl rfl _).trans (someFree_fp hd (den_fk k) _)

/-- **C91**, the negation of the missing part: with bit-vectors and without floating-point types, in a region accessed by bytes, storing a
floating-point value of any format changes one byte only. The other bytes of its memory keep what they had. -/
theorem c91_one_byte_fails (D : Defines A m I) (h : m.Ok) (hb : m.bp = true) (hf : m.flt = false) {a : Emit.Acc} {k : FK} (hty : a.ty = .fp k)
    (hc : Bytewise m a.reg (ρ a.mem)) {z : Int} (hp : eval I ρ (Emit.expr m a.ptr false false) = .sc (key m z)) {v : Emit.Val} {V : Val U}
    (hv : eval I ρ (Emit.expr m v false false) = V) (hV : V.Is (valTy m (.fp k))) (st : Steps I ρ (Emit.emit m (.store a v)) ρ₁) :
    Frame m (ρ a.mem) (ρ₁ a.mem) z 1 := by
  obtain ⟨hs, hby, f, hfm, hk⟩ := hc
  have hT : fpT m k = .ufloat := by simp [fpT, hf]
  obtain ⟨f', hf', _, hfr⟩ := store_uf D h hb hf hk z (x := V) (by rw [valTy_den, tyName_fp, hT] at hV; exact hV)
  have hW : eval I ρ (Emit.storeEx m a.mem a.reg a.ty (Emit.expr m a.ptr false false) (Emit.stored m v)) = .map f' := by
    simp only [Emit.stored, hty, Emit.storeEx, hs, hby, if_true, Bool.false_eq_true, if_false, eval, evals, hp, hv, hfm, tyName_fp, hT,
      List.cons_append, List.nil_append]
    rw [← ptrV_key, hf']
  have hA : Emit.storeAssume m a.reg a.ty (Emit.expr m v false false) = none := by
    simp [hty, Emit.storeAssume, Emit.inverseAssume, hf]
  simp only [Emit.emit, hA, steps_one, hW] at st
  rw [st, set_same, hfm]
  exact ⟨f, f', rfl, rfl, fun y hy => hfr _ (by have := hy 0 (by omega); rwa [key0] at this)⟩

/-- **C91**, the same for loads: the value loaded depends on one byte only. -/
theorem c91_read_byte_fails (D : Defines A m I) (h : m.Ok) (hb : m.bp = true) (hf : m.flt = false) {a : Emit.Acc} {k : FK} (hty : a.ty = .fp k)
    (hr : a.reg.singleton = false ∧ a.reg.bytewise = true) {f g : Sc U → Val U} (hk : ∀ z, ∃ b, f (key m z) = .bv 8 b) (hk' : ∀ z, ∃ b, g (key m z) = .bv 8 b)
    (h1 : ρ a.mem = .map f) (h2 : ρ₁ a.mem = .map g) {z : Int} (hp : eval I ρ (Emit.expr m a.ptr false false) = .sc (key m z))
    (hp' : eval I ρ₁ (Emit.expr m a.ptr false false) = .sc (key m z)) (he : f (key m z) = g (key m z)) {x : String} {ρ' ρ₁' : String → Val U}
    (l1 : Steps I ρ (Emit.emit m (.load x a)) ρ') (l2 : Steps I ρ₁ (Emit.emit m (.load x a)) ρ₁') : ρ' x = ρ₁' x := by
  have hT : fpT m k = .ufloat := by simp [fpT, hf]
  simp only [Emit.emit, steps_one] at l1 l2
  rw [l1, l2, set_same, set_same]
  simp only [hty, Emit.loadEx, hr, if_true, Bool.false_eq_true, if_false, eval, evals, hp, hp', h1, h2, tyName_fp, hT, List.cons_append, List.nil_append]
  rw [← ptrV_key, load_uf D h hb hf hk, load_uf D h hb hf hk', he]

/-- **C91**, the negation of the missing part: the bytes of an x87 extended-precision number are not read as that number. Those of 1.0 are read as 1.5,
because the prelude's format for `long double` has no explicit leading digit. -/
theorem c91_x87_fails (D : Defines A m I) (h : m.Ok) (hb : m.bp = true) (hf : m.flt = true) {a : Emit.Acc} (hty : a.ty = .fp .longdouble)
    (hc : Bytewise m a.reg (ρ a.mem)) {z : Int} (hp : eval I ρ (Emit.expr m a.ptr false false) = .sc (key m z)) {x : String}
    (hbits : Bytes m (ρ a.mem) z 0x3FFF8000000000000000#80) :
    x87 0x3FFF8000000000000000#80 = .fin false 1 ∧
    (Steps I ρ (Emit.emit m (.load x a)) ρ₁ ↔ ρ₁ = set ρ x (.fp 65 15 (.fin false (3 / 2)))) := by
  refine ⟨?_, ?_⟩
  · simp only [x87]; rw [if_neg (by decide), if_neg (by decide)]; exact congrArg (Datum.fin false) (by decide +kernel)
  rw [c91_float_load D h hb hf hty hc hp (b := 0x3FFF8000000000000000#80) hbits]
  rw [show (decoded .longdouble 0x3FFF8000000000000000#80 : Val U) = .fp 65 15 (.fin false (3 / 2)) from by
    refine congrArg (Val.fp 65 15) ?_
    show ieee 15 65 0x3FFF8000000000000000#80 = _
    simp only [ieee]; rw [if_neg (by decide), if_neg (by decide)]; exact congrArg (Datum.fin false) (by decide +kernel)]

/-! ### Cases -/

section
def exD (t : Emit.LTy) : Emit.Acc := ⟨"$M.0", ⟨none, false, true⟩, t, .reg "$p0" .ptr⟩
def exC (t : Emit.LTy) : Emit.Acc := ⟨"$M.0", ⟨some t, false, false⟩, t, .reg "$p0" .ptr⟩

variable {f : Sc U → Val U}

/-- The number 1 is stored as a `double` at address 4096 and read back; the store writes the bytes of a pattern of 1. -/
example (M : Models A Emit.mBv gl ex I) (hp : ρ "$p0" = .bv 64 4096) (hM : ρ "$M.0" = .map f) (hf : ∀ k, f k = .bv 8 0)
    (hd : ρ "$d0" = decoded .double 0x3FF0000000000000#64)
    (st : Steps I ρ (Emit.emit Emit.mBv (.store (exD (.fp .double)) (.reg "$d0" (.fp .double)))) ρ₁)
    (ld : Steps I ρ₁ (Emit.emit Emit.mBv (.load "$d1" (exD (.fp .double)))) ρ₂) : ρ₂ = set ρ₁ "$d1" (decoded .double 0x3FF0000000000000#64) := by
  have hm : ∃ W, ρ₁ = set ρ "$M.0" W := by
    have : Emit.emit Emit.mBv (.store (exD (.fp .double)) (.reg "$d0" (.fp .double))) = .assign "$M.0" _ :: [.assume _] := rfl
    rw [this, steps_assign, steps_assume, steps_nil] at st
    exact ⟨_, st.2⟩
  obtain ⟨W, rfl⟩ := hm
  exact c91_float_store_load (ρ₁ := set ρ "$M.0" W) (a := exD (.fp .double)) (b := exD (.fp .double)) (k := .double) (z := 4096) (v := .reg "$d0" (.fp .double)) M.toDefines Emit.mBv_ok rfl rfl rfl rfl rfl rfl
    ⟨rfl, rfl, f, hM, fun z => ⟨0, hf _⟩⟩ hp hd (is_fp.mpr ⟨0x3FF0000000000000#64, rfl⟩) hd hp st ld

/-- The pointer to address 8192 is stored at address 4096 and read back; nothing blocks. -/
example (M : Models A Emit.mBv gl ex I) (hp : ρ "$p0" = .bv 64 4096) (hq : ρ "$p1" = .bv 64 8192) (hM : ρ "$M.0" = .map f) (hf : ∀ k, f k = .bv 8 0) :
    ∃ V, ∀ ρ₂, Steps I ρ (Emit.emit Emit.mBv (.store (exD .ptr) (.reg "$p1" .ptr)) ++ Emit.emit Emit.mBv (.load "$p2" (exD .ptr))) ρ₂ ↔
      ρ₂ = set (set ρ "$M.0" V) "$p2" (.bv 64 8192) := by
  obtain ⟨V, h1, h2, h3, _⟩ := c91_pointer_store (a := exD .ptr) (z := 4096) (y := 8192) M.toDefines Emit.mBv_ok rfl rfl ⟨rfl, rfl, f, hM, fun z => ⟨0, hf _⟩⟩ hp
    (v := .reg "$p1" .ptr) hq
  refine ⟨V, fun ρ₂ => ?_⟩
  have hl := c91_pointer_load (ρ := set ρ "$M.0" V) (ρ₁ := ρ₂) (a := exD .ptr) (x := "$p2") M.toDefines Emit.mBv_ok rfl rfl h2 (z := 4096) (y := 8192) hp h3 (.inl rfl)
  rw [steps_append]
  constructor
  · rintro ⟨τ, h4, h5⟩
    rw [(h1 τ).mp h4] at h5
    exact hl.mp h5
  · intro e
    exact ⟨_, (h1 _).mpr rfl, hl.mpr e⟩

/-- A region of `float`s in the default mode, in which they are values of a type without definition. -/
example (M : Models A Emit.mInt gl ex I) (hp : ρ "$p0" = .int 4096) {u u' : U} (hM : ρ "$M.0" = .map fun _ => .sc (.opq .ufloat u'))
    (hd : ρ "$f0" = .sc (.opq .ufloat u))
    (st : Steps I ρ (Emit.emit Emit.mInt (.store (exC (.fp .single)) (.reg "$f0" (.fp .single)))) ρ₁)
    (ld : Steps I ρ₁ (Emit.emit Emit.mInt (.load "$f1" (exC (.fp .single)))) ρ₂) : ρ₂ "$f1" = .sc (.opq .ufloat u) := by
  have hm : ∃ W, ρ₁ = set ρ "$M.0" W := ⟨_, steps_one.mp st⟩
  obtain ⟨W, rfl⟩ := hm
  have := (c91_cell (a := exC (.fp .single)) (b := exC (.fp .single)) (z := 4096) (v := .reg "$f0" (.fp .single)) M.toDefines Emit.mInt_ok rfl rfl rfl rfl (fun _ => rfl) trivial
    (by
      show Val.Is (.map .int (.opaque .ufloat)) (ρ "$M.0")
      rw [hM]
      exact is_map.mpr ⟨_, rfl, fun _ _ h => (by cases h), fun _ _ => rfl⟩) hp hd rfl st hp ld).1
  rw [this, set_same]

/-- Bit-vectors without floating-point types. -/
def mBvNoFp : Mode := ⟨true, true, false, false, false, 64⟩

theorem mBvNoFp_ok : mBvNoFp.Ok := ⟨.inr rfl, fun h => by cases h⟩

/-- `union { double d; int i[2]; } u`: after a store to `u.d`, the high word `u.i[1]` still is what it was. -/
example (M : Models A mBvNoFp gl ex I) (hp : ρ "$p0" = .bv 64 4096) {u : U} {b : BitVec 32} (hM : ρ "$M.0" = .map f) (hf : ∀ z, ∃ b, f (key mBvNoFp z) = .bv 8 b)
    (hi : Holds mBvNoFp ⟨none, false, true⟩ 32 (ρ "$M.0") 4100 b) (hd : ρ "$d0" = .sc (.opq .ufloat u))
    (st : Steps I ρ (Emit.emit mBvNoFp (.store (exD (.fp .double)) (.reg "$d0" (.fp .double)))) ρ₁) :
    Holds mBvNoFp ⟨none, false, true⟩ 32 (ρ₁ "$M.0") 4100 b := by
  have := c91_one_byte_fails (a := exD (.fp .double)) (k := .double) (z := 4096) M.toDefines mBvNoFp_ok rfl rfl rfl ⟨rfl, rfl, f, hM, hf⟩ hp (v := .reg "$d0" (.fp .double)) hd rfl st
  refine c90_preserved rfl (by decide) this hi fun i hi j hj => ?_
  obtain rfl : i = 0 := by omega
  have := key_ne (U := U) mBvNoFp_ok (z := 4096) (i := 0) (j := 4 + j) (by omega) (by have : j < 4 := hj; omega)
  intro e
  apply this
  rw [e.symm, show (4096 : Int) + ((4 + j : Nat) : Int) = 4100 + j by omega]
end

end Smack.PreSem
