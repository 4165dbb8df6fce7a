/-
C90: the statements emitted for instructions compute what LLVM's instructions compute, in bit-vector mode.
-/
import Verif.PreSem.Exec
import Verif.PreSem.Props

namespace Smack.PreSem
open PreludeTy

variable {U : Type} {m : Mode} {A : Arith U} {I : Interp U} {gl ex : Int}
  {μ : String → Option ((w : Nat) × BitVec w)} {α : String → Option Int} {ρ ρ' : String → Val U}

theorem Agree.set (hρ : Agree m I μ α ρ) {x : String} (hx : μ x = none) (hα : α x = none) (h0 : x ≠ "$0.ref") (v : Val U) :
    Agree m I μ α (set ρ x v) where
  int := agree_set hρ.int hx v
  ptr := by
    intro y z hy
    rw [set_other (by rintro rfl; rw [hα] at hy; cases hy)]
    exact hρ.ptr y z hy
  null := by rw [set_other (Ne.symm h0)]; exact hρ.null

theorem Agree.adr (hρ : Agree m I μ α ρ) (M : Models A m gl ex I) (h : m.Ok) (hb : m.bp = true) {v : Emit.Val} {z : Int} (hv : Adr μ α m.ptr v z)
    (hs : v.All Emit.Val.sup) (u ui : Bool) : eval I ρ (Emit.expr m v u ui) = ptrV m z :=
  text_adr M h hb hρ.int (fun x z hx => by rw [ptrV_key]; exact hρ.ptr x z hx) hρ.null hv hs u ui

/-- C90, results. The statements of an instruction with an integer result have exactly one outcome: the register of the result gets
LLVM's result, and nothing else changes. -/
theorem c90_result (M : Models A m gl ex I) (h : m.Ok) (hb : m.bp = true) (hρ : Agree m I μ α ρ) {i : Emit.Instr} {x : String} {w : Nat}
    {a : BitVec w} (hr : Res μ i x w a) (hx : μ x = none) (hw : w ∈ Emit.widths) (hs : ∀ v ∈ operands i, v.All Emit.Val.sup) :
    Steps I ρ (Emit.emit m i) ρ' ↔ ρ' = set ρ x (.bv w a) :=
  res_steps M.toDefines h hb hρ.int hr hx (widths_sizes ▸ hw) hs

/-- C90, conditions. A branch is taken along the first edge exactly if its condition is 1, otherwise along the second; an assumption blocks
unless it is 1; a return sets the result and clears the exception flag. -/
theorem c90_control (M : Models A m gl ex I) (h : m.Ok) (hb : m.bp = true) (hρ : Agree m I μ α ρ) {v : Emit.Val} (hs : v.All Emit.Val.sup) :
    (∀ a, Sem μ v 1 a →
      (Steps I ρ (Emit.emit m (.llvmAssume v)) ρ' ↔ a = 1#1 ∧ ρ' = ρ) ∧
      ∃ s t, Emit.emit m (.br v) = [s, t] ∧ (Step I ρ s ρ' ↔ a = 1#1 ∧ ρ' = ρ) ∧ (Step I ρ t ρ' ↔ a ≠ 1#1 ∧ ρ' = ρ)) ∧
    (∀ w a, Sem μ v w a → (Steps I ρ (Emit.emit m (.ret (some v))) ρ' ↔ ρ' = set (set ρ "$r" (.bv w a)) "$exn" (.bool false))) := by
  have D := M.toDefines
  refine ⟨fun a ha => ?_, fun w a ha => ?_⟩
  · have e := text_bv D h hb hρ.int ha hs false false
    have stepA : ∀ {c : Ex} {P : Prop}, (eval I ρ c = .bool true ↔ P) → (Step I ρ (.assume c) ρ' ↔ P ∧ ρ' = ρ) := by
      intro c P hc
      constructor
      · intro h; cases h with | assume h => exact ⟨hc.mp h, rfl⟩
      · rintro ⟨h, rfl⟩; exact .assume (hc.mpr h)
    have e1 : eval I ρ (iLit m 1 1) = .bv 1 1#1 := by simp only [iLit, hb, if_true, eval]
    refine ⟨?_, _, _, rfl, stepA ?_, stepA ?_⟩
    · rw [Emit.emit, steps_assume, steps_nil]
      simp only [hb, if_true, eval, e]
      simp [evalBin]
    · rw [eval, e, e1]; simp [evalBin]
    · rw [eval, eval, e, e1]
      by_cases h1 : a = 1#1 <;> simp [evalBin, evalNot, h1]
  · have e := text_bv D h hb hρ.int ha hs false false
    rw [Emit.emit, steps_assign, steps_one, e]
    rfl

/-- C90, address computations. -/
theorem c90_address (M : Models A m gl ex I) (h : m.Ok) (hb : m.bp = true) (hρ : Agree m I μ α ρ) {x : String} {p : Emit.Val} {is : Emit.Ixs} {z o : Int}
    (hp : Adr μ α m.ptr p z) (ho : Off μ m.ptr is o) (hs : p.All Emit.Val.sup) (hi : is.All Emit.Val.sup) :
    Steps I ρ (Emit.emit m (.gep x p is)) ρ' ↔ ρ' = set ρ x (.sc (key m (z + o))) := by
  rw [Emit.emit, steps_one, eval_arith M.toDefines h hb hρ.int ho hi (hρ.adr M h hb hp hs _ _), ptrV_key]

/-- C90, loads. The register gets the integer that memory holds at the address; there is exactly one such integer. -/
theorem c90_load (M : Models A m gl ex I) (h : m.Ok) (hb : m.bp = true) (hρ : Agree m I μ α ρ) {x : String} {a : Emit.Acc} {w : Nat} {z : Int}
    (ha : At m μ α ρ a w z) :
    ∃ b, Holds m a.reg w (ρ a.mem) z b ∧ (∀ c, Holds m a.reg w (ρ a.mem) z c → c = b) ∧
      ∀ ρ', Steps I ρ (Emit.emit m (.load x a)) ρ' ↔ ρ' = set ρ x (.bv w b) := by
  obtain ⟨b, he, hh⟩ := load_val M.toDefines h hb (widths_sizes ▸ ha.width) ha.bytes ha.contents (hρ.adr M h hb ha.adr ha.sup false false)
  refine ⟨b, hh, fun c hc => holds_unique ha.bytes hc hh, fun ρ' => ?_⟩
  rw [Emit.emit, steps_one, ha.ty, he]

theorem storeAssume_int (r : Emit.Reg) (w : Nat) (e : Ex) : Emit.storeAssume m r (.int w) e = none := rfl

/-- C90, stores. Only the memory variable of the region changes. It then holds the integer stored, and has changed at no other address. -/
theorem c90_store (M : Models A m gl ex I) (h : m.Ok) (hb : m.bp = true) (hρ : Agree m I μ α ρ) {a : Emit.Acc} {w : Nat} {z : Int}
    (ha : At m μ α ρ a w z) {v : Emit.Val} {b : BitVec w} (hv : Sem μ v w b) (hs : v.All Emit.Val.sup) :
    ∃ V, (∀ ρ', Steps I ρ (Emit.emit m (.store a v)) ρ' ↔ ρ' = set ρ a.mem V) ∧ Contents m a.reg w V ∧ Holds m a.reg w V z b ∧
      (a.reg.singleton = false → Frame m (ρ a.mem) V z (span a.reg w)) := by
  obtain ⟨V, he, h1, h2, h3⟩ := store_val M.toDefines h hb (widths_sizes ▸ ha.width) ha.bytes ha.contents (hρ.adr M h hb ha.adr ha.sup false false)
    (text_bv M.toDefines h hb hρ.int hv hs false false)
  refine ⟨V, fun ρ' => ?_, h1, h2, h3⟩
  rw [Emit.emit, ha.ty, storeAssume_int, steps_one, Emit.stored, he]

/-- C90, `atomicrmw`. The register gets the integer in memory, then memory gets the result of the operation on it; without an operation,
the operand. -/
theorem c90_rmw (M : Models A m gl ex I) (h : m.Ok) (hb : m.bp = true) (hρ : Agree m I μ α ρ) {x : String} (hx : μ x = none) (hα : α x = none)
    (h0 : x ≠ "$0.ref") {a : Emit.Acc} (hxm : x ≠ a.mem) {w : Nat} {z : Int} (ha : At m μ α ρ a w z) {v : Emit.Val} {b : BitVec w}
    (hv : Sem μ v w b) (hs : v.All Emit.Val.sup) (op : Option Emit.RmwOp) :
    ∃ old new V, Holds m a.reg w (ρ a.mem) z old ∧ RmwNew old b new op ∧
      (∀ ρ', Steps I ρ (Emit.emit m (.rmw x op a v)) ρ' ↔ ρ' = set (set ρ x (.bv w old)) a.mem V) ∧ Contents m a.reg w V ∧ Holds m a.reg w V z new ∧
      (a.reg.singleton = false → Frame m (ρ a.mem) V z (span a.reg w)) := by
  have D := M.toDefines
  have hw : w ∈ sizes := widths_sizes ▸ ha.width
  obtain ⟨old, he, hh⟩ := load_val D h hb hw ha.bytes ha.contents (hρ.adr M h hb ha.adr ha.sup false false)
  have hρ1 := hρ.set hx hα h0 (.bv w old)
  have hm : set ρ x (.bv w old) a.mem = ρ a.mem := set_other (Ne.symm hxm)
  have hp1 := hρ1.adr M h hb ha.adr ha.sup false false
  obtain ⟨old', he1, hh1⟩ := load_val D h hb hw ha.bytes (hm ▸ ha.contents) hp1
  rw [hm] at hh1
  obtain rfl := holds_unique ha.bytes hh1 hh
  have hv1 := text_bv D h hb hρ1.int hv hs false false
  cases op with
  | none =>
    obtain ⟨V, hV, h1, h2, h3⟩ := store_val D h hb hw ha.bytes (hm ▸ ha.contents) hp1 hv1
    refine ⟨old', b, V, hh, rfl, fun ρ' => ?_, h1, h2, hm ▸ h3⟩
    simp only [Emit.emit, ha.ty]
    rw [steps_assign, steps_one, he, hV]
  | some o =>
    obtain ⟨c, hc, hr⟩ := rmw_bv D h hb o hw old' b
    have hev : eval I (set ρ x (.bv w old')) (.fn ⟨o.name, [.ty (Emit.tyName m v.ty)]⟩
        [Emit.loadEx m a.mem a.reg (.int w) (Emit.expr m a.ptr false false), Emit.expr m v false false]) = .bv w c := by
      simp only [eval, evals, he1, hv1, hv.ty, Emit.tyName, intT, hb, if_true]
      exact hc
    obtain ⟨V, hV, h1, h2, h3⟩ := store_val D h hb hw ha.bytes (hm ▸ ha.contents) hp1 hev
    refine ⟨old', c, V, hh, hr, fun ρ' => ?_, h1, h2, hm ▸ h3⟩
    simp only [Emit.emit, ha.ty]
    rw [steps_assign, steps_one, he, hV]

/-- C90, `cmpxchg`: the effect on memory. The new integer is stored if the old one equals the one to compare with; otherwise the old one
stays. The register gets the old integer. (LLVM's result is a pair; its second component, whether the exchange took place, is not
computed.) -/
theorem c90_cmpxchg_partial (M : Models A m gl ex I) (h : m.Ok) (hb : m.bp = true) (hρ : Agree m I μ α ρ) {x : String} (hx : μ x = none) (hα : α x = none)
    (h0 : x ≠ "$0.ref") {a : Emit.Acc} (hxm : x ≠ a.mem) {w : Nat} {z : Int} (ha : At m μ α ρ a w z) {c s : Emit.Val} {b d : BitVec w}
    (hc : Sem μ c w b) (hd : Sem μ s w d) (hcs : c.All Emit.Val.sup) (hds : s.All Emit.Val.sup) :
    ∃ old V, Holds m a.reg w (ρ a.mem) z old ∧
      (∀ ρ', Steps I ρ (Emit.emit m (.cmpxchg x a c s)) ρ' ↔ ρ' = set (set ρ x (.bv w old)) a.mem V) ∧ Contents m a.reg w V ∧
      Holds m a.reg w V z (if old = b then d else old) ∧
      (a.reg.singleton = false → Frame m (ρ a.mem) V z (span a.reg w)) := by
  have D := M.toDefines
  have hw : w ∈ sizes := widths_sizes ▸ ha.width
  obtain ⟨old, he, hh⟩ := load_val D h hb hw ha.bytes ha.contents (hρ.adr M h hb ha.adr ha.sup false false)
  have hρ1 := hρ.set hx hα h0 (.bv w old)
  have hm : set ρ x (.bv w old) a.mem = ρ a.mem := set_other (Ne.symm hxm)
  have hp1 := hρ1.adr M h hb ha.adr ha.sup false false
  obtain ⟨old', he1, hh1⟩ := load_val D h hb hw ha.bytes (hm ▸ ha.contents) hp1
  rw [hm] at hh1
  obtain rfl := holds_unique ha.bytes hh1 hh
  have hev : eval I (set ρ x (.bv w old')) (.ite (.bin .eq (Emit.loadEx m a.mem a.reg (.int w) (Emit.expr m a.ptr false false)) (Emit.expr m c false false))
      (Emit.expr m s false false) (Emit.loadEx m a.mem a.reg (.int w) (Emit.expr m a.ptr false false))) = .bv w (if old' = b then d else old') := by
    rw [eval, eval, he1, text_bv D h hb hρ1.int hc hcs, text_bv D h hb hρ1.int hd hds]
    by_cases e : old' = b <;> simp [evalBin, evalIte, e]
  obtain ⟨V, hV, h1, h2, h3⟩ := store_val D h hb hw ha.bytes (hm ▸ ha.contents) hp1 hev
  refine ⟨old', V, hh, fun ρ' => ?_, h1, h2, hm ▸ h3⟩
  simp only [Emit.emit, ha.ty]
  rw [steps_assign, steps_one, he, hV]

/-- C90: what memory holds elsewhere is not changed. -/
theorem c90_preserved {r : Emit.Reg} {w n : Nat} {V V' : Val U} {z y : Int} {b : BitVec w} (hr : r.singleton = false) (hw : 0 < w)
    (hf : Frame m V V' z n) (hb : Holds m r w V y b)
    (hd : ∀ i < n, ∀ j < span r w, key (U := U) m (y + j) ≠ key m (z + i)) : Holds m r w V' y b := by
  obtain ⟨f, f', rfl, rfl, hf⟩ := hf
  unfold Holds at hb ⊢
  simp only [hr, Bool.false_eq_true, if_false] at hb ⊢
  obtain ⟨g, hg, hb⟩ := hb
  injection hg with hg
  subst hg
  refine ⟨f', rfl, ?_⟩
  by_cases hy : r.bytewise = true
  · simp only [hy, if_true] at hb ⊢
    by_cases h8 : w < 8
    · simp only [h8, if_true] at hb ⊢
      obtain ⟨c, hc, hbits⟩ := hb
      refine ⟨c, ?_, hbits⟩
      rw [hf y fun i hi => ?_]
      · exact hc
      · have := hd i hi 0 (by simp [span, hy]; omega)
        rwa [key0] at this
    · simp only [h8, if_false] at hb ⊢
      intro i hi
      rw [hf _ fun j hj => hd j hj i (by simp [span, hy]; omega)]
      exact hb i hi
  · simp only [hy, if_false, Bool.false_eq_true] at hb ⊢
    rw [hf y fun i hi => ?_]
    · exact hb
    · have := hd i hi 0 (by simp [span, hy])
      rwa [key0] at this

/-- C90: a load after a store to the same address gives the integer stored, in whatever register the address is. -/
theorem c90_store_load (M : Models A m gl ex I) (h : m.Ok) (hb : m.bp = true) (hρ : Agree m I μ α ρ) {a a' : Emit.Acc} {w : Nat} {z : Int}
    (ha : At m μ α ρ a w z) (ha' : At m μ α ρ a' w z) (hm : a'.mem = a.mem) (hr : a'.reg = a.reg) (hμm : μ a.mem = none) (hαm : α a.mem = none)
    (h0 : a.mem ≠ "$0.ref") {v : Emit.Val} {b : BitVec w} (hv : Sem μ v w b) (hs : v.All Emit.Val.sup) {x : String} :
    ∃ V, ∀ ρ', Steps I ρ (Emit.emit m (.store a v) ++ Emit.emit m (.load x a')) ρ' ↔ ρ' = set (set ρ a.mem V) x (.bv w b) := by
  obtain ⟨V, hst, hc, hh, _⟩ := c90_store M h hb hρ ha hv hs
  have hρ1 := hρ.set hμm hαm h0 V
  have hat : At m μ α (set ρ a.mem V) a' w z := { ha' with contents := by rw [hm, hr, set_same]; exact hc }
  obtain ⟨c, hc, hu, hl⟩ := c90_load M h hb hρ1 (x := x) hat
  rw [hm, hr, set_same] at hu
  obtain rfl := hu b hh
  refine ⟨V, fun ρ' => ?_⟩
  have app : ∀ (ss ts : List Emit.St) (σ : String → Val U), Steps I σ (ss ++ ts) ρ' ↔ ∃ τ, Steps I σ ss τ ∧ Steps I τ ts ρ' := by
    intro ss ts
    induction ss with
    | nil => intro σ; exact ⟨fun h => ⟨σ, .nil, h⟩, fun ⟨τ, h1, h2⟩ => by cases h1; exact h2⟩
    | cons s ss ih =>
      intro σ
      constructor
      · intro h
        cases h with
        | cons h1 h2 =>
          obtain ⟨τ, h3, h4⟩ := (ih _).mp h2
          exact ⟨τ, .cons h1 h3, h4⟩
      · rintro ⟨τ, h1, h2⟩
        cases h1 with
        | cons h1 h3 => exact .cons h1 ((ih _).mpr ⟨τ, h3, h2⟩)
  rw [app]
  constructor
  · rintro ⟨τ, h1, h2⟩
    rw [(hst τ).mp h1] at h2
    exact (hl ρ').mp h2
  · intro e
    exact ⟨_, (hst _).mpr rfl, (hl ρ').mpr e⟩

/-! ### Cases -/

section
variable (M : Models A Emit.mBv gl ex I) (hi : ρ "$i0" = .bv 32 0x12345678) (hp : ρ "$p0" = .bv 64 4096) (h0 : ρ "$0.ref" = I.const "$0.ref")

def exμ : String → Option ((w : Nat) × BitVec w) := fun x => if x = "$i0" then some ⟨32, 0x12345678⟩ else none
def exα : String → Option Int := fun x => if x = "$p0" then some 4096 else none
def exAcc : Emit.Acc := ⟨"$M.0", ⟨none, false, true⟩, .int 32, .gep (.reg "$p0" .ptr) (.idx (.cint 64 3) 4 .nil)⟩

include hi hp h0 in
theorem ex_agree : Agree Emit.mBv I exμ exα ρ where
  int := by
    intro x w a hx
    unfold exμ at hx
    split at hx
    · cases hx; subst_vars; exact hi
    · cases hx
  ptr := by
    intro x z hx
    unfold exα at hx
    split at hx
    · cases hx; subst_vars; exact hp
    · cases hx
  null := h0

theorem ex_at {f : Sc U → Val U} (hM : ρ "$M.0" = .map f) (hf : ∀ k, f k = .bv 8 0) : At Emit.mBv exμ exα ρ exAcc 32 (4096 + (3 * (4 : Nat) + 0)) where
  ty := rfl
  width := by decide
  bytes := fun _ => .inl rfl
  adr := .gep (.reg rfl) (.const (w := 64) (v := 3) (by decide) (by decide) .nil) trivial
  sup := ⟨trivial, trivial, show (64 : Nat) ∈ Emit.widths by decide, trivial⟩
  contents := ⟨f, hM, fun z => ⟨0, hf _⟩⟩

include M hi hp h0 in
example : Steps I ρ (Emit.emit Emit.mBv (.ctlz "$i1" (.reg "$i0" (.int 32)) (.cint 1 1))) ρ' ↔ ρ' = set ρ "$i1" (.bv 32 3) :=
  c90_result (μ := exμ) M Emit.mBv_ok rfl (ex_agree hi hp h0) (.ctlz (n := 3) (u := 1) (.reg rfl) (.cint (by decide)) (by decide)
    ⟨by decide, fun i h1 h2 => by
      obtain rfl | rfl | rfl : i = 29 ∨ i = 30 ∨ i = 31 := by omega
      all_goals rfl, by decide⟩) rfl (by decide) (by
      intro v hv
      simp only [operands, List.mem_cons, List.not_mem_nil, or_false] at hv
      rcases hv with rfl | rfl
      · exact (by decide : 32 ∈ Emit.widths)
      · exact (by decide : 1 ∈ Emit.widths))

include M hi hp h0 in
example : Steps I ρ (Emit.emit Emit.mBv (.ctpop "$i1" (.reg "$i0" (.int 32)))) ρ' ↔ ρ' = set ρ "$i1" (.bv 32 13) :=
  c90_result (μ := exμ) M Emit.mBv_ok rfl (ex_agree hi hp h0) (.ctpop (a := 0x12345678#32) (.reg rfl) (by decide)) rfl (by decide) (by
      intro v hv
      simp only [operands, List.mem_cons, List.not_mem_nil, or_false] at hv
      subst hv
      exact (by decide : 32 ∈ Emit.widths))

/-- The larger of 0x12345678 and the 0 in memory is written; 0 is the result. -/
example {f : Sc U → Val U} (M : Models A Emit.mBv gl ex I) (hi : ρ "$i0" = .bv 32 0x12345678) (hp : ρ "$p0" = .bv 64 4096) (h0 : ρ "$0.ref" = I.const "$0.ref")
    (hM : ρ "$M.0" = .map f) (hf : ∀ k, f k = .bv 8 0) :
    ∃ V, (Steps I ρ (Emit.emit Emit.mBv (.rmw "$i1" (some .umax) exAcc (.reg "$i0" (.int 32)))) ρ' ↔ ρ' = set (set ρ "$i1" (.bv 32 0)) "$M.0" V) ∧
      Holds Emit.mBv exAcc.reg 32 V 4108 0x12345678#32 := by
  obtain ⟨old, new, V, h1, h2, h3, _, h4, _⟩ := c90_rmw (x := "$i1") M Emit.mBv_ok rfl (ex_agree hi hp h0) rfl rfl (by decide) (a := exAcc) (by decide)
    (ex_at hM hf) (v := .reg "$i0" (.int 32)) (.reg rfl) (show 32 ∈ Emit.widths by decide) (some .umax)
  have hz : Holds Emit.mBv exAcc.reg 32 (ρ exAcc.mem) (4096 + (3 * (4 : Nat) + 0)) 0#32 := by
    refine ⟨f, hM, fun i hi => ?_⟩
    rw [hf]
    congr 1
    apply BitVec.eq_of_getLsbD_eq
    intro j hj
    simp
  obtain rfl := holds_unique (fun _ => .inl rfl) h1 hz
  have e : new = 0x12345678#32 := by
    rcases h2.1 with e | e
    · subst e; exact absurd h2.2.2 (by decide)
    · exact e
  subst e
  exact ⟨V, h3 ρ', h4⟩

/-- A branch on `$i0 < 5` is not taken along the first edge. -/
example (M : Models A Emit.mBv gl ex I) (hi : ρ "$i0" = .bv 32 0x12345678) (hp : ρ "$p0" = .bv 64 4096) (h0 : ρ "$0.ref" = I.const "$0.ref") :
    ∃ s t, Emit.emit Emit.mBv (.br (.cmp .ult (.reg "$i0" (.int 32)) (.cint 32 5))) = [s, t] ∧ ¬ Step I ρ s ρ ∧ Step I ρ t ρ := by
  have hs : Sem exμ (.cmp .ult (.reg "$i0" (.int 32)) (.cint 32 5)) 1 0#1 :=
    .cmp (q := .ult) (w := 32) (a := 0x12345678) (b := 5) rfl (.reg rfl) (.cint (by decide))
  obtain ⟨_, s, t, he, h1, h2⟩ := (c90_control (ρ' := ρ) M Emit.mBv_ok rfl (ex_agree hi hp h0)
    (v := .cmp .ult (.reg "$i0" (.int 32)) (.cint 32 5)) (show Emit.Val.All _ (.cmp .ult (.reg "$i0" (.int 32)) (.cint 32 5)) from ⟨(by decide : 1 ∈ Emit.widths), (by decide : 32 ∈ Emit.widths), (by decide : 32 ∈ Emit.widths)⟩)).1 _ hs
  exact ⟨s, t, he, fun h => absurd (h1.mp h).1 (by decide), h2.mpr ⟨by decide, rfl⟩⟩

/-- An address 12 below `$p0`. -/
example (M : Models A Emit.mBv gl ex I) (hi : ρ "$i0" = .bv 32 0x12345678) (hp : ρ "$p0" = .bv 64 4096) (h0 : ρ "$0.ref" = I.const "$0.ref") :
    Steps I ρ (Emit.emit Emit.mBv (.gep "$p1" (.reg "$p0" .ptr) (.idx (.cint 64 (2 ^ 64 - 3)) 4 .nil))) ρ' ↔ ρ' = set ρ "$p1" (.bv 64 4084) := by
  have := c90_address (ρ' := ρ') (x := "$p1") (p := .reg "$p0" .ptr) (is := .idx (.cint 64 (2 ^ 64 - 3)) 4 .nil) M Emit.mBv_ok rfl (ex_agree hi hp h0)
    (.reg (z := 4096) rfl) (.const (by decide) (by decide) .nil) trivial ⟨(by decide : 64 ∈ Emit.widths), trivial⟩
  rw [this, show (key Emit.mBv (4096 + ((BitVec.ofNat 64 (2 ^ 64 - 3)).toInt * (4 : Nat) + 0)) : Sc U) = .bv 64 4084 from congrArg (Sc.bv 64) (by decide +kernel : BitVec.ofInt 64 (4096 + ((BitVec.ofNat 64 (2 ^ 64 - 3)).toInt * (4 : Nat) + 0)) = 4084#64)]

/-- Bytes 0x78, 0x56, 0x34, 0x12 are written and read back. -/
example {f : Sc U → Val U} (M : Models A Emit.mBv gl ex I) (hi : ρ "$i0" = .bv 32 0x12345678) (hp : ρ "$p0" = .bv 64 4096) (h0 : ρ "$0.ref" = I.const "$0.ref")
    (hM : ρ "$M.0" = .map f) (hf : ∀ k, f k = .bv 8 0) :
    ∃ V, ∀ ρ', Steps I ρ (Emit.emit Emit.mBv (.store exAcc (.reg "$i0" (.int 32))) ++ Emit.emit Emit.mBv (.load "$i1" exAcc)) ρ' ↔
      ρ' = set (set ρ "$M.0" V) "$i1" (.bv 32 0x12345678) :=
  c90_store_load M Emit.mBv_ok rfl (ex_agree hi hp h0) (ex_at hM hf) (ex_at hM hf) rfl rfl rfl rfl (by decide) (.reg rfl) (show 32 ∈ Emit.widths by decide)

/-- The comparison with 7 fails, so the 0 in memory stays. -/
example {f : Sc U → Val U} (M : Models A Emit.mBv gl ex I) (hi : ρ "$i0" = .bv 32 0x12345678) (hp : ρ "$p0" = .bv 64 4096) (h0 : ρ "$0.ref" = I.const "$0.ref")
    (hM : ρ "$M.0" = .map f) (hf : ∀ k, f k = .bv 8 0) :
    ∃ V, (∀ ρ', Steps I ρ (Emit.emit Emit.mBv (.cmpxchg "$i1" exAcc (.cint 32 7) (.reg "$i0" (.int 32)))) ρ' ↔ ρ' = set (set ρ "$i1" (.bv 32 0)) "$M.0" V) ∧
      Holds Emit.mBv exAcc.reg 32 V 4108 0#32 := by
  obtain ⟨old, V, h1, h2, _, h3, _⟩ := c90_cmpxchg_partial (x := "$i1") M Emit.mBv_ok rfl (ex_agree hi hp h0) rfl rfl (by decide) (a := exAcc) (by decide)
    (ex_at hM hf) (c := .cint 32 7) (s := .reg "$i0" (.int 32)) (.cint (by decide)) (.reg rfl) (show 32 ∈ Emit.widths by decide) (show 32 ∈ Emit.widths by decide)
  have hz : Holds Emit.mBv exAcc.reg 32 (ρ exAcc.mem) (4096 + (3 * (4 : Nat) + 0)) 0#32 := by
    refine ⟨f, hM, fun i hi => ?_⟩
    rw [hf]
    congr 1
    apply BitVec.eq_of_getLsbD_eq
    intro j hj
    simp
  obtain rfl := holds_unique (fun _ => .inl rfl) h1 hz
  rw [if_neg (by decide)] at h3
  exact ⟨V, h2, h3⟩
end

end Smack.PreSem
