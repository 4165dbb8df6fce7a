/-
The values computed by the emitted statements, in bit-vector mode.
-/
import Verif.PreSem.Instr

namespace Smack.PreSem
open PreludeTy

variable {U : Type} {m : Mode} {A : Arith U} {I : Interp U} {gl ex : Int}
  {μ : String → Option ((w : Nat) × BitVec w)} {ρ ρ' : String → Val U}

theorem agree_set (hρ : ∀ x w a, μ x = some ⟨w, a⟩ → ρ x = .bv w a) {x : String} (hx : μ x = none) (v : Val U) :
    ∀ y w a, μ y = some ⟨w, a⟩ → set ρ x v y = .bv w a := by
  intro y w a hy
  rw [set_other (by rintro rfl; rw [hx] at hy; cases hy)]
  exact hρ y w a hy

theorem bit_eq {c : BitVec 1} {P : Prop} [Decidable P] (h : c = 1#1 ↔ P) : c = BitVec.ofBool (decide P) := by
  by_cases hp : P
  · simp [hp, h.mpr hp]
  · have h1 : c ≠ 1#1 := fun e => hp (h.mp e)
    have : c.toNat < 2 := c.isLt
    have h0 : c.toNat ≠ 1 := fun e => h1 (BitVec.eq_of_toNat_eq e)
    simp only [hp, decide_false]
    apply BitVec.eq_of_toNat_eq
    show c.toNat = 0
    omega

theorem res_steps (D : Defines A m I) (h : m.Ok) (hb : m.bp = true) (hρ : ∀ x w a, μ x = some ⟨w, a⟩ → ρ x = .bv w a)
    {i : Emit.Instr} {x : String} {w : Nat} {a : BitVec w} (hr : Res μ i x w a) (hx : μ x = none) (hw : w ∈ sizes)
    (hs : ∀ v ∈ operands i, v.All Emit.Val.sup) : Steps I ρ (Emit.emit m i) ρ' ↔ ρ' = set ρ x (.bv w a) := by
  have ht : ∀ n, Emit.tyName m (.int n) = .bv n := fun n => by simp [Emit.tyName, intT, hb]
  have hval : ∀ {v : Emit.Val} {w a u ui}, Sem μ v w a → v ∈ operands i → eval I ρ (Emit.expr m v u ui) = .bv w a :=
    fun h1 h2 => text_bv D h hb hρ h1 (hs _ h2) _ _
  have hval' : ∀ {v : Emit.Val} {w a u ui} (y : Val U), Sem μ v w a → v ∈ operands i → eval I (set ρ x y) (Emit.expr m v u ui) = .bv w a :=
    fun y h1 h2 => text_bv D h hb (agree_set hρ hx y) h1 (hs _ h2) _ _
  have one : ∀ e : Ex, eval I ρ e = .bv w a → (Steps I ρ [.assign x e] ρ' ↔ ρ' = set ρ x (.bv w a)) := fun e he => by rw [steps_one, he]
  cases hr with
  | @bin _ op nsw l r o _ p q _ ho hl hr hc =>
    refine one _ ?_
    rw [Emit.bopEx]
    simp only [intOp_arith ho, Bool.false_eq_true, if_false, eval, evals, hval hl (by simp [operands]), hval hr (by simp [operands]), hl.ty, ht, opName ho]
    rw [bin_bv D h hb o hw, E2EBv.bin_eq o _ _ _ hc]
  | @cmp _ p l r q k s t _ hp hl hr hc =>
    refine one _ ?_
    have hk : k ∈ sizes := hl.width (hs l (by simp [operands]))
    rw [Emit.cmpEx.eq_def, hl.ty]
    simp only [eval, evals, hval hl (by simp [operands]), hval hr (by simp [operands]), ht, cmpName hp]
    rw [pred_bv D h (.inl hb) (nowrap h hb) q hk, icmp_pred, bit_eq hc]
  | @trunc _ v n s _ hv hk =>
    have hn : n ∈ sizes := hv.width (hs v (by simp [operands]))
    simp only [Emit.emit, reduceCtorEq, if_false]
    refine one _ ?_
    rw [Emit.castEx.eq_def, hv.ty, ht, ht]
    simp only [eval, evals, hval hv (by simp [operands])]
    show I.fn ⟨"$trunc", _⟩ _ = _
    rw [(conv_bv D h hb hw hn hk).1, ofNat_setWidth]
  | @zext _ v n s _ hv hk =>
    have hn : n ∈ sizes := hv.width (hs v (by simp [operands]))
    simp only [Emit.emit, reduceCtorEq, if_false]
    refine one _ ?_
    rw [Emit.castEx.eq_def, hv.ty, ht, ht]
    simp only [eval, evals, hval hv (by simp [operands])]
    show I.fn ⟨"$zext", _⟩ _ = _
    rw [(conv_bv D h hb hn hw hk).2.1, ofNat_setWidth]
  | @sext _ v n s _ hv hk =>
    have hn : n ∈ sizes := hv.width (hs v (by simp [operands]))
    simp only [Emit.emit, reduceCtorEq, if_false]
    refine one _ ?_
    rw [Emit.castEx.eq_def, hv.ty, ht, ht]
    simp only [eval, evals, hval hv (by simp [operands])]
    show I.fn ⟨"$sext", _⟩ _ = _
    rw [(conv_bv D h hb hn hw hk).2.2]
    rfl
  | @sel _ c p q _ a b s hc hp hq =>
    refine one _ ?_
    have e1 : eval I ρ (iLit m 1 1) = .bv 1 1#1 := by simp only [iLit, hb, if_true, eval]
    rw [Emit.selEx, eval, eval, hval hc (by simp [operands]), hval hp (by simp [operands]), hval hq (by simp [operands]), e1]
    by_cases hs : s = 1#1
    · subst hs; simp [evalBin, evalIte]
    · simp [evalBin, evalIte, hs]
  | @expect _ v _ _ hv => exact one _ (hval hv (by simp [operands]))
  | @bitreverse _ v _ s _ hv hR =>
    refine one _ ?_
    obtain ⟨⟨w', y⟩, he, hw', hy⟩ := Intrinsics.c30_bitreverse w (sizes_pos hw) s ⟨1, 0#1⟩ ⟨w, s⟩
    dsimp only at hw' hy
    subst hw'
    have : y = a := BitVec.eq_of_getLsbD_eq fun i hi => by rw [hy i hi, hR.2 i hi]
    subst this
    rw [hv.ty, ← tr_reverse (m := m) (z := .bv 0 1) (x := Emit.expr m v false false)]
    exact eval_tree D h hb hw (hval hv (by simp [operands])) (uses_reverse _) he
  | @bswap _ v _ s _ hv h16 hR =>
    refine one _ ?_
    have hpos := sizes_pos hw
    obtain ⟨⟨w', y⟩, he, hw', hy⟩ := Intrinsics.c31_bswap w (by omega) h16 s ⟨1, 0#1⟩ ⟨w, s⟩
    dsimp only at hw' hy
    subst hw'
    have : y = a := BitVec.eq_of_getLsbD_eq fun i hi => by
      rw [← Nat.div_add_mod i 8, hy _ _ (by omega) (by omega), hR.2 _ _ (by omega) (by omega)]
    subst this
    rw [hv.ty, ← tr_bswap (m := m) (z := .bv 0 1) (x := Emit.expr m v false false)]
    exact eval_tree D h hb hw (hval hv (by simp [operands])) (uses_bswap _) he
  | @ctlz _ v z _ s u n hv hz hu hn =>
    have key : ∀ y : Val U, eval I (set ρ x y) (Emit.zeroUndef x (Emit.expr m v false false) (Emit.expr m z false false) v.ty.width
        (Emit.ctlzLoop (Emit.expr m v false false) v.ty.width v.ty.width)) = .bv w (BitVec.ofNat w n) := by
      intro y
      obtain ⟨n', hn', he, _, hz', ho⟩ := Intrinsics.ctlzLoop_eval ⟨⟨w, s⟩, ⟨1, 0#1⟩, ⟨w, s⟩⟩ w rfl w (Nat.le_refl _)
      obtain rfl : n' = n := (Intrinsics.c32_unique s n' n).1 ⟨hn', hz', ho⟩ hn
      have e1 := eval_tree D h hb hw (hval' (u := false) (ui := false) y hv (by simp [operands])) (uses_ctlz w w) he
      rw [tr_ctlz] at e1
      rw [hv.ty, show (Emit.LTy.int w).width = w from rfl, Emit.zeroUndef, eval, e1]
      simp only [eval, hval' y hv (by simp [operands] : v ∈ operands (.ctlz x v z)), hval' y hz (by simp [operands] : z ∈ operands (.ctlz x v z))]
      by_cases h1 : u = 1#1
      · have h2 : s ≠ 0#w := fun e => hu ⟨h1, e⟩
        simp [evalBin, evalIte, h2]
      · simp [evalBin, evalIte, h1]
    simp only [Emit.emit]
    rw [steps_havoc]
    simp only [steps_one, key, set_set]
    exact ⟨fun ⟨_, h⟩ => h, fun h => ⟨junk, h⟩⟩
  | @cttz _ v z _ s u n hv hz hu hn =>
    have key : ∀ y : Val U, eval I (set ρ x y) (Emit.zeroUndef x (Emit.expr m v false false) (Emit.expr m z false false) v.ty.width
        (Emit.cttzLoop (Emit.expr m v false false) v.ty.width v.ty.width)) = .bv w (BitVec.ofNat w n) := by
      intro y
      obtain ⟨n', hn', he, _, hz', ho⟩ := Intrinsics.cttzLoop_eval ⟨⟨w, s⟩, ⟨1, 0#1⟩, ⟨w, s⟩⟩ w rfl w (Nat.le_refl _)
      obtain rfl : n' = n := (Intrinsics.c32_unique s n' n).2 ⟨hn', fun i hi => hz' i (by omega) hi, ho⟩ hn
      have e1 := eval_tree D h hb hw (hval' (u := false) (ui := false) y hv (by simp [operands])) (uses_cttz w w) he
      rw [tr_cttz] at e1
      rw [hv.ty, show (Emit.LTy.int w).width = w from rfl, Emit.zeroUndef, eval, e1]
      simp only [eval, hval' y hv (by simp [operands] : v ∈ operands (.cttz x v z)), hval' y hz (by simp [operands] : z ∈ operands (.cttz x v z))]
      by_cases h1 : u = 1#1
      · have h2 : s ≠ 0#w := fun e => hu ⟨h1, e⟩
        simp [evalBin, evalIte, h2]
      · simp [evalBin, evalIte, h1]
    simp only [Emit.emit]
    rw [steps_havoc]
    simp only [steps_one, key, set_set]
    exact ⟨fun ⟨_, h⟩ => h, fun h => ⟨junk, h⟩⟩
  | @ctpop _ v _ s hv h1 =>
    simp only [Emit.emit, hb, if_true]
    refine one _ ?_
    obtain ⟨y, he, hy⟩ := Intrinsics.c33_bv_partial w h1 s ⟨1, 0#1⟩ ⟨w, s⟩
    have : y = BitVec.ofNat w (Intrinsics.popcount s) := by
      apply BitVec.eq_of_toNat_eq
      rw [hy, BitVec.toNat_ofNat, Nat.mod_eq_of_lt (hy ▸ y.isLt)]
    subst this
    rw [hv.ty, show (Emit.LTy.int w).width = w from rfl, ← tr_pop (m := m) (z := .bv 0 1) (x := Emit.expr m v false false)]
    exact eval_tree D h hb hw (hval hv (by simp [operands])) (uses_pop _ _) he

/-! ### Memory -/

theorem safe_decl (hb : m.bp = true) {w : Nat} : safeLoad m (.bv w) ∈ memFuns m w ∧ safeStore m "i" (.bv w) ∈ memFuns m w := by
  rw [memFuns, if_pos hb]
  exact ⟨List.mem_append_left _ (by pos), List.mem_append_left _ (by pos)⟩

theorem key0 (z : Int) : (key m (z + ((0 : Nat) : Int)) : Sc U) = key m z := by simp

theorem load_val (D : Defines A m I) (h : m.Ok) (hb : m.bp = true) {r : Emit.Reg} {w : Nat} (hw : w ∈ sizes)
    (h8 : r.bytewise = true → w % 8 = 0 ∨ w < 8) {mem : String} {p : Ex} {z : Int} (hc : Contents m r w (ρ mem)) (hp : eval I ρ p = ptrV m z) :
    ∃ a, eval I ρ (Emit.loadEx m mem r (.int w) p) = .bv w a ∧ Holds m r w (ρ mem) z a := by
  have ht : Emit.tyName m (.int w) = .bv w := by simp [Emit.tyName, intT, hb]
  unfold Contents at hc
  unfold Emit.loadEx Holds
  by_cases hs : r.singleton = true
  · simp only [hs, if_true] at hc ⊢
    obtain ⟨a, ha⟩ := hc
    exact ⟨a, by rw [eval, ha], ha⟩
  · simp only [hs, if_false, Bool.false_eq_true] at hc ⊢
    obtain ⟨f, hf, hk⟩ := hc
    by_cases hy : r.bytewise = true
    · simp only [hy, if_true, ht, List.cons_append, List.nil_append] at hk ⊢
      obtain ⟨a, ha, hl⟩ := load_bytes D h hb hw (h8 hy) hk z
      refine ⟨a, ?_, f, hf, hl⟩
      rw [eval, evals, evals, evals, eval, hf, hp, ha]
    · simp only [hy, if_false, Emit.unsafeFp, Bool.false_eq_true, ht, List.nil_append] at hk ⊢
      obtain ⟨a, ha⟩ := hk z
      refine ⟨a, ?_, f, hf, ha⟩
      rw [eval, evals, evals, evals, eval, hf, hp, safe_load D h (mem_mem hw (safe_decl hb).1) (mem_decl_ok h hw (safe_decl hb).1 (by intro e; simp [safeLoad] at e)) (map_is hk), ha]

theorem store_val (D : Defines A m I) (h : m.Ok) (hb : m.bp = true) {r : Emit.Reg} {w : Nat} (hw : w ∈ sizes)
    (h8 : r.bytewise = true → w % 8 = 0 ∨ w < 8) {mem : String} {p e : Ex} {z : Int} {a : BitVec w} (hc : Contents m r w (ρ mem))
    (hp : eval I ρ p = ptrV m z) (he : eval I ρ e = .bv w a) :
    ∃ V, eval I ρ (Emit.storeEx m mem r (.int w) p e) = V ∧ Contents m r w V ∧ Holds m r w V z a ∧
      (r.singleton = false → Frame m (ρ mem) V z (span r w)) := by
  have ht : Emit.tyName m (.int w) = .bv w := by simp [Emit.tyName, intT, hb]
  have hpos := sizes_pos hw
  unfold Contents at hc
  unfold Emit.storeEx Holds Contents
  by_cases hs : r.singleton = true
  · simp only [hs, if_true] at hc ⊢
    exact ⟨_, he, ⟨a, rfl⟩, rfl, fun e => by cases e⟩
  · simp only [hs, if_false, Bool.false_eq_true] at hc ⊢
    obtain ⟨f, hf, hk⟩ := hc
    by_cases hy : r.bytewise = true
    · simp only [hy, if_true, ht, List.cons_append, List.nil_append] at hk ⊢
      obtain ⟨f', hf', hl, hfr⟩ := store_bytes D h hb hw (h8 hy) hk z a
      refine ⟨.map f', ?_, ⟨f', rfl, ?_⟩, ⟨f', rfl, hl⟩, fun _ => ⟨f, f', hf, rfl, fun y hy' => hfr _ ?_⟩⟩
      · rw [eval, evals, evals, evals, evals, eval, hf, hp, he, hf']
      · intro y
        by_cases hin : ∃ i : Nat, i < (w + 7) / 8 ∧ (key m y : Sc U) = key m (z + i)
        · obtain ⟨i, hi, e⟩ := hin
          rw [e]
          by_cases hlt : w < 8
          · simp only [hlt, if_true] at hl
            obtain ⟨b, hb', _⟩ := hl
            obtain rfl : i = 0 := by omega
            exact ⟨b, by rw [key0, hb']⟩
          · simp only [hlt, if_false] at hl
            exact ⟨_, hl i (by rcases h8 hy with h | h <;> omega)⟩
        · rw [hfr _ fun i hi e => hin ⟨i, hi, e⟩]
          exact hk y
      · intro i hi
        exact hy' i (by simpa [span, hy] using hi)
    · simp only [hy, if_false, Emit.unsafeFp, Bool.false_eq_true, ht, List.nil_append] at hk ⊢
      obtain ⟨f', hf', ha, hfr⟩ := safe_store D h (x := "i") (by decide) (mem_mem hw (safe_decl hb).2)
        (mem_decl_ok h hw (safe_decl hb).2 (by intro e; simp [safeStore] at e)) (map_is hk) z (bvIs a)
      refine ⟨.map f', ?_, ⟨f', rfl, ?_⟩, ⟨f', rfl, ha⟩, fun _ => ⟨f, f', hf, rfl, fun y hy' => hfr _ ?_⟩⟩
      · rw [eval, evals, evals, evals, evals, eval, hf, hp, he, hf']
      · intro y
        by_cases e : (key m y : Sc U) = key m z
        · exact ⟨a, by rw [e, ha]⟩
        · rw [hfr _ e]; exact hk y
      · have := hy' 0 (by simp [span, hy])
        rwa [key0] at this

theorem holds_unique {r : Emit.Reg} {w : Nat} {V : Val U} {z : Int} {a b : BitVec w} (h8 : r.bytewise = true → w % 8 = 0 ∨ w < 8)
    (ha : Holds m r w V z a) (hb : Holds m r w V z b) : a = b := by
  unfold Holds at ha hb
  by_cases hs : r.singleton = true
  · simp only [hs, if_true] at ha hb
    exact bv_eq.mp (ha.symm.trans hb)
  · simp only [hs, if_false, Bool.false_eq_true] at ha hb
    obtain ⟨f, hf, ha⟩ := ha
    obtain ⟨g, hg, hb⟩ := hb
    obtain rfl : f = g := by rw [hf] at hg; injection hg
    by_cases hy : r.bytewise = true
    · simp only [hy, if_true] at ha hb
      apply BitVec.eq_of_getLsbD_eq
      intro i hi
      by_cases hlt : w < 8
      · simp only [hlt, if_true] at ha hb
        obtain ⟨x, hx, hxa⟩ := ha
        obtain ⟨y, hy, hyb⟩ := hb
        obtain rfl : x = y := bv_eq.mp (hx.symm.trans hy)
        rw [← hxa i hi, hyb i hi]
      · simp only [hlt, if_false] at ha hb
        have h8' := h8 hy
        have e := bv_eq.mp ((ha (i / 8) (by omega)).symm.trans (hb (i / 8) (by omega)))
        have := congrArg (fun v : BitVec 8 => v.getLsbD (i % 8)) e
        simp only [BitVec.getLsbD_extractLsb', Nat.div_add_mod] at this
        simpa [Nat.mod_lt] using this
    · simp only [hy, if_false, Bool.false_eq_true] at ha hb
      exact bv_eq.mp (ha.symm.trans hb)

end Smack.PreSem
