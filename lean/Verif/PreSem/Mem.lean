/-
The values of the memory operations in bit-vector mode.
-/
import Verif.PreSem.Ptr
import Verif.PreSem.InstrSpec

namespace Smack.PreSem
open PreludeTy

variable {U : Type} {m : Mode} {A : Arith U} {I : Interp U} {gl ex : Int}

theorem ptrV_key (z : Int) : (ptrV m z : Val U) = .sc (key m z) := by
  unfold ptrV key; split <;> rfl

theorem key_surj {k : Sc U} (h : k.Is (den m .ref)) : ∃ z, k = key m z := by
  unfold key
  cases hp : m.bpp <;> simp only [den, hp, if_true, if_false, Bool.false_eq_true] at h ⊢
  · cases k <;> simp [Sc.Is] at h
    exact ⟨_, rfl⟩
  · cases k <;> simp [Sc.Is] at h
    subst h
    exact ⟨_, by rw [BitVec.ofInt_toInt]⟩

theorem key_is (z : Int) : (key m z : Sc U).Is (den m .ref) := by
  have := ptrV_is (U := U) (m := m) z
  rw [ptrV_key] at this
  exact is_sc.mp this

/-- Different addresses less than 2^32 apart have different keys. -/
theorem key_ne (h : m.Ok) {z : Int} {i j : Nat} (hij : i < j) (hj : j < 2 ^ 32) : (key m (z + i) : Sc U) ≠ key m (z + j) := by
  intro e
  unfold key at e
  cases hp : m.bpp <;> simp only [hp, if_true, if_false, Bool.false_eq_true] at e
  · injection e with e; omega
  · injection e with _ e
    have hptr : (2 : Int) ^ 32 ≤ 2 ^ m.ptr := by rcases h.ptr with h | h <;> rw [h] <;> decide
    have e2 := congrArg BitVec.toNat e
    simp only [BitVec.toNat_ofInt] at e2
    have hpos : (0 : Int) < 2 ^ m.ptr := Int.pow_pos (by decide)
    have e3 : (z + (i : Int)) % 2 ^ m.ptr = (z + (j : Int)) % 2 ^ m.ptr := by
      have h1 := Int.emod_nonneg (z + (i : Int)) (Int.ne_of_gt hpos)
      have h2 := Int.emod_nonneg (z + (j : Int)) (Int.ne_of_gt hpos)
      push_cast at e2
      omega
    have e5 : (2 : Int) ^ m.ptr ∣ (z + (j : Int)) - (z + (i : Int)) := 
      Int.dvd_of_emod_eq_zero (Int.emod_eq_emod_iff_emod_sub_eq_zero.mp e3.symm)
    obtain ⟨q, hq⟩ := e5
    have : (0 : Int) < q := by
      rcases Int.lt_or_le 0 q with h | h
      · exact h
      · have := Int.mul_nonpos_of_nonneg_of_nonpos (Int.le_of_lt hpos) h
        omega
    have : (2 : Int) ^ m.ptr * 1 ≤ 2 ^ m.ptr * q := Int.mul_le_mul_of_nonneg_left (by omega) (Int.le_of_lt hpos)
    have h32 : (j : Int) < 2 ^ 32 := by exact_mod_cast hj
    omega

theorem map_is {f : Sc U → Val U} {n : Nat} (hf : ∀ z, ∃ b, f (key m z) = .bv n b) : (Val.map f).Is (den m (.map (.bv n))) := by
  refine is_map.mpr ⟨f, rfl, ?_, ?_⟩
  · intro D R; cases m.bpp <;> simp
  · intro k hk
    obtain ⟨z, rfl⟩ := key_surj (m := m) hk
    exact is_bv.mpr (hf z)

/-! ### Bodies -/

theorem eval_mapSel (D : Defines A m I) (h : m.Ok) {ρ : String → Val U} {f : Sc U → Val U} {z : Int} (hM : ρ "M" = .map f)
    (hp : ρ "p" = ptrV m z) (k : Nat) : eval I ρ (mapSel m k) = f (key m (z + k)) := by
  unfold mapSel
  split
  · rename_i hk; subst hk
    simp only [eval, PreludeTy.v, hM, hp, ptrV_key, evalSel]
    congr 2; omega
  · simp only [eval, evals, PreludeTy.v, hM, hp, eval_pLit]
    rw [add_ref D h, ptrV_key]; rfl

theorem eval_mapUpd (D : Defines A m I) (h : m.Ok) {ρ : String → Val U} {z : Int} (hp : ρ "p" = ptrV m z) (k : Nat) (x map : Ex) :
    eval I ρ (mapUpd m k x map) = evalUpd (eval I ρ map) (.sc (key m (z + k))) (eval I ρ x) := by
  unfold mapUpd
  split
  · rename_i hk; subst hk
    simp only [eval, PreludeTy.v, hp, ptrV_key]
    congr 3; omega
  · simp only [eval, evals, PreludeTy.v, hp, eval_pLit]
    rw [add_ref D h, ptrV_key]

theorem eval_loadBytes (D : Defines A m I) (h : m.Ok) {ρ : String → Val U} {f : Sc U → Val U} {z : Int} (hM : ρ "M" = .map f)
    (hp : ρ "p" = ptrV m z) {g : Nat → BitVec 8} : ∀ k : Nat, (∀ i : Nat, i ≤ k → f (key m (z + i)) = .bv 8 (g i)) →
    ∃ w, ∃ a : BitVec w, w = 8 * (k + 1) ∧ eval I ρ (loadBytes m k) = .bv w a ∧ ∀ i : Nat, i ≤ k → a.extractLsb' (8 * i) 8 = g i
  | 0, hg => ⟨8, g 0, rfl, by rw [loadBytes, eval_mapSel D h hM hp, hg 0 (Nat.le_refl _)], fun i hi => by
      obtain rfl : i = 0 := by omega
      simp⟩
  | k + 1, hg => by
    obtain ⟨w, a, hw, he, ha⟩ := eval_loadBytes D h hM hp k fun i hi => hg i (by omega)
    refine ⟨8 + w, g (k + 1) ++ a, by omega, ?_, ?_⟩
    · rw [loadBytes, eval, eval_mapSel D h hM hp, hg (k + 1) (Nat.le_refl _), he]; rfl
    · intro i hi
      apply BitVec.eq_of_getLsbD_eq
      intro j hj
      by_cases hik : i ≤ k
      · rw [← ha i hik]
        simp only [BitVec.getLsbD_extractLsb', BitVec.getLsbD_append, hj, decide_true, Bool.true_and]
        rw [if_pos (by omega)]
      · obtain rfl : i = k + 1 := by omega
        simp only [BitVec.getLsbD_extractLsb', BitVec.getLsbD_append, hj, decide_true, Bool.true_and]
        rw [if_neg (by omega)]
        congr 1; omega

theorem eval_storeBytes (D : Defines A m I) (h : m.Ok) {ρ : String → Val U} {f : Sc U → Val U} {z : Int} {w : Nat} {a : BitVec w}
    (hM : ρ "M" = .map f) (hp : ρ "p" = ptrV m z) (hi : ρ "i" = .bv w a) : ∀ k : Nat, k < 2 ^ 32 →
    ∃ f', eval I ρ (storeBytes m k) = .map f' ∧ (∀ i : Nat, i ≤ k → f' (key m (z + i)) = .bv 8 (a.extractLsb' (8 * i) 8)) ∧
      ∀ κ, (∀ i : Nat, i ≤ k → κ ≠ key m (z + i)) → f' κ = f κ
  | 0, _ => by
    refine ⟨_, by rw [storeBytes, eval_mapUpd D h hp]; simp only [eval, PreludeTy.v, hM, hi, evalExtract, evalUpd]; rfl, ?_, ?_⟩
    · intro i hi
      obtain rfl : i = 0 := by omega
      simp
    · intro κ hκ
      rw [if_neg (hκ 0 (Nat.le_refl _))]
  | k + 1, hk => by
    obtain ⟨f', he, h1, h2⟩ := eval_storeBytes D h hM hp hi k (by omega)
    refine ⟨_, by rw [storeBytes, eval_mapUpd D h hp, he]; simp only [eval, PreludeTy.v, hi, evalExtract, evalUpd]; rfl, ?_, ?_⟩
    · intro i hik
      by_cases e : i = k + 1
      · subst e
        rw [if_pos rfl]
        have e8 : 8 * (k + 1) + 8 - 8 * (k + 1) = 8 := by omega
        generalize 8 * (k + 1) + 8 - 8 * (k + 1) = n at e8
        subst e8; rfl
      · rw [if_neg (key_ne h (by omega) hk), h1 i (by omega)]
    · intro κ hκ
      rw [if_neg (hκ (k + 1) (Nat.le_refl _)), h2 κ fun i hi => hκ i (by omega)]

/-! ### Functions -/

theorem mem_decl_ok (h : m.Ok) {n : Nat} {d : Fun} (hn : n ∈ sizes) (hd : d ∈ memFuns m n) (hne : d.sym ≠ ⟨"$load", [.bytes, .ty (.bv 33)]⟩) :
    FunOk (sig m) (globals m) d := mem_ok h (List.mem_flatMap.mpr ⟨n, hn, hd⟩) fun hb => hne hb.2

/-- A cell is read and written as a whole, in all modes and for all types. -/
theorem safe_load (D : Defines A m I) (h : m.Ok) {t : TName} (hd : safeLoad m t ∈ decls m) (ok : FunOk (sig m) (globals m) (safeLoad m t))
    {f : Sc U → Val U} (hf : (Val.map f).Is (den m (.map t))) (z : Int) :
    I.fn ⟨"$load", [.ty t]⟩ [.map f, ptrV m z] = f (key m z) := by
  refine (app_body D hd ok rfl (args := [.map f, ptrV m z]) (all2 hf (ptrV_is z))).trans ?_
  rw [eval_mapSel D h (f := f) (z := z) rfl rfl]
  congr 2; omega

theorem safe_store (D : Defines A m I) (h : m.Ok) {t : TName} {x : String} (hx : x ≠ "M" ∧ x ≠ "p") (hd : safeStore m x t ∈ decls m)
    (ok : FunOk (sig m) (globals m) (safeStore m x t)) {f : Sc U → Val U} (hf : (Val.map f).Is (den m (.map t))) (z : Int) {a : Val U}
    (ha : a.Is (den m t)) : ∃ f', I.fn ⟨"$store", [.ty t]⟩ [.map f, ptrV m z, a] = .map f' ∧ f' (key m z) = a ∧
      ∀ κ, κ ≠ key m z → f' κ = f κ := by
  refine ⟨fun κ => open Classical in if κ = key m (z + (0 : Nat)) then a else f κ, (app_body D hd ok rfl (args := [.map f, ptrV m z, a]) (all3 hf (ptrV_is z) ha)).trans ?_, ?_, ?_⟩
  · rw [eval_mapUpd D h (z := z) rfl]
    simp only [eval, PreludeTy.v]
    rw [show bind (safeStore m x t).params [.map f, ptrV m z, a] I.const "M" = .map f from rfl,
      show bind (safeStore m x t).params [.map f, ptrV m z, a] I.const x = a from by
        simp [safeStore, bind, hx.1.symm, hx.2.symm]]
    rfl
  · simp
  · intro κ hκ
    simp [hκ]

theorem load_bytes (D : Defines A m I) (h : m.Ok) (hb : m.bp = true) {w : Nat} (hn : w ∈ sizes) (h8 : w % 8 = 0 ∨ w < 8)
    {f : Sc U → Val U} (hf : ∀ z, ∃ b, f (key m z) = .bv 8 b) (z : Int) :
    ∃ a, I.fn ⟨"$load", [.bytes, .ty (.bv w)]⟩ [.map f, ptrV m z] = .bv w a ∧
      if w < 8 then ∃ b, f (key m z) = .bv 8 b ∧ ∀ i < w, b.getLsbD i = a.getLsbD i
      else ∀ i : Nat, i < w / 8 → f (key m (z + i)) = .bv 8 (a.extractLsb' (8 * i) 8) := by
  have hne : (⟨"$load", [.bytes, .ty (.bv w)]⟩ : Sym) ≠ ⟨"$load", [.bytes, .ty (.bv 33)]⟩ := by
    intro e; injection e with _ e; simp at e; subst e; revert h8; decide
  have key' : ∀ body, rawLoad true (.bv w) body ∈ memFuns m w →
      I.fn ⟨"$load", [.bytes, .ty (.bv w)]⟩ [.map f, ptrV m z] =
        eval I (bind [("M", TName.map (.bv 8)), ("p", .ref)] [.map f, ptrV m z] I.const) body := fun body hd =>
    app_body D (mem_mem hn hd) (mem_decl_ok h hn hd hne) rfl (args := [.map f, ptrV m z]) (all2 (map_is hf) (ptrV_is z))
  have hpos := sizes_pos hn
  by_cases hlt : w < 8
  · obtain ⟨b, hbz⟩ := hf z
    refine ⟨b.setWidth w, ?_, ?_⟩
    · rw [key' (.fn ⟨"$trunc", [.ty (.bv 8), .ty (.bv w)]⟩ [mapSel m 0]) (by rw [memFuns, if_pos hb, if_pos hlt]; pos)]
      simp only [eval, evals]
      rw [eval_mapSel D h (f := f) (z := z) rfl rfl, show z + ((0 : Nat) : Int) = z by omega, hbz]
      exact (conv_bv D h hb hn (by decide : 8 ∈ sizes) hlt).1 b
    · rw [if_pos hlt]
      exact ⟨b, hbz, fun i hi => by simp [hi]⟩
  · have hg : ∃ g : Nat → BitVec 8, ∀ i : Nat, f (key m (z + i)) = .bv 8 (g i) :=
      ⟨fun i => (hf (z + i)).choose, fun i => (hf (z + i)).choose_spec⟩
    obtain ⟨g, hg⟩ := hg
    simp only [if_neg hlt]
    by_cases he : w = 8
    · subst he
      refine ⟨g 0, ?_, fun i hi => ?_⟩
      · rw [key' (mapSel m 0) (by rw [memFuns, if_pos hb, if_neg hlt, if_pos rfl]; pos), eval_mapSel D h (f := f) (z := z) rfl rfl, hg]
      · obtain rfl : i = 0 := by omega
        rw [hg]; simp
    · obtain ⟨w', a, hw, e, ha⟩ := eval_loadBytes D h (ρ := bind [("M", TName.map (.bv 8)), ("p", .ref)] [.map f, ptrV m z] I.const)
        (f := f) (z := z) rfl rfl (g := g) (w / 8 - 1) fun i _ => hg i
      obtain rfl : w' = w := by omega
      refine ⟨a, ?_, fun i hi => ?_⟩
      · rw [key' (loadBytes m (w' / 8 - 1)) (by rw [memFuns, if_pos hb, if_neg hlt, if_neg he]; pos), e]
      · rw [ha i (by omega), hg]

theorem store_bytes (D : Defines A m I) (h : m.Ok) (hb : m.bp = true) {w : Nat} (hn : w ∈ sizes) (h8 : w % 8 = 0 ∨ w < 8)
    {f : Sc U → Val U} (hf : ∀ z, ∃ b, f (key m z) = .bv 8 b) (z : Int) (a : BitVec w) :
    ∃ f', I.fn ⟨"$store", [.bytes, .ty (.bv w)]⟩ [.map f, ptrV m z, .bv w a] = .map f' ∧
      (if w < 8 then ∃ b, f' (key m z) = .bv 8 b ∧ ∀ i < w, b.getLsbD i = a.getLsbD i
      else ∀ i : Nat, i < w / 8 → f' (key m (z + i)) = .bv 8 (a.extractLsb' (8 * i) 8)) ∧
      ∀ κ, (∀ i : Nat, i < (w + 7) / 8 → κ ≠ key m (z + i)) → f' κ = f κ := by
  have key' : ∀ body, rawStore true "i" (.bv w) body ∈ memFuns m w →
      I.fn ⟨"$store", [.bytes, .ty (.bv w)]⟩ [.map f, ptrV m z, .bv w a] =
        eval I (bind [("M", TName.map (.bv 8)), ("p", .ref), ("i", .bv w)] [.map f, ptrV m z, .bv w a] I.const) body := fun body hd =>
    app_body D (mem_mem hn hd) (mem_decl_ok h hn hd (by intro e; simp [rawStore] at e)) rfl (args := [.map f, ptrV m z, .bv w a])
      (all3 (map_is hf) (ptrV_is z) (bvIs a))
  have hpos := sizes_pos hn
  have hle : w ≤ 256 := by have : ∀ n ∈ sizes, n ≤ 256 := by decide
                           exact this w hn
  by_cases hlt : w < 8
  · refine ⟨fun κ => open Classical in if κ = key m (z + (0 : Nat)) then .bv 8 (a.setWidth 8) else f κ, (key' (mapUpd m 0 (.fn ⟨"$zext", [.ty (.bv w), .ty (.bv 8)]⟩ [PreludeTy.v "i"]) (PreludeTy.v "M"))
      (by rw [memFuns, if_pos hb, if_pos hlt]; pos)).trans ?_, ?_, ?_⟩
    · rw [eval_mapUpd D h (z := z) rfl]
      simp only [eval, evals, PreludeTy.v]
      rw [show bind [("M", TName.map (.bv 8)), ("p", .ref), ("i", .bv w)] [.map f, ptrV m z, .bv w a] I.const "i" = .bv w a from rfl,
        (conv_bv D h hb hn (by decide : 8 ∈ sizes) hlt).2.1 a]
      rfl
    · rw [if_pos hlt]
      exact ⟨a.setWidth 8, by simp, fun i hi => by simp; omega⟩
    · intro κ hκ
      have := hκ 0 (by omega)
      simp only [this, if_false]
  · simp only [if_neg hlt]
    by_cases he : w = 8
    · subst he
      refine ⟨fun κ => open Classical in if κ = key m (z + (0 : Nat)) then .bv 8 a else f κ, (key' (mapUpd m 0 (PreludeTy.v "i") (PreludeTy.v "M")) (by rw [memFuns, if_pos hb, if_neg hlt, if_pos rfl]; pos)).trans ?_, ?_, ?_⟩
      · rw [eval_mapUpd D h (z := z) rfl]
        rfl
      · intro i hi
        obtain rfl : i = 0 := by omega
        simp
      · intro κ hκ
        have := hκ 0 (by omega)
        simp only [this, if_false]
    · obtain ⟨f', e, h1, h2⟩ := eval_storeBytes D h
        (ρ := bind [("M", TName.map (.bv 8)), ("p", .ref), ("i", .bv w)] [.map f, ptrV m z, .bv w a] I.const)
        (f := f) (z := z) (a := a) rfl rfl rfl (w / 8 - 1) (by omega)
      refine ⟨f', ?_, fun i hi => h1 i (by omega), fun κ hκ => h2 κ fun i hi => hκ i (by omega)⟩
      rw [key' (storeBytes m (w / 8 - 1)) (by rw [memFuns, if_pos hb, if_neg hlt, if_neg he]; pos), e]

end Smack.PreSem
