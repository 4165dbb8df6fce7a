/-
The statements emitted for instructions, in bit-vector mode.
-/
import Verif.PreSem.Mem
import Verif.Intrinsics.Props

namespace Smack.PreSem
open PreludeTy

variable {U : Type} {m : Mode} {A : Arith U} {I : Interp U} {gl ex : Int}

/-! ### Statements -/

theorem set_same {ρ : String → Val U} {x : String} {a : Val U} : set ρ x a x = a := by simp [set]

theorem set_other {ρ : String → Val U} {x y : String} {a : Val U} (h : y ≠ x) : set ρ x a y = ρ y := by simp [set, h]

theorem set_set {ρ : String → Val U} {x : String} {a b : Val U} : set (set ρ x a) x b = set ρ x b := by
  funext y; unfold set; split <;> rfl

theorem steps_nil {ρ ρ' : String → Val U} : Steps I ρ [] ρ' ↔ ρ' = ρ := by
  constructor
  · intro h; cases h; rfl
  · rintro rfl; exact .nil

theorem steps_assign {ρ ρ' : String → Val U} {x : String} {e : Ex} {ss : List Emit.St} :
    Steps I ρ (.assign x e :: ss) ρ' ↔ Steps I (set ρ x (eval I ρ e)) ss ρ' := by
  constructor
  · intro h
    cases h with
    | cons h1 h2 => cases h1; exact h2
  · exact fun h => .cons .assign h

theorem steps_assume {ρ ρ' : String → Val U} {e : Ex} {ss : List Emit.St} :
    Steps I ρ (.assume e :: ss) ρ' ↔ eval I ρ e = .bool true ∧ Steps I ρ ss ρ' := by
  constructor
  · intro h
    cases h with
    | cons h1 h2 => cases h1 with | assume h1 => exact ⟨h1, h2⟩
  · exact fun h => .cons (.assume h.1) h.2

theorem steps_havoc {ρ ρ' : String → Val U} {x : String} {ss : List Emit.St} :
    Steps I ρ (.havoc x :: ss) ρ' ↔ ∃ v, Steps I (set ρ x v) ss ρ' := by
  constructor
  · intro h
    cases h with
    | cons h1 h2 => cases h1 with | havoc v => exact ⟨v, h2⟩
  · exact fun ⟨v, h⟩ => .cons (.havoc v) h

theorem steps_one {ρ ρ' : String → Val U} {x : String} {e : Ex} : Steps I ρ [.assign x e] ρ' ↔ ρ' = set ρ x (eval I ρ e) :=
  steps_assign.trans steps_nil

/-! ### Operations of `atomicrmw` -/

theorem minMax_bv (D : Defines A m I) (h : m.Ok) (hb : m.bp = true) {nm : String} {k : OpKind} {sign min : Bool} {p : IntOps.Pred} {n : Nat}
    (ho : ⟨nm, 2, k, .inlined (bvMinMax sign min), false⟩ ∈ arithTable m) (hn : n ∈ sizes)
    (hp : "$" ++ (if sign then "s" else "u") ++ (if min then "lt" else "gt") = "$" ++ predName p) (a b : BitVec n) :
    I.fn ⟨"$" ++ nm, [.ty (.bv n)]⟩ [.bv n a, .bv n b] = .bv n (if IntOps.icmp p a b then a else b) := by
  rw [bv_body D h ho hn (.inl hb) rfl (args := [.bv n a, .bv n b]) (all2 (bvIs a) (bvIs b)), bvMinMax, hp]
  simp only [eval, evals, PreludeTy.v]
  rw [show bind (vars "i" 2 (TName.bv n)) [Val.bv n a, Val.bv n b] I.const "i1" = .bv n a from rfl,
    show bind (vars "i" 2 (TName.bv n)) [Val.bv n a, Val.bv n b] I.const "i2" = .bv n b from rfl,
    predBool_bv D h (.inl hb) (nowrap h hb) p hn]
  cases IntOps.icmp p a b <;> rfl

theorem rmw_bv (D : Defines A m I) (h : m.Ok) (hb : m.bp = true) (o : Emit.RmwOp) {n : Nat} (hn : n ∈ sizes) (a b : BitVec n) :
    ∃ c, I.fn ⟨o.name, [.ty (.bv n)]⟩ [.bv n a, .bv n b] = .bv n c ∧ Rmw a b c o := by
  cases o with
  | add => exact ⟨a + b, bin_bv D h hb .add hn a b, by simp [Rmw, BitVec.ofInt_add]⟩
  | sub => exact ⟨a - b, bin_bv D h hb .sub hn a b, by simp [Rmw, Int.sub_eq_add_neg, BitVec.ofInt_add, BitVec.ofInt_neg, BitVec.sub_eq_add_neg]⟩
  | and => exact ⟨a &&& b, bin_bv D h hb .and hn a b, by simp [Rmw]⟩
  | nand =>
    refine ⟨~~~(a &&& b), bv_bin D h (nm := "nand") (op := "nand") (by unfold arithTable; pos) hn (.inl hb) rfl a b, ?_⟩
    intro i hi
    simp [hi]
  | or => exact ⟨a ||| b, bin_bv D h hb .or hn a b, by simp [Rmw]⟩
  | xor => exact ⟨a ^^^ b, bin_bv D h hb .xor hn a b, by simp [Rmw]⟩
  | max =>
    refine ⟨_, minMax_bv D h hb (nm := "smax") (p := .sgt) (sign := true) (min := false) (by unfold arithTable; pos) hn (by rfl) a b, ?_⟩
    by_cases hq : E2EBv.llvmPred .sgt a b <;> simp only [Rmw, icmp_pred, hq, decide_true, decide_false, if_true, if_false, Bool.false_eq_true] <;>
      simp only [E2EBv.llvmPred] at hq <;> refine ⟨by simp, ?_, ?_⟩ <;> omega
  | min =>
    refine ⟨_, minMax_bv D h hb (nm := "smin") (p := .slt) (sign := true) (min := true) (by unfold arithTable; pos) hn (by rfl) a b, ?_⟩
    by_cases hq : E2EBv.llvmPred .slt a b <;> simp only [Rmw, icmp_pred, hq, decide_true, decide_false, if_true, if_false, Bool.false_eq_true] <;>
      simp only [E2EBv.llvmPred] at hq <;> refine ⟨by simp, ?_, ?_⟩ <;> omega
  | umax =>
    refine ⟨_, minMax_bv D h hb (nm := "umax") (p := .ugt) (sign := false) (min := false) (by unfold arithTable; pos) hn (by rfl) a b, ?_⟩
    by_cases hq : E2EBv.llvmPred .ugt a b <;> simp only [Rmw, icmp_pred, hq, decide_true, decide_false, if_true, if_false, Bool.false_eq_true] <;>
      simp only [E2EBv.llvmPred] at hq <;> refine ⟨by simp, ?_, ?_⟩ <;> omega
  | umin =>
    refine ⟨_, minMax_bv D h hb (nm := "umin") (p := .ult) (sign := false) (min := true) (by unfold arithTable; pos) hn (by rfl) a b, ?_⟩
    by_cases hq : E2EBv.llvmPred .ult a b <;> simp only [Rmw, icmp_pred, hq, decide_true, decide_false, if_true, if_false, Bool.false_eq_true] <;>
      simp only [E2EBv.llvmPred] at hq <;> refine ⟨by simp, ?_, ?_⟩ <;> omega

/-! ### Bit-level intrinsics: the trees of `Intrinsics` as expressions -/

open Intrinsics (E C Env Bv)

mutual
def trE (m : Mode) (e z x : Ex) : E → Ex
  | .arg => e
  | .undef => z
  | .res => x
  | .lit v w => .bv v w
  | .extract a hi lo => .extract (trE m e z x a) hi lo
  | .concat a b => .concat (trE m e z x a) (trE m e z x b)
  | .ite c t f => .ite (trC m e z x c) (trE m e z x t) (trE m e z x f)
  | .add w a b => .fn ⟨"$add", [.ty (intT m w)]⟩ [trE m e z x a, trE m e z x b]
  | .zext w a => .fn ⟨"$zext", [.ty (.bv 1), .ty (intT m w)]⟩ [trE m e z x a]
def trC (m : Mode) (e z x : Ex) : C → Ex
  | .eq a b => .bin .eq (trE m e z x a) (trE m e z x b)
  | .and a b => .bin .and (trC m e z x a) (trC m e z x b)
end

mutual
/-- Functions are used at width `n` only. -/
def UsesE (n : Nat) : E → Prop
  | .extract a _ _ => UsesE n a
  | .concat a b => UsesE n a ∧ UsesE n b
  | .ite c t f => UsesC n c ∧ UsesE n t ∧ UsesE n f
  | .add w a b => w = n ∧ UsesE n a ∧ UsesE n b
  | .zext w a => w = n ∧ UsesE n a
  | _ => True
def UsesC (n : Nat) : C → Prop
  | .eq a b => UsesE n a ∧ UsesE n b
  | .and a b => UsesC n a ∧ UsesC n b
end

section
variable {ρ : String → Val U} {e z x : Ex} {ρ₀ : Env} {n : Nat}

mutual
theorem eval_trE (D : Defines A m I) (h : m.Ok) (hb : m.bp = true) (hn : n ∈ sizes) (he : eval I ρ e = .bv ρ₀.arg.1 ρ₀.arg.2)
    (hz : eval I ρ z = .bv ρ₀.undef.1 ρ₀.undef.2) (hx : eval I ρ x = .bv ρ₀.res.1 ρ₀.res.2) :
    ∀ (t : E) (v : Bv), UsesE n t → t.eval ρ₀ = some v → eval I ρ (trE m e z x t) = .bv v.1 v.2
  | .arg, v, _, hv => by rw [E.eval] at hv; injection hv with hv; subst hv; exact he
  | .undef, v, _, hv => by rw [E.eval] at hv; injection hv with hv; subst hv; exact hz
  | .res, v, _, hv => by rw [E.eval] at hv; injection hv with hv; subst hv; exact hx
  | .lit c w, v, _, hv => by
    rw [E.eval] at hv
    split at hv
    · injection hv with hv; subst hv; rw [trE, eval]
    · cases hv
  | .extract a hi lo, v, hu, hv => by
    rw [E.eval] at hv
    split at hv
    · rename_i y hy
      split at hv
      · injection hv with hv; subst hv
        rw [trE, eval, eval_trE D h hb hn he hz hx a y hu hy]; rfl
      · cases hv
    · cases hv
  | .concat a b, v, hu, hv => by
    rw [E.eval] at hv
    split at hv
    · rename_i y y' hy hy'
      injection hv with hv; subst hv
      rw [trE, eval, eval_trE D h hb hn he hz hx a y hu.1 hy, eval_trE D h hb hn he hz hx b y' hu.2 hy']; rfl
    · cases hv
  | .ite c t f, v, hu, hv => by
    rw [E.eval] at hv
    split at hv
    · rename_i c' y y' hc hy hy'
      split at hv
      · injection hv with hv
        rw [trE, eval, eval_trC D h hb hn he hz hx c c' hu.1 hc, eval_trE D h hb hn he hz hx t y hu.2.1 hy, eval_trE D h hb hn he hz hx f y' hu.2.2 hy']
        subst hv
        cases c' <;> rfl
      · cases hv
    · cases hv
  | .add w a b, v, hu, hv => by
    rw [E.eval] at hv
    split at hv
    · rename_i y y' hy hy'
      split at hv
      · rename_i hw
        injection hv with hv
        obtain ⟨w1, y⟩ := y
        obtain ⟨w2, y'⟩ := y'
        obtain ⟨rfl, rfl⟩ := hw
        subst hv
        rw [trE, eval, evals, evals, evals, eval_trE D h hb hn he hz hx a _ hu.2.1 hy, eval_trE D h hb hn he hz hx b _ hu.2.2 hy']
        simp only [intT, hb, if_true, BitVec.setWidth_eq]
        exact bin_bv D h hb .add (hu.1 ▸ hn) y y'
      · cases hv
    · cases hv
  | .zext w a, v, hu, hv => by
    rw [E.eval] at hv
    split at hv
    · rename_i y hy
      split at hv
      · rename_i hw
        injection hv with hv
        obtain ⟨w1, y⟩ := y
        obtain ⟨rfl, hw⟩ := hw
        subst hv
        rw [trE, eval, evals, evals, eval_trE D h hb hn he hz hx a _ hu.2 hy]
        simp only [intT, hb, if_true]
        exact (conv_bv D h hb (by decide : 1 ∈ sizes) (hu.1 ▸ hn) hw).2.1 y
      · cases hv
    · cases hv
theorem eval_trC (D : Defines A m I) (h : m.Ok) (hb : m.bp = true) (hn : n ∈ sizes) (he : eval I ρ e = .bv ρ₀.arg.1 ρ₀.arg.2)
    (hz : eval I ρ z = .bv ρ₀.undef.1 ρ₀.undef.2) (hx : eval I ρ x = .bv ρ₀.res.1 ρ₀.res.2) :
    ∀ (t : C) (v : Bool), UsesC n t → t.eval ρ₀ = some v → eval I ρ (trC m e z x t) = .bool v
  | .eq a b, v, hu, hv => by
    rw [C.eval] at hv
    split at hv
    · rename_i y y' hy hy'
      split at hv
      · rename_i hw
        injection hv with hv
        obtain ⟨w1, y⟩ := y
        obtain ⟨w2, y'⟩ := y'
        obtain rfl : w1 = w2 := hw
        subst hv
        rw [trC, eval, eval_trE D h hb hn he hz hx a _ hu.1 hy, eval_trE D h hb hn he hz hx b _ hu.2 hy']
        by_cases e : y = y'
        · simp [evalBin, e]
        · have : y.toNat ≠ y'.toNat := fun h => e (BitVec.eq_of_toNat_eq h)
          simp [evalBin, e, this]
      · cases hv
    · cases hv
  | .and a b, v, hu, hv => by
    rw [C.eval] at hv
    split at hv
    · rename_i y y' hy hy'
      injection hv with hv
      subst hv
      rw [trC, eval, eval_trC D h hb hn he hz hx a _ hu.1 hy, eval_trC D h hb hn he hz hx b _ hu.2 hy']
      rfl
    · cases hv
end

theorem tr_rev (w off : Nat) : ∀ k i (b : E), trE m e z x (Intrinsics.bitreverseLoop w off k i b) = Emit.revLoop e w off i k (trE m e z x b)
  | 0, i, b => rfl
  | k + 1, i, b => by rw [Intrinsics.bitreverseLoop, Emit.revLoop, tr_rev w off k]; rfl

theorem uses_rev (w off : Nat) : ∀ k i (b : E), UsesE n b → UsesE n (Intrinsics.bitreverseLoop w off k i b)
  | 0, i, b, hb => hb
  | k + 1, i, b, hb => by
    rw [Intrinsics.bitreverseLoop]
    exact uses_rev w off k _ _ ⟨⟨trivial, hb⟩, trivial⟩

theorem tr_reverse (w : Nat) : trE m e z x (Intrinsics.bitreverse w) = Emit.reverseEx e w := by
  unfold Intrinsics.bitreverse Emit.reverseEx
  dsimp only
  rw [tr_rev, Nat.and_one_is_mod]
  by_cases hw : w % 2 = 0
  · simp only [hw, if_true]; rfl
  · have : w % 2 = 1 := by omega
    simp only [this, if_false, Nat.one_ne_zero]; rfl

theorem uses_reverse (w : Nat) : UsesE n (Intrinsics.bitreverse w) := by
  unfold Intrinsics.bitreverse
  dsimp only
  refine uses_rev _ _ _ _ _ ?_
  split
  · exact ⟨trivial, trivial⟩
  · exact trivial

theorem tr_swap (w : Nat) : ∀ k i (b : E), (w / 2 + 7) / 8 - i ≤ k →
    trE m e z x (Intrinsics.bswapLoop w k (8 * i) b) = Emit.swapLoop e w i ((w / 2 + 7) / 8 - i) (trE m e z x b)
  | 0, i, b, hk => by rw [Nat.le_zero.mp hk]; rfl
  | k + 1, i, b, hk => by
    rw [Intrinsics.bswapLoop]
    split
    · obtain ⟨c, hc⟩ : ∃ c, (w / 2 + 7) / 8 - i = c + 1 := ⟨(w / 2 + 7) / 8 - i - 1, by omega⟩
      rw [show 8 * i + 8 = 8 * (i + 1) by omega, tr_swap w k (i + 1) _ (by omega), hc, Emit.swapLoop,
        show (w / 2 + 7) / 8 - (i + 1) = c by omega]
      rfl
    · rw [show (w / 2 + 7) / 8 - i = 0 by omega]; rfl

theorem uses_swap (w : Nat) : ∀ k i (b : E), UsesE n b → UsesE n (Intrinsics.bswapLoop w k i b)
  | 0, i, b, hb => hb
  | k + 1, i, b, hb => by
    rw [Intrinsics.bswapLoop]
    split
    · exact uses_swap w k _ _ ⟨⟨trivial, hb⟩, trivial⟩
    · exact hb

theorem uses_bswap (w : Nat) : UsesE n (Intrinsics.bswap w) := uses_swap w _ _ _ ⟨trivial, trivial⟩

theorem tr_bswap (w : Nat) : trE m e z x (Intrinsics.bswap w) = Emit.swapEx e w := by
  unfold Intrinsics.bswap Emit.swapEx
  exact tr_swap w (w / 2) 1 _ (by omega)

theorem tr_ctlz (w : Nat) : ∀ k, trE m e z x (Intrinsics.ctlzLoop w k) = Emit.ctlzLoop e w k
  | 0 => rfl
  | k + 1 => by rw [Intrinsics.ctlzLoop, Emit.ctlzLoop, ← tr_ctlz w k]; rfl

theorem uses_ctlz (w : Nat) : ∀ k, UsesE n (Intrinsics.ctlzLoop w k)
  | 0 => trivial
  | k + 1 => ⟨⟨trivial, trivial⟩, trivial, uses_ctlz w k⟩

theorem tr_cttz (w : Nat) : ∀ k, trE m e z x (Intrinsics.cttzLoop w k) = Emit.cttzLoop e w k
  | 0 => rfl
  | k + 1 => by rw [Intrinsics.cttzLoop, Emit.cttzLoop, ← tr_cttz w k]; rfl

theorem uses_cttz (w : Nat) : ∀ k, UsesE n (Intrinsics.cttzLoop w k)
  | 0 => trivial
  | k + 1 => ⟨⟨trivial, trivial⟩, trivial, uses_cttz w k⟩

theorem tr_pop (w : Nat) : ∀ k, trE m e z x (Intrinsics.ctpopBvLoop w k) = Emit.popBv m e w k
  | 0 => rfl
  | k + 1 => by rw [Intrinsics.ctpopBvLoop, Emit.popBv, ← tr_pop w k]; rfl

theorem uses_pop (w : Nat) : ∀ k, UsesE w (Intrinsics.ctpopBvLoop w k)
  | 0 => trivial
  | k + 1 => ⟨rfl, ⟨rfl, trivial⟩, uses_pop w k⟩
end

/-- The value of one of the trees when only the argument occurs. -/
theorem eval_tree (D : Defines A m I) (h : m.Ok) (hb : m.bp = true) {ρ : String → Val U} {e : Ex} {w : Nat} {a : BitVec w} (hw : w ∈ sizes)
    (he : eval I ρ e = .bv w a) {t : E} (hu : UsesE w t) {v : Bv} (hv : t.eval ⟨⟨w, a⟩, ⟨1, 0#1⟩, ⟨w, a⟩⟩ = some v) :
    eval I ρ (trE m e (.bv 0 1) e t) = .bv v.1 v.2 :=
  eval_trE (ρ₀ := ⟨⟨w, a⟩, ⟨1, 0#1⟩, ⟨w, a⟩⟩) D h hb hw he (by rw [eval]) he t v hu hv

end Smack.PreSem
