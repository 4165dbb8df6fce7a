/-
Helper lemmas: one instruction, and the simulation.
-/
import Verif.BwPass.Spec
import Verif.Bitwise.Props

namespace Smack.BwPass

open Smack.Cfg Smack.Cfg.Spec Smack.Bitwise Smack.BwPass.Spec

variable {M : Type} {P : Params Val M} {tab : Table} {present : Lib → Bool}

theorem after_keep (k : Nat) (args : List Val) (m : M) (r : Option (Val × M)) :
    (after P tab).sem (16 * k) args m r ↔ (llvm P tab).sem k args m r := by
  show (if 16 * k % 16 = 0 then _ else _) ↔ _
  rw [if_pos (by omega), Nat.mul_div_cancel_left k (by omega)]

theorem after_new (k j : Nat) (h0 : 0 < j) (h : j < 16) (args : List Val) (m : M) (r : Option (Val × M)) :
    (after P tab).sem (16 * k + j) args m r ↔ ∃ v, newSem j args v ∧ r = some (v, m) := by
  show (if (16 * k + j) % 16 = 0 then _ else _) ↔ _
  rw [if_neg (by omega), show (16 * k + j) % 16 = j from by omega]

theorem word_inj {w : Nat} {x y : BitVec w} (h : Val.word w x = Val.word w y) : x = y := by
  simpa using h

/-- A new instruction with a constant. -/
theorem const_sem {w : Nat} (rw' : Rewritten w) (k : Nat) (dst : Option Var) (lhs : Opd Val) (ρ : Env Val) (m : M)
    (R : Option (Val × M)) :
    (after P tab).sem (constInstr k dst lhs rw').op ((constInstr k dst lhs rw').args.map (eval ρ)) m R ↔
      ∃ x v : BitVec w, eval ρ lhs = .word w x ∧ rw'.eval x = some v ∧ R = some (.word w v, m) := by
  have key : ∀ (j : Nat) (c : BitVec w), j < 4 → (∀ v : Val, newSem j [eval ρ lhs, .word w c] v ↔ ∃ x r : BitVec w, eval ρ lhs = .word w x ∧
      v = .word w r ∧ ((j = 1 ∧ (Rewritten.mul c).eval x = some r) ∨ (j = 2 ∧ (Rewritten.sdiv c).eval x = some r) ∨
     (j = 3 ∧ (Rewritten.urem c).eval x = some r))) := by
    intro j c hj v
    constructor
    · rintro (⟨w', x, c', r, h1, h2, h3⟩ | ⟨w', f, x, y, h1, _⟩)
      · injection h1 with h4 h5
        injection h5 with h5 _
        injection h5 with hw hc
        subst hw
        have hc := eq_of_heq hc
        subst hc
        exact ⟨x, r, h4, h2, h3⟩
      · cases h1 <;> omega
    · rintro ⟨x, r, h1, h2, h3⟩
      exact .inl ⟨w, x, c, r, by rw [h1], h2, h3⟩
  cases rw' with
  | mul c =>
    show (after P tab).sem (16 * k + 1) [eval ρ lhs, .word w c] m R ↔ _
    rw [after_new k 1 (by omega) (by omega)]
    simp only [key 1 c (by omega)]
    constructor
    · rintro ⟨_, ⟨x, r, h1, rfl, h2⟩, rfl⟩
      exact ⟨x, r, h1, by simpa using h2, rfl⟩
    · rintro ⟨x, r, h1, h2, rfl⟩
      exact ⟨_, ⟨x, r, h1, rfl, .inl ⟨trivial, h2⟩⟩, rfl⟩
  | sdiv c =>
    show (after P tab).sem (16 * k + 2) [eval ρ lhs, .word w c] m R ↔ _
    rw [after_new k 2 (by omega) (by omega)]
    simp only [key 2 c (by omega)]
    constructor
    · rintro ⟨_, ⟨x, r, h1, rfl, h2⟩, rfl⟩
      exact ⟨x, r, h1, by simpa using h2, rfl⟩
    · rintro ⟨x, r, h1, h2, rfl⟩
      exact ⟨_, ⟨x, r, h1, rfl, .inr (.inl ⟨trivial, h2⟩)⟩, rfl⟩
  | urem c =>
    show (after P tab).sem (16 * k + 3) [eval ρ lhs, .word w c] m R ↔ _
    rw [after_new k 3 (by omega) (by omega)]
    simp only [key 3 c (by omega)]
    constructor
    · rintro ⟨_, ⟨x, r, h1, rfl, h2⟩, rfl⟩
      exact ⟨x, r, h1, by simpa using h2, rfl⟩
    · rintro ⟨x, r, h1, h2, rfl⟩
      exact ⟨_, ⟨x, r, h1, rfl, .inr (.inr ⟨trivial, h2⟩)⟩, rfl⟩

theorem roleAnd_some {w j : Nat} (h : roleAnd w = some j) : (w = 8 ∧ j = 4) ∨ (w = 16 ∧ j = 5) ∨ (w = 32 ∧ j = 6) ∨ (w = 64 ∧ j = 7) := by
  unfold roleAnd at h
  simp only [beq_iff_eq] at h
  repeat' split at h
  all_goals first | (simp only [Option.some.injEq] at h; omega) | simp at h

theorem roleAnd_none {w : Nat} : roleAnd w = none ↔ w ∉ [8, 16, 32, 64] := by
  unfold roleAnd
  simp only [beq_iff_eq, List.mem_cons, List.not_mem_nil, or_false]
  repeat' split
  all_goals simp <;> omega

theorem roleOr_some {w j : Nat} (h : roleOr w = some j) : (w = 8 ∧ j = 8) ∨ (w = 16 ∧ j = 9) ∨ (w = 32 ∧ j = 10) ∨ (w = 64 ∧ j = 11) := by
  unfold roleOr at h
  simp only [beq_iff_eq] at h
  repeat' split at h
  all_goals first | (simp only [Option.some.injEq] at h; omega) | simp at h

theorem roleOr_none {w : Nat} : roleOr w = none ↔ w ∉ [8, 16, 32, 64] := by
  unfold roleOr
  simp only [beq_iff_eq, List.mem_cons, List.not_mem_nil, or_false]
  repeat' split
  all_goals simp <;> omega

/-- A call of a library function. -/
theorem lib_sem {j w : Nat} {f : Int → Int → Int} (hl : Library j w f) (k : Nat) (a b : Val) (m : M) (R : Option (Val × M)) :
    (after P tab).sem (16 * k + j) [a, b] m R ↔
      ∃ x y : BitVec w, a = .word w x ∧ b = .word w y ∧ R = some (.word w (BitVec.ofInt w (f x.toInt y.toInt)), m) := by
  rw [after_new k j (by cases hl <;> omega) (by cases hl <;> omega)]
  constructor
  · rintro ⟨v, (⟨w', x, c', r, _, _, h⟩ | ⟨w', f', x, y, h1, h2, rfl⟩), rfl⟩
    · exfalso
      cases hl <;> omega
    · have : w' = w ∧ f' = f := by cases hl <;> cases h1 <;> exact ⟨rfl, rfl⟩
      obtain ⟨rfl, rfl⟩ := this
      injection h2 with h3 h4
      injection h4 with h4 _
      exact ⟨x, y, h3, h4, rfl⟩
  · rintro ⟨x, y, rfl, rfl, rfl⟩
    exact ⟨_, .inr ⟨w, f, x, y, hl, rfl, rfl⟩, rfl⟩

/-- Bit `i` of what the library computes for `or`. -/
theorem or_bits {w j : Nat} (hw : roleOr w = some j) (x y : BitVec w) :
    ∃ (f : Int → Int → Int) (r : BitVec w), Library j w f ∧ f x.toInt y.toInt = r.toInt ∧
      ∀ i, i < w → (r.getLsbD i = true ↔ Kept x (min i 31) ∨ Kept y (min i 31)) := by
  have ext : ∀ {w : Nat}, w < 32 → ∀ (x : BitVec w) (i : Nat), i < w → (survives (x.signExtend 32) i ↔ Kept x i) := by
    intro w hw x i hi
    have hb : ∀ j, j < w → (x.signExtend 32).getLsbD j = x.getLsbD j := by
      intro j hj
      rw [BitVec.getLsbD_signExtend]
      simp [show j < 32 by omega, hj]
    unfold survives Kept
    rw [hb i hi]
    constructor
    · rintro ⟨h1, h | ⟨j, hj, h⟩⟩
      · omega
      · rw [hb j (by omega)] at h; exact ⟨h1, .inr ⟨j, hj, h⟩⟩
    · rintro ⟨h1, h | ⟨j, hj, h⟩⟩
      · omega
      · exact ⟨h1, .inr ⟨j, hj, by rw [hb j (by omega)]; exact h⟩⟩
  have low : ∀ (x : BitVec 64) (i : Nat), i < 32 → (survives (x.setWidth 32) i ↔ Kept x i) := by
    intro x i hi
    have hb : ∀ j, j < 32 → (x.setWidth 32).getLsbD j = x.getLsbD j := by
      intro j hj
      rw [BitVec.getLsbD_setWidth]; simp [hj]
    unfold survives Kept
    rw [hb i hi]
    constructor
    · rintro ⟨h1, h | ⟨j, hj, h⟩⟩
      · exact ⟨h1, .inl (by omega)⟩
      · rw [hb j (by omega)] at h; exact ⟨h1, .inr ⟨j, hj, h⟩⟩
    · rintro ⟨h1, h | ⟨j, hj, h⟩⟩
      · exact ⟨h1, .inl (by omega)⟩
      · exact ⟨h1, .inr ⟨j, hj, by rw [hb j (by omega)]; exact h⟩⟩
  rcases roleOr_some hw with ⟨rfl, rfl⟩ | ⟨rfl, rfl⟩ | ⟨rfl, rfl⟩ | ⟨rfl, rfl⟩
  · obtain ⟨z, h1, h2⟩ := c14_or8_bits_partial x y
    refine ⟨_, z.setWidth 8, .or8, h1, ?_⟩
    intro i hi
    rw [BitVec.getLsbD_setWidth, show min i 31 = i by omega, ← ext (by omega) x i hi, ← ext (by omega) y i hi, ← h2 i (by omega)]
    simp [hi]
  · obtain ⟨z, h1, h2⟩ := c14_or16_bits_partial x y
    refine ⟨_, z.setWidth 16, .or16, h1, ?_⟩
    intro i hi
    rw [BitVec.getLsbD_setWidth, show min i 31 = i by omega, ← ext (by omega) x i hi, ← ext (by omega) y i hi, ← h2 i (by omega)]
    simp [hi]
  · obtain ⟨z, h1, h2⟩ := c14_or32_bits_partial x y
    refine ⟨_, z, .or32, h1, ?_⟩
    intro i hi
    rw [show min i 31 = i by omega, h2 i hi]
    rfl
  · obtain ⟨z, h1, h2⟩ := c14_or64_bits_partial x y
    refine ⟨_, z.signExtend 64, .or64, ?_, ?_⟩
    · rw [h1, BitVec.toInt_signExtend_of_le (by omega)]
    · intro i hi
      rw [← low x _ (by omega), ← low y _ (by omega), ← h2 _ (by omega), BitVec.getLsbD_signExtend]
      by_cases h : i < 32
      · simp [hi, h, show min i 31 = i by omega]
      · simp [hi, h, show min i 31 = 31 by omega, BitVec.msb_eq_getLsbD_last]

/-- What the library computes for `and`. -/
theorem and_value {w j : Nat} (hw : roleAnd w = some j) (x y : BitVec w) :
    ∃ f : Int → Int → Int, Library j w f ∧ BitVec.ofInt w (f x.toInt y.toInt) = if w = 32 ∨ w = 64 then 0#w else x &&& y := by
  rcases roleAnd_some hw with ⟨rfl, rfl⟩ | ⟨rfl, rfl⟩ | ⟨rfl, rfl⟩ | ⟨rfl, rfl⟩
  · exact ⟨_, .and8, by rw [c14_and8, BitVec.ofInt_toInt]; simp⟩
  · exact ⟨_, .and16, by rw [c14_and16, BitVec.ofInt_toInt]; simp⟩
  · exact ⟨_, .and32, by rw [c14_and32_fails]; simp⟩
  · exact ⟨_, .and64, by rw [c14_and64_fails]; simp⟩

/-- The value of a shift. -/
theorem shift_result {w : Nat} (s : Shift) (x a r : BitVec w) (h : a.toNat < w) : ShiftResult s x a r ↔ s.eval x a = some r := by
  unfold ShiftResult Shift.eval
  rw [if_pos h]
  simp only [h, true_implies, Option.some.injEq]
  cases s <;> exact eq_comm

/-- The division that replaces a shift has the same value exactly at the instances that do not differ. -/
theorem shift_same {w : Nat} (hw : 2 ≤ w) (s : Shift) (x a : BitVec w) (h : a.toNat < w) :
    (rewriteShift s a).eval x = s.eval x a ↔ ¬ (match s with
      | .shl => False
      | .lshr => x.toInt < 0 ∧ a.toNat ≠ 0 ∧ (a.toNat = w - 1 → x.toInt ≠ -(2:Int) ^ (w - 1))
      | .ashr => x.toInt < 0 ∧ (a.toNat < w - 1 → ¬ (2:Int) ^ a.toNat ∣ x.toInt)) := by
  cases s with
  | shl =>
    simp only [not_false_eq_true, iff_true]
    obtain ⟨v, hv⟩ : ∃ v, Shift.shl.eval x a = some v := by unfold Shift.eval; rw [if_pos h]; exact ⟨_, rfl⟩
    rw [hv]
    exact c12_shl_preserved x a v hv
  | lshr =>
    rw [c12_lshr_iff_partial hw x a h]
    show _ ↔ ¬ (x.toInt < 0 ∧ a.toNat ≠ 0 ∧ (a.toNat = w - 1 → x.toInt ≠ -(2:Int) ^ (w - 1)))
    constructor
    · rintro (h | h | ⟨h1, h2⟩) ⟨h3, h4, h5⟩
      · omega
      · exact h4 h
      · exact h5 h1 h2
    · intro hn
      by_cases h1 : 0 ≤ x.toInt
      · exact .inl h1
      · by_cases h2 : a.toNat = 0
        · exact .inr (.inl h2)
        · refine .inr (.inr ?_)
          by_cases h3 : a.toNat = w - 1
          · by_cases h4 : x.toInt = -(2:Int) ^ (w - 1)
            · exact ⟨h3, h4⟩
            · exact absurd ⟨by omega, h2, fun _ => h4⟩ hn
          · exact absurd ⟨by omega, h2, fun h => absurd h h3⟩ hn
  | ashr =>
    rw [c12_ashr_iff_partial hw x a h]
    show _ ↔ ¬ (x.toInt < 0 ∧ (a.toNat < w - 1 → ¬ (2:Int) ^ a.toNat ∣ x.toInt))
    constructor
    · rintro (h | ⟨h1, h2⟩) ⟨h3, h4⟩
      · omega
      · exact h4 h1 h2
    · intro hn
      by_cases h1 : 0 ≤ x.toInt
      · exact .inl h1
      · refine .inr ?_
        by_cases h2 : a.toNat < w - 1
        · by_cases h3 : (2:Int) ^ a.toNat ∣ x.toInt
          · exact ⟨h2, h3⟩
          · exact absurd ⟨by omega, fun _ => h3⟩ hn
        · exact absurd ⟨by omega, fun h => absurd h h2⟩ hn

theorem and_lib {w j : Nat} (hw : roleAnd w = some j) (k : Nat) (a b : Val) (m : M) (R : Option (Val × M)) :
    (after P tab).sem (16 * k + j) [a, b] m R ↔
      ∃ x y : BitVec w, a = .word w x ∧ b = .word w y ∧ R = some (.word w (if w = 32 ∨ w = 64 then 0#w else x &&& y), m) := by
  obtain ⟨f, hf, _⟩ := and_value hw 0#w 0#w
  rw [lib_sem hf]
  have h : ∀ x y : BitVec w, BitVec.ofInt w (f x.toInt y.toInt) = if w = 32 ∨ w = 64 then 0#w else x &&& y := by
    intro x y
    obtain ⟨f', hf', h⟩ := and_value hw x y
    have : f' = f := by cases hf <;> cases hf' <;> rfl
    rw [← this]; exact h
  simp only [h]

theorem or_lib {w j : Nat} (hw : roleOr w = some j) (k : Nat) (a b : Val) (m : M) (R : Option (Val × M)) :
    (after P tab).sem (16 * k + j) [a, b] m R ↔
      ∃ x y r : BitVec w, a = .word w x ∧ b = .word w y ∧
        (∀ i, i < w → (r.getLsbD i = true ↔ Kept x (min i 31) ∨ Kept y (min i 31))) ∧ R = some (.word w r, m) := by
  obtain ⟨f, _, hf, _⟩ := or_bits hw 0#w 0#w
  rw [lib_sem hf]
  have h : ∀ x y : BitVec w, ∀ i, i < w → ((BitVec.ofInt w (f x.toInt y.toInt)).getLsbD i = true ↔ Kept x (min i 31) ∨ Kept y (min i 31)) := by
    intro x y
    obtain ⟨f', r, hf', h1, h2⟩ := or_bits hw x y
    have : f' = f := by cases hf <;> cases hf' <;> rfl
    rw [← this, h1, BitVec.ofInt_toInt]; exact h2
  constructor
  · rintro ⟨x, y, h1, h2, h3⟩
    exact ⟨x, y, _, h1, h2, h x y, h3⟩
  · rintro ⟨x, y, r, h1, h2, h3, h4⟩
    refine ⟨x, y, h1, h2, ?_⟩
    rw [h4]
    have : r = BitVec.ofInt w (f x.toInt y.toInt) := by
      apply BitVec.eq_of_getLsbD_eq
      intro i hi
      rw [Bool.eq_iff_iff, h3 i hi, h x y i hi]
    rw [this]

/-- The cases of the pass. -/
theorem rewrite_cases {fn : Fn Val} (hsh : Shape tab fn) {b : Nat} {blk : Block Val} {i i' : Instr Val} (hb : fn[b]? = some blk)
    (hi : i ∈ blk.body) (h : rewrite tab present i = some i') :
    (i' = keep i ∧ ∀ args, ¬ Differs tab i.op args) ∨
    (∃ s w a lhs, tab i.op = .shift s w (some a) ∧ 2 ≤ w ∧ i.args = [lhs] ∧ i' = constInstr i.op i.dst lhs (rewriteShift s a)) ∨
    (∃ w c r rhs, tab i.op = .and w (some c) ∧ 1 ≤ w ∧ i.args = [rhs] ∧ rewriteAnd c = some r ∧ i' = constInstr i.op i.dst rhs r) ∨
    (∃ w c x y j, tab i.op = .and w c ∧ 1 ≤ w ∧ roleAnd w = some j ∧ (∀ b, c = some b → rewriteAnd b = none) ∧
      i' = ⟨i.dst, 16 * i.op + j, [x, y]⟩ ∧ ∀ ρ, operands c true (i.args.map (eval ρ)) = some [eval ρ x, eval ρ y]) ∨
    (∃ w x y j, tab i.op = .or w ∧ roleOr w = some j ∧ i.args = [x, y] ∧ i' = ⟨i.dst, 16 * i.op + j, [x, y]⟩) := by
  have hone : i.args.length = 1 → ∃ x, i.args = [x] := fun h => List.length_eq_one_iff.1 h
  have htwo : i.args.length = 2 → ∃ x y, i.args = [x, y] := fun h => by
    match i.args, h with
    | [x, y], _ => exact ⟨x, y, rfl⟩
  unfold rewrite at h
  cases ht : tab i.op with
  | shift s w a =>
    cases a with
    | none =>
      left
      rw [ht] at h
      simp only [Option.some.injEq] at h
      exact ⟨h.symm, fun args => by unfold Differs; rw [ht]; exact id⟩
    | some a =>
      obtain ⟨hw, hl⟩ := hsh.shift b blk i s w (some a) hb hi ht rfl
      obtain ⟨x, hx⟩ := hone hl
      rw [ht, hx] at h
      simp only [Option.some.injEq] at h
      exact .inr (.inl ⟨s, w, a, x, rfl, hw, hx, h.symm⟩)
  | and w c =>
    obtain ⟨hw, hl⟩ := hsh.and b blk i w c hb hi ht
    cases c with
    | none =>
      obtain ⟨x, y, hx⟩ := htwo (by simpa using hl)
      rw [ht, hx] at h
      simp only [libCall] at h
      cases hr : roleAnd w with
      | none =>
        rw [hr] at h
        simp only [Option.some.injEq] at h
        left
        refine ⟨h.symm, fun args hd => ?_⟩
        unfold Differs at hd
        rw [ht] at hd
        have := roleAnd_none.1 hr
        simp at this
        obtain ⟨h1, _⟩ := hd
        omega
      | some j =>
        rw [hr] at h
        cases hp : present (.and w) with
        | false => rw [hp] at h; simp at h
        | true =>
          rw [hp] at h
          simp only [if_true, Option.some.injEq] at h
          exact .inr (.inr (.inr (.inl ⟨w, none, x, y, j, rfl, hw, hr, fun b h => by simp at h, h.symm, fun ρ => by rw [hx]; rfl⟩)))
    | some c =>
      obtain ⟨x, hx⟩ := hone (by simpa using hl)
      rw [ht, hx] at h
      simp only at h
      cases hm : rewriteAnd c with
      | some r =>
        rw [hm] at h
        simp only [Option.some.injEq] at h
        exact .inr (.inr (.inl ⟨w, c, r, x, rfl, hw, hx, hm, h.symm⟩))
      | none =>
        rw [hm] at h
        simp only [libCall] at h
        cases hr : roleAnd w with
        | none =>
          rw [hr] at h
          simp only [Option.some.injEq] at h
          left
          refine ⟨h.symm, fun args hd => ?_⟩
          unfold Differs at hd
          rw [ht] at hd
          have := roleAnd_none.1 hr
          simp at this
          obtain ⟨h1, _⟩ := hd
          omega
        | some j =>
          rw [hr] at h
          cases hp : present (.and w) with
          | false => rw [hp] at h; simp at h
          | true =>
            rw [hp] at h
            simp only [if_true, Option.some.injEq] at h
            exact .inr (.inr (.inr (.inl ⟨w, some c, .const (.word w c), x, j, rfl, hw, hr,
              fun b h => by simp only [Option.some.injEq] at h; rw [← h]; exact hm, h.symm, fun ρ => by rw [hx]; rfl⟩)))
  | or w =>
    obtain ⟨x, y, hx⟩ := htwo (hsh.or b blk i w hb hi ht)
    rw [ht, hx] at h
    simp only [libCall] at h
    cases hr : roleOr w with
    | none =>
      rw [hr] at h
      simp only [Option.some.injEq] at h
      left
      refine ⟨h.symm, fun args hd => ?_⟩
      unfold Differs at hd
      rw [ht] at hd
      have := roleOr_none.1 hr
      simp at this
      obtain ⟨h1, _⟩ := hd
      omega
    | some j =>
      rw [hr] at h
      cases hp : present (.or w) with
      | false => rw [hp] at h; simp at h
      | true =>
        rw [hp] at h
        simp only [if_true, Option.some.injEq] at h
        exact .inr (.inr (.inr (.inr ⟨w, x, y, j, rfl, hr, hx, h.symm⟩)))
  | vector => rw [ht] at h; simp at h
  | other =>
    left
    rw [ht] at h
    simp only [Option.some.injEq] at h
    exact ⟨h.symm, fun args => by unfold Differs; rw [ht]; exact id⟩

theorem noMask {w : Nat} (hw : 1 ≤ w) {c : Option (BitVec w)} :
    (∀ b, c = some b → rewriteAnd b = none) ↔ ∀ b j, c = some b → j < w → b.toNat ≠ 2 ^ j - 1 := by
  constructor
  · intro h b j hb hj hn
    have h1 := (c13_mask_applies hw b).2 ⟨j, hj, hn⟩
    rw [h b hb] at h1
    cases h1
  · intro h b hb
    cases hr : rewriteAnd b with
    | none => rfl
    | some r =>
      obtain ⟨j, hj, hn⟩ := (c13_mask_applies hw b).1 (by rw [hr]; rfl)
      exact absurd hn (h b j hb hj)

theorem llvm_shift {k : Nat} {s : Shift} {w : Nat} {a : BitVec w} (ht : tab k = .shift s w (some a)) (v : Val) (m : M)
    (R : Option (Val × M)) : (llvm P tab).sem k [v] m R ↔
      ∃ x r : BitVec w, v = .word w x ∧ ShiftResult s x a r ∧ R = some (.word w r, m) := by
  unfold llvm
  simp only [ht]
  constructor
  · rintro ⟨x, y, r, h1, h2, h3⟩
    simp only [operands, Option.some.injEq] at h1
    injection h1 with h4 h5
    injection h5 with h5 _
    have := word_inj h5
    subst this
    exact ⟨x, r, h4, h2, h3⟩
  · rintro ⟨x, r, rfl, h2, h3⟩
    exact ⟨x, a, r, rfl, h2, h3⟩

theorem llvm_and {k w : Nat} {c : Option (BitVec w)} (ht : tab k = .and w c) (args : List Val) (a b : Val)
    (ha : operands c true args = some [a, b]) (m : M) (R : Option (Val × M)) :
    (llvm P tab).sem k args m R ↔ ∃ x y : BitVec w, a = .word w x ∧ b = .word w y ∧ R = some (.word w (x &&& y), m) := by
  unfold llvm
  simp only [ht, ha, Option.some.injEq]
  constructor
  · rintro ⟨x, y, h1, h2⟩
    injection h1 with h3 h4
    injection h4 with h4 _
    exact ⟨x, y, h3, h4, h2⟩
  · rintro ⟨x, y, rfl, rfl, h2⟩
    exact ⟨x, y, rfl, h2⟩

theorem llvm_or {k w : Nat} (ht : tab k = .or w) (a b : Val) (m : M) (R : Option (Val × M)) :
    (llvm P tab).sem k [a, b] m R ↔ ∃ x y : BitVec w, a = .word w x ∧ b = .word w y ∧ R = some (.word w (x ||| y), m) := by
  unfold llvm
  simp only [ht]
  constructor
  · rintro ⟨x, y, h1, h2⟩
    injection h1 with h3 h4
    injection h4 with h4 _
    exact ⟨x, y, h3, h4, h2⟩
  · rintro ⟨x, y, rfl, rfl, h2⟩
    exact ⟨x, y, rfl, h2⟩

/-- One instruction: at an instance that does not differ, the instruction and its replacement do the same. -/
theorem rewrite_same {fn : Fn Val} (hsh : Shape tab fn) {b : Nat} {blk : Block Val} {i i' : Instr Val} (hb : fn[b]? = some blk)
    (hi : i ∈ blk.body) (h : rewrite tab present i = some i') (ρ : Env Val) (hd : ¬ Differs tab i.op (i.args.map (eval ρ))) (m : M)
    (R : Option (Val × M)) :
    (llvm P tab).sem i.op (i.args.map (eval ρ)) m R ↔ (after P tab).sem i'.op (i'.args.map (eval ρ)) m R := by
  rcases rewrite_cases hsh hb hi h with ⟨rfl, _⟩ | ⟨s, w, a, lhs, ht, hw, ha, rfl⟩ | ⟨w, c, r, rhs, ht, hw, ha, hm, rfl⟩ |
    ⟨w, c, x, y, j, ht, hw, hr, hc, rfl, ho⟩ | ⟨w, x, y, j, ht, hr, ha, rfl⟩
  · exact (after_keep i.op _ m R).symm
  · rw [const_sem, ha]
    rw [ha] at hd
    simp only [List.map_cons, List.map_nil] at hd ⊢
    rw [llvm_shift ht]
    unfold Differs at hd
    simp only [ht] at hd
    have key : ∀ x : BitVec w, eval ρ lhs = .word w x → ∀ v, ShiftResult s x a v ↔ (rewriteShift s a).eval x = some v := by
      intro x hx v
      by_cases hlt : a.toNat < w
      · rw [shift_result s x a v hlt]
        have := (shift_same hw s x a hlt).2 (fun hh => hd ⟨x, by rw [hx], fun _ => hh⟩)
        rw [this]
      · exact absurd ⟨x, by rw [hx], fun h => absurd h hlt⟩ hd
    constructor
    · rintro ⟨x, v, h1, h2, h3⟩
      exact ⟨x, v, h1, (key x h1 v).1 h2, h3⟩
    · rintro ⟨x, v, h1, h2, h3⟩
      exact ⟨x, v, h1, (key x h1 v).2 h2, h3⟩
  · rw [const_sem, ha]
    simp only [List.map_cons, List.map_nil]
    rw [llvm_and ht _ (.word w c) (eval ρ rhs) rfl]
    constructor
    · rintro ⟨x, y, h1, h2, h3⟩
      have := word_inj h1
      subst this
      exact ⟨y, _, h2, c13_mask_preserved c y r hm, h3⟩
    · rintro ⟨y, v, h1, h2, h3⟩
      rw [c13_mask_preserved c y r hm] at h2
      injection h2 with h2
      subst h2
      exact ⟨c, y, rfl, h1, h3⟩
  · show _ ↔ (after P tab).sem (16 * i.op + j) [eval ρ x, eval ρ y] m R
    rw [and_lib hr, llvm_and ht _ _ _ (ho ρ)]
    have key : ∀ u v : BitVec w, eval ρ x = .word w u → eval ρ y = .word w v → (if w = 32 ∨ w = 64 then 0#w else u &&& v) = u &&& v := by
      intro u v hu hv
      by_cases h1 : w = 32 ∨ w = 64
      · rw [if_pos h1]
        cases Decidable.em (u &&& v = 0#w) with
        | inl h => exact h.symm
        | inr h =>
          refine absurd ?_ hd
          unfold Differs
          simp only [ht]
          exact ⟨h1, (noMask hw).1 hc, u, v, by rw [ho ρ, hu, hv], h⟩
      · rw [if_neg h1]
    constructor
    · rintro ⟨u, v, h1, h2, h3⟩
      exact ⟨u, v, h1, h2, by rw [key u v h1 h2]; exact h3⟩
    · rintro ⟨u, v, h1, h2, h3⟩
      exact ⟨u, v, h1, h2, by rw [key u v h1 h2] at h3; exact h3⟩
  · show _ ↔ (after P tab).sem (16 * i.op + j) [eval ρ x, eval ρ y] m R
    rw [ha] at hd ⊢
    simp only [List.map_cons, List.map_nil] at hd ⊢
    rw [or_lib hr, llvm_or ht]
    have key : ∀ u v : BitVec w, eval ρ x = .word w u → eval ρ y = .word w v → ∀ i, i < w →
        ((u.getLsbD i = true ∨ v.getLsbD i = true) ↔ (Kept u (min i 31) ∨ Kept v (min i 31))) := by
      intro u v hu hv
      refine Classical.byContradiction fun hn => hd ?_
      unfold Differs
      simp only [ht]
      refine ⟨?_, u, v, by rw [hu, hv], hn⟩
      rcases roleOr_some hr with ⟨rfl, _⟩ | ⟨rfl, _⟩ | ⟨rfl, _⟩ | ⟨rfl, _⟩ <;> simp
    constructor
    · rintro ⟨u, v, h1, h2, h3⟩
      refine ⟨u, v, u ||| v, h1, h2, ?_, h3⟩
      intro i hi
      rw [← key u v h1 h2 i hi, BitVec.getLsbD_or, Bool.or_eq_true]
    · rintro ⟨u, v, r, h1, h2, h3, h4⟩
      refine ⟨u, v, h1, h2, ?_⟩
      rw [h4]
      have : r = u ||| v := by
        apply BitVec.eq_of_getLsbD_eq
        intro i hi
        rw [Bool.eq_iff_iff, h3 i hi, ← key u v h1 h2 i hi, BitVec.getLsbD_or, Bool.or_eq_true]
      rw [this]

/-- One instruction: at an instance that differs, with a defined value, the replacement never has the value of the instruction. -/
theorem rewrite_differs {fn : Fn Val} (hsh : Shape tab fn) {b : Nat} {blk : Block Val} {i i' : Instr Val} (hb : fn[b]? = some blk)
    (hi : i ∈ blk.body) (h : rewrite tab present i = some i') (ρ : Env Val) (hd : Differs tab i.op (i.args.map (eval ρ)))
    (hdef : ∀ s w (a : BitVec w), tab i.op = .shift s w (some a) → a.toNat < w) (m : M)
    (R : Option (Val × M)) (h1 : (llvm P tab).sem i.op (i.args.map (eval ρ)) m R) :
    ¬ (after P tab).sem i'.op (i'.args.map (eval ρ)) m R := by
  rcases rewrite_cases hsh hb hi h with ⟨rfl, hn⟩ | ⟨s, w, a, lhs, ht, hw, ha, rfl⟩ | ⟨w, c, r, rhs, ht, hw, ha, hm, rfl⟩ |
    ⟨w, c, x, y, j, ht, hw, hr, hc, rfl, ho⟩ | ⟨w, x, y, j, ht, hr, ha, rfl⟩
  · exact absurd hd (hn _)
  · rw [const_sem]
    rw [ha] at hd h1
    simp only [List.map_cons, List.map_nil] at hd h1
    rw [llvm_shift ht] at h1
    unfold Differs at hd
    simp only [ht] at hd
    obtain ⟨x, hx, hd⟩ := hd
    have hx : eval ρ lhs = .word w x := by simpa using hx
    have hlt := hdef s w a ht
    rintro ⟨x', v, h2, h3, h4⟩
    obtain ⟨x'', v', h5, h6, h7⟩ := h1
    rw [hx] at h2 h5
    have := word_inj h2
    subst this
    have := word_inj h5
    subst this
    rw [h4] at h7
    simp only [Option.some.injEq, Prod.mk.injEq, and_true] at h7
    have := word_inj h7
    subst this
    rw [shift_result s x a v hlt] at h6
    exact (shift_same hw s x a hlt).1 (by rw [h3, h6]) (hd hlt)
  · unfold Differs at hd
    simp only [ht] at hd
    have := (noMask hw).2 hd.2.1 c rfl
    rw [hm] at this
    cases this
  · show ¬ (after P tab).sem (16 * i.op + j) [eval ρ x, eval ρ y] m R
    rw [and_lib hr]
    rw [llvm_and ht _ _ _ (ho ρ)] at h1
    unfold Differs at hd
    simp only [ht] at hd
    obtain ⟨hw', _, u, v, hu, hne⟩ := hd
    rw [ho ρ] at hu
    simp only [Option.some.injEq, List.cons.injEq, and_true] at hu
    rintro ⟨u', v', h2, h3, h4⟩
    obtain ⟨u'', v'', h5, h6, h7⟩ := h1
    rw [hu.1] at h2 h5
    rw [hu.2] at h3 h6
    have := word_inj h2; subst this
    have := word_inj h5; subst this
    have := word_inj h3; subst this
    have := word_inj h6; subst this
    rw [h4, if_pos hw'] at h7
    simp only [Option.some.injEq, Prod.mk.injEq, and_true] at h7
    exact hne (word_inj h7).symm
  · show ¬ (after P tab).sem (16 * i.op + j) [eval ρ x, eval ρ y] m R
    rw [ha] at hd h1
    simp only [List.map_cons, List.map_nil] at hd h1
    rw [or_lib hr]
    rw [llvm_or ht] at h1
    unfold Differs at hd
    simp only [ht] at hd
    obtain ⟨_, u, v, hu, hne⟩ := hd
    simp only [List.cons.injEq, and_true] at hu
    rintro ⟨u', v', r, h2, h3, hk, h4⟩
    obtain ⟨u'', v'', h5, h6, h7⟩ := h1
    rw [hu.1] at h2 h5
    rw [hu.2] at h3 h6
    have := word_inj h2; subst this
    have := word_inj h5; subst this
    have := word_inj h3; subst this
    have := word_inj h6; subst this
    rw [h4] at h7
    simp only [Option.some.injEq, Prod.mk.injEq, and_true] at h7
    have := word_inj h7
    subst this
    refine hne fun i hi => ?_
    rw [← hk i hi, BitVec.getLsbD_or, Bool.or_eq_true]

end Smack.BwPass
