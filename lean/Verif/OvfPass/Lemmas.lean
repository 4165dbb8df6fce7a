import Verif.OvfPass.Spec
import Verif.Overflow.Lemmas
import Verif.Cfg.Sim

namespace Smack.OvfPass

open Smack.Cfg Smack.Cfg.Spec Smack.OvfPass.Spec Smack.Overflow Smack.IntOps

variable {M : Type}

/-! ## Execution of lists -/

section
variable {V : Type} {P : Params V M}

theorem exec_append {a b : List (Instr V)} {ρ ρ₂ : Env V} {m m₂ : M} :
    Exec P (a ++ b) ρ m ρ₂ m₂ ↔ ∃ ρ₁ m₁, Exec P a ρ m ρ₁ m₁ ∧ Exec P b ρ₁ m₁ ρ₂ m₂ := by
  induction a generalizing ρ m with
  | nil =>
    constructor
    · intro h; exact ⟨ρ, m, .nil _ _, h⟩
    · rintro ⟨_, _, h1, h2⟩; cases h1; exact h2
  | cons i a ih =>
    constructor
    · intro h
      cases h with
      | cons _ _ _ _ v m' _ _ hs hr =>
        obtain ⟨ρ₁, m₁, h1, h2⟩ := ih.1 hr
        exact ⟨ρ₁, m₁, .cons _ _ _ _ v m' _ _ hs h1, h2⟩
    · rintro ⟨ρ₁, m₁, h1, h2⟩
      cases h1 with
      | cons _ _ _ _ v m' _ _ hs hr => exact .cons _ _ _ _ v m' _ _ hs (ih.2 ⟨_, _, hr, h2⟩)

theorem fail_append {a b : List (Instr V)} {ρ : Env V} {m : M} {o : Outcome V M} :
    ExecFail P (a ++ b) ρ m o ↔ ExecFail P a ρ m o ∨ ∃ ρ₁ m₁, Exec P a ρ m ρ₁ m₁ ∧ ExecFail P b ρ₁ m₁ o := by
  induction a generalizing ρ m with
  | nil =>
    constructor
    · intro h; exact .inr ⟨ρ, m, .nil _ _, h⟩
    · rintro (h | ⟨_, _, h1, h2⟩)
      · cases h
      · cases h1; exact h2
  | cons i a ih =>
    constructor
    · intro h
      cases h with
      | here _ _ _ _ hs => exact .inl (.here _ _ _ _ hs)
      | there _ _ _ _ v m' _ hs hr =>
        rcases ih.1 hr with h | ⟨ρ₁, m₁, h1, h2⟩
        · exact .inl (.there _ _ _ _ v m' _ hs h)
        · exact .inr ⟨ρ₁, m₁, .cons _ _ _ _ v m' _ _ hs h1, h2⟩
    · rintro (h | ⟨ρ₁, m₁, h1, h2⟩)
      · cases h with
        | here _ _ _ _ hs => exact .here _ _ _ _ hs
        | there _ _ _ _ v m' _ hs hr => exact .there _ _ _ _ v m' _ hs (ih.2 (.inl hr))
      · cases h1 with
        | cons _ _ _ _ v m' _ _ hs hr => exact .there _ _ _ _ v m' _ hs (ih.2 (.inr ⟨_, _, hr, h2⟩))

theorem exec_one {i : Instr V} {ρ ρ₂ : Env V} {m m₂ : M} :
    Exec P [i] ρ m ρ₂ m₂ ↔ ∃ v, P.sem i.op (i.args.map (eval ρ)) m (some (v, m₂)) ∧ ρ₂ = setOpt ρ i.dst v := by
  constructor
  · intro h
    cases h with
    | cons _ _ _ _ v m' _ _ hs hr => cases hr; exact ⟨v, hs, rfl⟩
  · rintro ⟨v, h, rfl⟩; exact .cons _ _ _ _ v _ _ _ h (.nil _ _)

theorem fail_one {i : Instr V} {ρ : Env V} {m : M} {o : Outcome V M} :
    ExecFail P [i] ρ m o ↔ P.sem i.op (i.args.map (eval ρ)) m none ∧ o = .fail i.op (i.args.map (eval ρ)) m := by
  constructor
  · intro h
    cases h with
    | here _ _ _ _ hs => exact ⟨hs, rfl⟩
    | there _ _ _ _ v m' _ hs hr => cases hr
  · rintro ⟨h, rfl⟩; exact .here _ _ _ _ h

end

/-! ## The new instructions -/

variable {P : Params Val M} {tab : Table}

theorem new_sem {k j : Nat} (hj : 0 < j ∧ j < 16) (args : List Val) (m : M) (r : Option (Val × M)) :
    (after P tab).sem (16 * k + j) args m r ↔ ∃ v, newStep (tab k) j args = some v ∧ r = v.map (fun v => (v, m)) := by
  have h1 : (16 * k + j) % 16 = j := by omega
  have h2 : (16 * k + j) / 16 = k := by omega
  simp only [after, h1, h2]
  rw [if_neg (by omega)]

theorem old_sem {k : Nat} (args : List Val) (m : M) (r : Option (Val × M)) :
    (after P tab).sem (16 * k) args m r ↔ (llvm P tab).sem k args m r := by
  have h1 : (16 * k) % 16 = 0 := by omega
  have h2 : (16 * k) / 16 = k := by omega
  simp only [after, h1, h2, if_true]

theorem new_cons {k j : Nat} (hj : 0 < j ∧ j < 16) {t : Option Var} {args : List (Opd Val)} {is : List (Instr Val)}
    {ρ ρ₂ : Env Val} {m m₂ : M} :
    Exec (after P tab) (⟨t, 16 * k + j, args⟩ :: is) ρ m ρ₂ m₂ ↔
      ∃ v, newStep (tab k) j (args.map (eval ρ)) = some (some v) ∧ Exec (after P tab) is (setOpt ρ t v) m ρ₂ m₂ := by
  constructor
  · intro h
    cases h with
    | cons _ _ _ _ v m' _ _ hs hr =>
      obtain ⟨w, hw, he⟩ := (new_sem hj _ _ _).1 hs
      cases w with
      | none => simp at he
      | some w =>
        simp only [Option.map_some, Option.some.injEq, Prod.mk.injEq] at he
        obtain ⟨rfl, rfl⟩ := he
        exact ⟨v, hw, hr⟩
  · rintro ⟨v, hv, hr⟩
    exact .cons _ _ _ _ v m _ _ ((new_sem hj _ _ _).2 ⟨some v, hv, rfl⟩) hr

theorem new_fail_cons {k j : Nat} (hj : 0 < j ∧ j < 16) {t : Option Var} {args : List (Opd Val)} {is : List (Instr Val)}
    {ρ : Env Val} {m : M} {o : Outcome Val M} :
    ExecFail (after P tab) (⟨t, 16 * k + j, args⟩ :: is) ρ m o ↔
      (newStep (tab k) j (args.map (eval ρ)) = some none ∧ o = .fail (16 * k + j) (args.map (eval ρ)) m) ∨
      ∃ v, newStep (tab k) j (args.map (eval ρ)) = some (some v) ∧ ExecFail (after P tab) is (setOpt ρ t v) m o := by
  constructor
  · intro h
    cases h with
    | here _ _ _ _ hs =>
      obtain ⟨w, hw, he⟩ := (new_sem hj _ _ _).1 hs
      cases w with
      | none => exact .inl ⟨hw, rfl⟩
      | some w => simp at he
    | there _ _ _ _ v m' _ hs hr =>
      obtain ⟨w, hw, he⟩ := (new_sem hj _ _ _).1 hs
      cases w with
      | none => simp at he
      | some w =>
        simp only [Option.map_some, Option.some.injEq, Prod.mk.injEq] at he
        obtain ⟨rfl, rfl⟩ := he
        exact .inr ⟨v, hw, hr⟩
  · rintro (⟨h, rfl⟩ | ⟨v, hv, hr⟩)
    · exact .here (⟨t, 16 * k + j, args⟩ : Instr Val) _ _ _ ((new_sem hj _ _ _).2 ⟨none, h, rfl⟩)
    · exact .there _ _ _ _ v m _ ((new_sem hj _ _ _).2 ⟨some v, hv, rfl⟩) hr

theorem newVar_ne {base d : Nat} (i j : Nat) (h : i ≠ j) : newVar base d i ≠ newVar base d j := by
  intro e
  have e' : base + 16 * d + i = base + 16 * d + j := e
  omega

theorem set_self (ρ : Env Val) (x : Var) (v : Val) : setOpt ρ (some x) v x = v := by simp [setOpt]

theorem set_ne (ρ : Env Val) {x y : Var} (h : y ≠ x) (v : Val) : setOpt ρ (some x) v y = ρ y := by simp [setOpt, h]

/-- The seven instructions that compute the result and the flag. -/
def seven (k : Nat) (v : Nat → Var) (x y : Opd Val) : List (Instr Val) :=
  [⟨some (v 0), 16 * k + 1, [x]⟩, ⟨some (v 1), 16 * k + 1, [y]⟩, ⟨some (v 2), 16 * k + 2, [.var (v 0), .var (v 1)]⟩,
   ⟨some (v 3), 16 * k + 3, [.var (v 2)]⟩, ⟨some (v 4), 16 * k + 4, [.var (v 2)]⟩, ⟨some (v 5), 16 * k + 5, [.var (v 2)]⟩,
   ⟨some (v 6), 16 * k + 6, [.var (v 4), .var (v 5)]⟩]

/-- The double-width value. -/
theorem ext_value (bits : Nat) (s : Bool) (x : BitVec bits) :
    (if s then x.signExtend (bits * 2) else x.setWidth (bits * 2)) = BitVec.ofInt (bits * 2) (number s x) := by
  have h := extend_eval (w := bits) (fun _ w => x.setWidth w) s 0
  cases s
  · simp [number, BitVec.ofInt_natCast]
  · rfl

theorem arith_step (bits : Nat) (op : Overflow.Op) (s : Bool) (a b : Int) :
    newStep (.ovf op s bits) 2 [.word (bits * 2) (BitVec.ofInt (bits * 2) a), .word (bits * 2) (BitVec.ofInt (bits * 2) b)] =
      some (some (.word (bits * 2) (BitVec.ofInt (bits * 2) (op.apply a b)))) := by
  cases op
  · simp only [newStep, and_self, if_true, BitVec.setWidth_eq, Op.apply, BitVec.ofInt_add]
  · simp only [newStep, and_self, if_true, BitVec.setWidth_eq, Op.apply, ofInt_sub']
  · simp only [newStep, and_self, if_true, BitVec.setWidth_eq, Op.apply, BitVec.ofInt_mul]

theorem flag_value {bits : Nat} (hb : 1 ≤ bits) (op : Overflow.Op) (s : Bool) (x y : BitVec bits) :
    let z := BitVec.ofInt (bits * 2) (op.apply (number s x) (number s y))
    let max := BitVec.ofInt (bits * 2) (getMax bits s)
    let min := BitVec.ofInt (bits * 2) (getMin bits s)
    (BitVec.ofBool (if s then max.slt z else max.ult z) ||| BitVec.ofBool (if s then z.slt min else z.ult min)) =
      BitVec.ofBool (!decide (Fits bits s (op.apply (number s x) (number s y)))) := by
  intro z max min
  obtain ⟨b1, b2, b3, b4⟩ := bound_values hb
  have hor : ∀ a b : Bool, BitVec.ofBool a ||| BitVec.ofBool b = BitVec.ofBool (a || b) := by decide
  rw [hor]
  congr 1
  rw [Bool.eq_iff_iff]
  have hp := two_pow_pos bits
  cases s
  · obtain ⟨u1, u2⟩ : -(2:Int) ^ bits < op.apply (number false x) (number false y) ∧
        op.apply (number false x) (number false y) < 2 ^ (bits * 2) := unsigned_wide hb op x y
    have hu : (z.toNat : Int) = _ := ofInt_unsigned hb u1 u2
    have b3' : (max.toNat : Int) = 2 ^ bits - 1 := b3
    have b4' : (min.toNat : Int) = 0 := b4
    clear_value z max min
    generalize op.apply (number false x) (number false y) = v at *
    have hpd := pow_double (w := bits)
    have h3 : (2:Int) ≤ 2 ^ bits := by
      have := two_pow_split hb; have := two_pow_pos (bits - 1); omega
    have hsq : (2:Int) ^ bits * 2 ≤ 2 ^ bits * 2 ^ bits := Int.mul_le_mul_of_nonneg_left h3 (by omega)
    simp only [Bool.or_eq_true, BitVec.ult_iff_toNat_lt, Bool.not_eq_true', decide_eq_false_iff_not, Fits, Bool.false_eq_true, if_false]
    split at hu <;> omega
  · obtain ⟨s1, s2⟩ : -(2:Int) ^ (bits * 2 - 1) ≤ op.apply (number true x) (number true y) ∧
        op.apply (number true x) (number true y) < 2 ^ (bits * 2 - 1) := signed_wide hb op x y
    have hs : z.toInt = _ := toInt_ofInt_range (w := bits * 2) (by omega) s1 s2
    have b1' : max.toInt = 2 ^ (bits - 1) - 1 := b1
    have b2' : min.toInt = -(2 ^ (bits - 1)) := b2
    clear_value z max min
    generalize op.apply (number true x) (number true y) = v at *
    simp only [Bool.or_eq_true, BitVec.slt_iff_toInt_lt, Bool.not_eq_true', decide_eq_false_iff_not, Fits, if_true]
    omega

/-- The result in the original width. -/
theorem result_value {bits : Nat} (v : Int) : (BitVec.ofInt (bits * 2) v).setWidth bits = BitVec.ofInt bits v := by
  apply BitVec.eq_of_toNat_eq
  rw [BitVec.toNat_setWidth, BitVec.toNat_ofInt, BitVec.toNat_ofInt]
  have h0 : (0:Int) < ((2 ^ (bits * 2) : Nat) : Int) := by
    have := Nat.pow_pos (a := 2) (n := bits * 2) (by omega); omega
  have h0' : (0:Int) < ((2 ^ bits : Nat) : Int) := by
    have := Nat.pow_pos (a := 2) (n := bits) (by omega); omega
  apply Int.ofNat.inj
  show (((v % ((2 ^ (bits * 2) : Nat) : Int)).toNat % 2 ^ bits : Nat) : Int) = ((v % ((2 ^ bits : Nat) : Int)).toNat : Int)
  rw [Int.natCast_emod, Int.toNat_of_nonneg (Int.emod_nonneg _ (by omega)), Int.toNat_of_nonneg (Int.emod_nonneg _ (by omega))]
  exact Int.emod_emod_of_dvd _ (Int.natCast_dvd_natCast.2 (Nat.pow_dvd_pow 2 (by omega)))

/-- What the seven instructions do. -/
theorem seven_fwd {k bits : Nat} {op : Overflow.Op} {s : Bool} (hk : tab k = .ovf op s bits) (hb : 1 ≤ bits) {base d : Nat}
    {X Y : Opd Val} {ρ : Env Val} {x y : BitVec bits} (m : M) (hx : eval ρ X = .word bits x) (hy : eval ρ Y = .word bits y)
    (hY : Y ≠ .var (newVar base d 0)) :
    ∃ ρ', Exec (after P tab) (seven k (newVar base d) X Y) ρ m ρ' m ∧
      (∀ z, (∀ j, j < 8 → z ≠ newVar base d j) → ρ' z = ρ z) ∧
      ρ' (newVar base d 3) = .word bits (BitVec.ofInt bits (op.apply (number s x) (number s y))) ∧
      ρ' (newVar base d 6) = .word 1 (BitVec.ofBool (!decide (Fits bits s (op.apply (number s x) (number s y))))) := by
  have hne : ∀ i j, i ≠ j → newVar base d i ≠ newVar base d j := newVar_ne
  generalize hv : newVar base d = v at *
  let Z := op.apply (number s x) (number s y)
  let zw := BitVec.ofInt (bits * 2) Z
  let ρ0 := setOpt ρ (some (v 0)) (.word (bits * 2) (BitVec.ofInt (bits * 2) (number s x)))
  let ρ1 := setOpt ρ0 (some (v 1)) (.word (bits * 2) (BitVec.ofInt (bits * 2) (number s y)))
  let ρ2 := setOpt ρ1 (some (v 2)) (.word (bits * 2) zw)
  let ρ3 := setOpt ρ2 (some (v 3)) (.word bits (BitVec.ofInt bits Z))
  let gt := BitVec.ofBool (if s then (BitVec.ofInt (bits * 2) (getMax bits s)).slt zw else (BitVec.ofInt (bits * 2) (getMax bits s)).ult zw)
  let lt := BitVec.ofBool (if s then zw.slt (BitVec.ofInt (bits * 2) (getMin bits s)) else zw.ult (BitVec.ofInt (bits * 2) (getMin bits s)))
  let ρ4 := setOpt ρ3 (some (v 4)) (.word 1 gt)
  let ρ5 := setOpt ρ4 (some (v 5)) (.word 1 lt)
  let ρ6 := setOpt ρ5 (some (v 6)) (.word 1 (BitVec.ofBool (!decide (Fits bits s Z))))
  have e0 : ρ1 (v 0) = .word (bits * 2) (BitVec.ofInt (bits * 2) (number s x)) := by
    simp only [ρ1, ρ0]; rw [set_ne _ (hne _ _ (by omega)), set_self]
  have e1 : ρ1 (v 1) = .word (bits * 2) (BitVec.ofInt (bits * 2) (number s y)) := by simp only [ρ1]; rw [set_self]
  have e2 : ρ2 (v 2) = .word (bits * 2) zw := by simp only [ρ2]; rw [set_self]
  have e3 : ρ3 (v 2) = .word (bits * 2) zw := by simp only [ρ3]; rw [set_ne _ (hne _ _ (by omega)), e2]
  have e4 : ρ4 (v 2) = .word (bits * 2) zw := by simp only [ρ4]; rw [set_ne _ (hne _ _ (by omega)), e3]
  have e5 : ρ5 (v 4) = .word 1 gt := by
    simp only [ρ5, ρ4]; rw [set_ne _ (hne _ _ (by omega)), set_self]
  have e6 : ρ5 (v 5) = .word 1 lt := by simp only [ρ5]; rw [set_self]
  have ey : eval ρ0 Y = .word bits y := by
    cases Y with
    | const c => exact hy
    | var z =>
      show ρ0 z = _
      simp only [ρ0]
      rw [set_ne]
      · exact hy
      · intro e; exact hY (by rw [e])
  refine ⟨ρ6, ?_, ?_, ?_, ?_⟩
  · unfold seven
    refine (new_cons (by omega)).2 ⟨.word (bits * 2) (BitVec.ofInt (bits * 2) (number s x)), ?_, ?_⟩
    · simp only [List.map_cons, List.map_nil, hx, hk, newStep, if_true, ext_value]
    refine (new_cons (by omega)).2 ⟨.word (bits * 2) (BitVec.ofInt (bits * 2) (number s y)), ?_, ?_⟩
    · show newStep _ _ [eval ρ0 Y] = _
      simp only [ey, hk, newStep, if_true, ext_value]
    refine (new_cons (by omega)).2 ⟨.word (bits * 2) zw, ?_, ?_⟩
    · show newStep _ _ [ρ1 (v 0), ρ1 (v 1)] = _
      rw [e0, e1, hk]
      exact arith_step bits op s (number s x) (number s y)
    refine (new_cons (by omega)).2 ⟨.word bits (BitVec.ofInt bits Z), ?_, ?_⟩
    · show newStep _ _ [ρ2 (v 2)] = _
      simp only [e2, hk, newStep, if_true, zw, result_value]
    refine (new_cons (by omega)).2 ⟨.word 1 gt, ?_, ?_⟩
    · show newStep _ _ [ρ3 (v 2)] = _
      simp only [e3, hk, newStep, if_true, gt]
    refine (new_cons (by omega)).2 ⟨.word 1 lt, ?_, ?_⟩
    · show newStep _ _ [ρ4 (v 2)] = _
      simp only [e4, hk, newStep, if_true, lt]
    refine (new_cons (by omega)).2 ⟨.word 1 (BitVec.ofBool (!decide (Fits bits s Z))), ?_, .nil _ _⟩
    · show newStep _ _ [ρ5 (v 4), ρ5 (v 5)] = _
      have := flag_value hb op s x y
      simp only [e5, e6, hk, newStep, and_self, if_true, BitVec.setWidth_eq]
      simp only [gt, lt, zw, Z, ← this]
  · intro z hz
    simp only [ρ6, ρ5, ρ4, ρ3, ρ2, ρ1, ρ0]
    rw [set_ne _ (hz 6 (by omega)), set_ne _ (hz 5 (by omega)), set_ne _ (hz 4 (by omega)), set_ne _ (hz 3 (by omega)),
      set_ne _ (hz 2 (by omega)), set_ne _ (hz 1 (by omega)), set_ne _ (hz 0 (by omega))]
  · simp only [ρ6, ρ5, ρ4, ρ3]
    rw [set_ne _ (hne _ _ (by omega)), set_ne _ (hne _ _ (by omega)), set_ne _ (hne _ _ (by omega)), set_self]
  · simp only [ρ6]; rw [set_self]

theorem new_det {is : List (Instr Val)} (h : ∀ i ∈ is, i.op % 16 ≠ 0) {ρ ρ₁ ρ₂ : Env Val} {m m₁ m₂ : M}
    (h1 : Exec (after P tab) is ρ m ρ₁ m₁) (h2 : Exec (after P tab) is ρ m ρ₂ m₂) : ρ₁ = ρ₂ ∧ m₁ = m₂ := by
  induction is generalizing ρ m with
  | nil => cases h1; cases h2; exact ⟨rfl, rfl⟩
  | cons i is ih =>
    have hi := h i (List.mem_cons_self ..)
    obtain ⟨t, n, args⟩ := i
    simp only at hi
    have e : n = 16 * (n / 16) + n % 16 := by omega
    rw [e] at h1 h2
    obtain ⟨v, hv, h1⟩ := (new_cons (by omega)).1 h1
    obtain ⟨v', hv', h2⟩ := (new_cons (by omega)).1 h2
    rw [hv] at hv'
    cases hv'
    exact ih (fun j hj => h j (List.mem_cons_of_mem _ hj)) h1 h2

theorem step_not_fail {t : Op} {j : Nat} {args : List Val} (h : newStep t j args = some none) : j = 8 := by
  unfold newStep at h
  split at h <;> first | rfl | (split at h <;> simp at h <;> done) | (simp at h; done) | skip

theorem new_no_fail {is : List (Instr Val)} (h : ∀ i ∈ is, i.op % 16 ≠ 0 ∧ i.op % 16 ≠ 8) {ρ : Env Val} {m : M} {o : Outcome Val M} :
    ¬ ExecFail (after P tab) is ρ m o := by
  induction is generalizing ρ m with
  | nil => intro h; cases h
  | cons i is ih =>
    intro hf
    have hi := h i (List.mem_cons_self ..)
    obtain ⟨t, n, args⟩ := i
    simp only at hi
    have e : n = 16 * (n / 16) + n % 16 := by omega
    rw [e] at hf
    rcases (new_fail_cons (by omega)).1 hf with ⟨h1, _⟩ | ⟨v, _, h2⟩
    · exact hi.2 (step_not_fail h1)
    · exact ih (fun j hj => h j (List.mem_cons_of_mem _ hj)) h2

theorem seven_ops {k : Nat} {v : Nat → Var} {X Y : Opd Val} : ∀ i ∈ seven k v X Y, i.op % 16 ≠ 0 ∧ i.op % 16 ≠ 8 := by
  intro i hi
  simp only [seven, List.mem_cons, List.not_mem_nil, or_false] at hi
  rcases hi with rfl | rfl | rfl | rfl | rfl | rfl | rfl <;> simp only <;> omega

theorem ext_inv {t : Op} {a : Val} {v : Val} {op : Overflow.Op} {s : Bool} {bits : Nat} (ht : t = .ovf op s bits)
    (h : newStep t 1 [a] = some (some v)) : ∃ x : BitVec bits, a = .word bits x := by
  subst ht
  cases a with
  | word w x =>
    simp only [newStep] at h
    split at h
    · rename_i e; subst e; exact ⟨x, rfl⟩
    · simp at h
  | pair w x f => simp [newStep] at h
  | other n => simp [newStep] at h

/-- The seven instructions are executed only with operands of the right width. -/
theorem seven_bwd {k bits : Nat} {op : Overflow.Op} {s : Bool} (hk : tab k = .ovf op s bits) {base d : Nat}
    {X Y : Opd Val} {ρ ρ' : Env Val} {m m' : M} (hY : Y ≠ .var (newVar base d 0))
    (h : Exec (after P tab) (seven k (newVar base d) X Y) ρ m ρ' m') :
    ∃ x y : BitVec bits, eval ρ X = .word bits x ∧ eval ρ Y = .word bits y := by
  unfold seven at h
  obtain ⟨v0, h0, h⟩ := (new_cons (by omega)).1 h
  obtain ⟨v1, h1, h⟩ := (new_cons (by omega)).1 h
  obtain ⟨x, hx⟩ := ext_inv hk h0
  obtain ⟨y, hy⟩ := ext_inv hk h1
  refine ⟨x, y, hx, ?_⟩
  rw [← hy]
  cases Y with
  | const c => rfl
  | var z =>
    simp only [eval]
    rw [set_ne]
    intro e; exact hY (by rw [e])

end Smack.OvfPass
