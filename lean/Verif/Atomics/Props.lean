/-
C58: translated `atomicrmw` and `cmpxchg` return the old value and store the new one prescribed by the operation.
-/
import Verif.Atomics.Spec
import Verif.IntOps.Lemmas
import Verif.Bytes.Props

namespace Smack.Atomics

open Smack.IntOps (Smt Enc Logic)

/-! ### The three kinds of regions -/

theorem map_lawful {A V : Type} [DecidableEq A] (p : A) : Lawful (mapRegion A V) p := by
  constructor
  · intro m v; simp [mapRegion]
  · intro m v q h; simp only [mapRegion] at *; rw [if_neg h]

theorem singleton_lawful {A V : Type} (p : A) : Lawful (singleton A V) p :=
  ⟨fun _ _ => rfl, fun _ _ _ h => h.elim⟩

theorem loadBody_congr {P : Bytes.PtrRep} (m m' : Bytes.Mem P) (q : P.Ref) (n : Nat)
    (h : ∀ j < n, m (Bytes.addr q j) = m' (Bytes.addr q j)) : Bytes.loadBody m q n = Bytes.loadBody m' q n := by
  induction n with
  | zero => rfl
  | succ n ih =>
    simp only [Bytes.loadBody]
    rw [h n (by omega), ih fun j hj => h j (by omega)]

/-- **C58, memory.** Bytewise regions: for all widths below 8 or divisible by 8. -/
theorem c58_bytes_lawful {P : Bytes.PtrRep} {size : Nat} (p : P.Ref) (hsz : size < 8 ∨ size % 8 = 0)
    (hs : Bytes.Spread p (Bytes.bytes size)) : Lawful (byteRegion P size) p := by
  constructor
  · intro m v
    show (Bytes.load size (Bytes.store m p v) p).2.setWidth size = v
    rw [congrArg (fun z : (w : Nat) × BitVec w => z.2.setWidth size) (Bytes.c08_round_trip_partial m p v hsz hs)]
    simp
  · intro m v q h
    have e : ∀ j < Bytes.bytes size, Bytes.store m p v (Bytes.addr q j) = m (Bytes.addr q j) :=
      fun j hj => Bytes.c08_frame m p _ v fun i hi => h i hi j hj
    show (Bytes.load size (Bytes.store m p v) q).2.setWidth size = (Bytes.load size m q).2.setWidth size
    have : Bytes.load size (Bytes.store m p v) q = Bytes.load size m q := by
      unfold Bytes.load
      unfold Bytes.bytes at e
      by_cases h8 : size < 8
      · rw [if_pos h8] at e
        rw [if_pos h8, if_pos h8, e 0 (by omega)]
      · rw [if_neg h8] at e
        rw [if_neg h8, if_neg h8, loadBody_congr _ m q (size >>> 3)]
        intro j hj
        rw [Nat.shiftRight_eq_div_pow] at hj
        exact e j hj
    rw [this]

/-! ### Effect of the two statements -/

theorem exec_two {M A V : Type} [DecidableEq V] (R : Region M A V) (fn : Fn → V → V → V) (s : State M V) (res : Nat)
    (p : (Nat → V) → A) (e : Ex A V) (hp : Indep res p) (hl : Lawful R (p s.regs)) :
    Effect R s (exec R fn s [.assign res (.load p), .store p e]) res (p s.regs)
      (e.eval R fn ⟨upd s.regs res (R.ld s.mem (p s.regs)), s.mem⟩) := by
  simp only [exec, List.foldl, step, Ex.eval]
  rw [hp]
  exact ⟨by simp [upd], fun r hr => by simp [upd, hr], hl.same _ _, fun q hq => hl.other _ _ q hq⟩

/-- The value stored by `atomicrmw`. -/
theorem rmw_effect {M A V : Type} [DecidableEq V] (R : Region M A V) (fn : Fn → V → V → V) (s : State M V) (op : Op)
    (res : Nat) (p : (Nat → V) → A) (val : (Nat → V) → V) (hp : Indep res p) (hv : Indep res val)
    (hl : Lawful R (p s.regs)) (hop : op.isInt) :
    ∃ l, rmw op res p val = some l ∧ Effect R s (exec R fn s l) res (p s.regs)
      (match table op with
        | some f => fn f (R.ld s.mem (p s.regs)) (val s.regs)
        | none => val s.regs) := by
  have key : ∀ f, Effect R s (exec R fn s [.assign res (.load p), .store p (.app f (.load p) (.opd val))]) res (p s.regs)
      (fn f (R.ld s.mem (p s.regs)) (val s.regs)) := by
    intro f
    have := exec_two R fn s res p (.app f (.load p) (.opd val)) hp hl
    simp only [Ex.eval] at this
    rw [hp, hv] at this
    exact this
  cases op
  case xchg =>
    refine ⟨_, rfl, ?_⟩
    have := exec_two R fn s res p (.opd val) hp hl
    simp only [Ex.eval] at this
    rw [hv] at this
    exact this
  case fadd => exact hop.elim
  case fsub => exact hop.elim
  all_goals exact ⟨_, rfl, key _⟩

theorem bvMinMax_spec {w : Nat} (x y : BitVec w) :
    Op.Spec .max x y (bvMinMax true false x y) ∧ Op.Spec .min x y (bvMinMax true true x y) ∧
    Op.Spec .umax x y (bvMinMax false false x y) ∧ Op.Spec .umin x y (bvMinMax false true x y) := by
  simp only [Op.Spec, bvMinMax, BitVec.slt_eq_decide, BitVec.ult_eq_decide, decide_eq_true_eq]
  refine ⟨?_, ?_, ?_, ?_⟩ <;> split <;> simp <;> omega

theorem bvFn_spec {w : Nat} (op : Op) (f : Fn) (h : table op = some f) (x y : BitVec w) : op.Spec x y (bvFn w f x y) := by
  have hm := bvMinMax_spec x y
  cases op <;> simp only [table, Option.some.injEq, reduceCtorEq] at h <;> subst h
  case add => simp only [Op.Spec, bvFn]; rw [BitVec.ofInt_add]; simp
  case sub => simp only [Op.Spec, bvFn]; rw [Int.sub_eq_add_neg, BitVec.ofInt_add, BitVec.ofInt_neg]; simp [BitVec.sub_eq_add_neg]
  case max => exact hm.1
  case min => exact hm.2.1
  case umax => exact hm.2.2.1
  case umin => exact hm.2.2.2
  all_goals (intro i hi; simp [bvFn, hi])

/-- **C58, atomicrmw with bit-vectors.** Every integer operation returns the old value, stores the value prescribed by LLVM,
and changes nothing else. -/
theorem c58_rmw_bv {M A : Type} {w : Nat} (R : Region M A (BitVec w)) (s : State M (BitVec w)) (op : Op) (res : Nat)
    (p : (Nat → BitVec w) → A) (val : (Nat → BitVec w) → BitVec w) (hp : Indep res p) (hv : Indep res val)
    (hl : Lawful R (p s.regs)) (hop : op.isInt) :
    ∃ l new, rmw op res p val = some l ∧ Effect R s (exec R (bvFn w) s l) res (p s.regs) new ∧
      op.Spec (R.ld s.mem (p s.regs)) (val s.regs) new := by
  obtain ⟨l, h1, h2⟩ := rmw_effect R (bvFn w) s op res p val hp hv hl hop
  refine ⟨l, _, h1, h2, ?_⟩
  cases ht : table op with
  | some f => exact bvFn_spec op f ht _ _
  | none =>
    cases op <;> simp only [table, reduceCtorEq] at ht
    · rfl
    · exact hop.elim
    · exact hop.elim

theorem ofInt_toInt_add {w : Nat} (a b : Int) :
    BitVec.ofInt w (a + b) = BitVec.ofInt w ((BitVec.ofInt w a).toInt + (BitVec.ofInt w b).toInt) := by
  rw [BitVec.ofInt_add, BitVec.ofInt_add, BitVec.ofInt_toInt, BitVec.ofInt_toInt]

theorem ofInt_toInt_sub {w : Nat} (a b : Int) :
    BitVec.ofInt w (a - b) = BitVec.ofInt w ((BitVec.ofInt w a).toInt - (BitVec.ofInt w b).toInt) := by
  rw [Int.sub_eq_add_neg, Int.sub_eq_add_neg, BitVec.ofInt_add, BitVec.ofInt_add, BitVec.ofInt_neg, BitVec.ofInt_neg,
    BitVec.ofInt_toInt, BitVec.ofInt_toInt]

theorem toInt_id {w : Nat} {a : Int} (hw : 1 ≤ w) (h : -(2:Int)^(w-1) ≤ a ∧ a < 2^(w-1)) :
    (BitVec.ofInt w a).toInt = a := IntOps.toInt_ofInt_range hw h.1 h.2

theorem toNat_id {w : Nat} {a : Int} (h : 0 ≤ a ∧ a < 2^w) : ((BitVec.ofInt w a).toNat : Int) = a :=
  IntOps.toNat_ofInt_lt h.1 h.2

theorem minMax_spec (S : Smt) {w : Nat} (hw : 1 ≤ w) (a b : Int) :
    Op.Spec .max (BitVec.ofInt w a) (BitVec.ofInt w b) (BitVec.ofInt w (IntOps.minMax S .wrapped false true w a b)) ∧
    Op.Spec .min (BitVec.ofInt w a) (BitVec.ofInt w b) (BitVec.ofInt w (IntOps.minMax S .wrapped true true w a b)) ∧
    Op.Spec .umax (BitVec.ofInt w a) (BitVec.ofInt w b) (BitVec.ofInt w (IntOps.minMax S .wrapped false false w a b)) ∧
    Op.Spec .umin (BitVec.ofInt w a) (BitVec.ofInt w b) (BitVec.ofInt w (IntOps.minMax S .wrapped true false w a b)) := by
  simp only [Op.Spec, IntOps.minMax, IntOps.predBool_eq S _ hw, IntOps.icmp, decide_eq_true_eq]
  refine ⟨?_, ?_, ?_, ?_⟩ <;> split <;> simp only [true_or, or_true, true_and] <;> omega

theorem minMax_unb_spec (S : Smt) {w : Nat} (hw : 1 ≤ w) (a b : Int) :
    (Op.InRange w a b .max →
      Op.Spec .max (BitVec.ofInt w a) (BitVec.ofInt w b) (BitVec.ofInt w (IntOps.minMax S .unbounded false true w a b)) ∧
      Op.Spec .min (BitVec.ofInt w a) (BitVec.ofInt w b) (BitVec.ofInt w (IntOps.minMax S .unbounded true true w a b))) ∧
    (Op.InRange w a b .umax →
      Op.Spec .umax (BitVec.ofInt w a) (BitVec.ofInt w b) (BitVec.ofInt w (IntOps.minMax S .unbounded false false w a b)) ∧
      Op.Spec .umin (BitVec.ofInt w a) (BitVec.ofInt w b) (BitVec.ofInt w (IntOps.minMax S .unbounded true false w a b))) := by
  simp only [IntOps.minMax_unbounded, Op.Spec]
  refine ⟨fun h => ?_, fun h => ?_⟩
  · have ha := toInt_id hw h.1
    have hb := toInt_id hw h.2
    rcases Int.le_total a b with hab | hab
    · simp only [Int.min_eq_left hab, Int.max_eq_right hab, Bool.false_eq_true, if_false, if_true, true_or, or_true, true_and]; omega
    · simp only [Int.min_eq_right hab, Int.max_eq_left hab, Bool.false_eq_true, if_false, if_true, true_or, or_true, true_and]; omega
  · have ha := toNat_id h.1
    have hb := toNat_id h.2
    rcases Int.le_total a b with hab | hab
    · simp only [Int.min_eq_left hab, Int.max_eq_right hab, Bool.false_eq_true, if_false, if_true, true_or, or_true, true_and]; omega
    · simp only [Int.min_eq_right hab, Int.max_eq_left hab, Bool.false_eq_true, if_false, if_true, true_or, or_true, true_and]; omega

/-- **C58, atomicrmw with integers** (partial: not the bitwise operations, see `c58_rmw_bitwise_fails`; in unbounded mode
minima and maxima of values in the range of the comparison). Old value returned, the stored integer represents the word
LLVM prescribes, nothing else changes. In wrapped mode for all representatives. -/
theorem c58_rmw_int_partial {M A : Type} (S : Smt) (enc : Enc) {w : Nat} (hw : 1 ≤ w) (U : UInterp w) (R : Region M A Int)
    (s : State M Int) (op : Op) (res : Nat) (p : (Nat → Int) → A) (val : (Nat → Int) → Int) (hp : Indep res p)
    (hv : Indep res val) (hl : Lawful R (p s.regs)) (hop : op.isInt) (hb : ¬op.bitwise)
    (hr : enc = .unbounded → op.InRange w (R.ld s.mem (p s.regs)) (val s.regs)) :
    ∃ l new, rmw op res p val = some l ∧ Effect R s (exec R (intFn S enc w U) s l) res (p s.regs) new ∧
      op.Spec (BitVec.ofInt w (R.ld s.mem (p s.regs))) (BitVec.ofInt w (val s.regs)) (BitVec.ofInt w new) := by
  obtain ⟨l, h1, h2⟩ := rmw_effect R (intFn S enc w U) s op res p val hp hv hl hop
  refine ⟨l, _, h1, h2, ?_⟩
  generalize R.ld s.mem (p s.regs) = a at *
  generalize val s.regs = b at *
  have hw' := minMax_spec S hw a b
  have hu' := minMax_unb_spec S hw a b
  cases op
  case xchg => rfl
  case add => exact ofInt_toInt_add a b
  case sub => exact ofInt_toInt_sub a b
  case max => exact match enc, hr with | .unbounded, hr => (hu'.1 (hr rfl)).1 | .wrapped, _ => hw'.1
  case min => exact match enc, hr with | .unbounded, hr => (hu'.1 (hr rfl)).2 | .wrapped, _ => hw'.2.1
  case umax => exact match enc, hr with | .unbounded, hr => (hu'.2 (hr rfl)).1 | .wrapped, _ => hw'.2.2.1
  case umin => exact match enc, hr with | .unbounded, hr => (hu'.2 (hr rfl)).2 | .wrapped, _ => hw'.2.2.2
  case fadd => exact hop.elim
  case fsub => exact hop.elim
  all_goals exact (hb trivial).elim

/-- In unbounded mode an unsigned maximum of a negative integer picks the smaller word: the range condition is needed. -/
theorem c58_rmw_unbounded_umax_fails (S : Smt) (w : Nat) (hw : 2 ≤ w) (U : UInterp w) :
    ∃ l, rmw (A := Unit) .umax 0 (fun _ => ()) (fun _ => (1 : Int)) = some l ∧
      ∀ s : State Int Int, s.mem = -1 →
        ¬Op.Spec .umax (BitVec.ofInt w (-1)) (BitVec.ofInt w 1)
          (BitVec.ofInt w (exec (singleton Unit Int) (intFn S .unbounded w U) s l).mem) := by
  refine ⟨_, rfl, fun s hs h => ?_⟩
  have e : (exec (singleton Unit Int) (intFn S .unbounded w U) s
      [.assign 0 (.load fun _ => ()), .store (fun _ => ()) (.app .umax (.load fun _ => ()) (.opd fun _ => 1))]).mem = 1 := by
    simp only [exec, List.foldl, step, Ex.eval, singleton, intFn, IntOps.minMax_unbounded, hs]
    decide
  rw [e] at h
  have h2 := h.2.1
  have h1 : (BitVec.ofInt w 1).toNat = 1 := by
    have := IntOps.toNat_ofInt_lt (w := w) (i := 1) (by decide) (by
      have := Nat.one_lt_two_pow (n := w) (by omega)
      exact_mod_cast this)
    omega
  have h3 : (BitVec.ofInt w (-1)).toNat = 2 ^ w - 1 := by
    have h4 := Nat.one_lt_two_pow (n := w) (by omega)
    rw [BitVec.ofInt_neg, BitVec.toNat_neg, h1, Nat.mod_eq_of_lt (by omega)]
  have := Nat.pow_le_pow_right (n := 2) (by decide) hw
  omega

/-- Bitwise operations at width one are correct on truth values. -/
theorem c58_rmw_bool_partial {M A : Type} (S : Smt) (enc : Enc) (U : UInterp 1) (R : Region M A Int)
    (s : State M Int) (op : Op) (res : Nat) (p : (Nat → Int) → A) (val : (Nat → Int) → Int) (hp : Indep res p)
    (hv : Indep res val) (hl : Lawful R (p s.regs)) (hb : op.bitwise) (hn : op ≠ .nand) (x y : Bool)
    (hx : R.ld s.mem (p s.regs) = x.toInt) (hy : val s.regs = y.toInt) :
    ∃ l new, rmw op res p val = some l ∧ Effect R s (exec R (intFn S enc 1 U) s l) res (p s.regs) new ∧
      op.Spec (BitVec.ofBool x) (BitVec.ofBool y) (BitVec.ofInt 1 new) := by
  have hop : op.isInt := by cases op <;> first | trivial | exact hb.elim
  obtain ⟨l, h1, h2⟩ := rmw_effect R (intFn S enc 1 U) s op res p val hp hv hl hop
  refine ⟨l, _, h1, h2, ?_⟩
  rw [hx, hy]
  cases op <;> first | exact hb.elim | exact (hn rfl).elim | skip
  all_goals
    simp only [table, intFn, U.ax1 rfl]
    intro i hi
    have : i = 0 := by omega
    subst this
    cases x <;> cases y <;> rfl

theorem succ_ne {w : Nat} (hw : 1 ≤ w) (z : BitVec w) : BitVec.ofInt w (z.toInt + 1) ≠ z := by
  rw [BitVec.ofInt_add, BitVec.ofInt_toInt]
  intro h
  have h1 : z + BitVec.ofInt w 1 = z + 0#w := by rw [h]; simp
  have h2 := (BitVec.add_right_inj _).mp h1
  have h3 := IntOps.toNat_ofInt_lt (w := w) (i := 1) (by decide) (by
    have := Nat.one_lt_two_pow (n := w) (by omega)
    exact_mod_cast this)
  rw [h2] at h3
  simp at h3

theorem bitwise_unique {w : Nat} {op : Op} (hb : op.bitwise) {x y z z' : BitVec w} (h : op.Spec x y z)
    (h' : op.Spec x y z') : z = z' := by
  cases op <;> first | exact hb.elim | skip
  all_goals
    apply BitVec.eq_of_getLsbD_eq
    intro i hi
    rw [h i hi, h' i hi]

/-- **C58 fails for the bitwise operations with integers**, for every memory and operands: `$and`, `$or`, `$xor`, `$nand` are
uninterpreted, and some interpretation that meets the emitted axioms stores a wrong word. (Exceptions: truth values at
width one unless nand; `32 & 16` at width 32.) -/
theorem c58_rmw_bitwise_fails {M A : Type} (S : Smt) (enc : Enc) {w : Nat} (hw : 1 ≤ w) (R : Region M A Int)
    (s : State M Int) (op : Op) (res : Nat) (p : (Nat → Int) → A) (val : (Nat → Int) → Int) (hp : Indep res p)
    (hv : Indep res val) (hl : Lawful R (p s.regs)) (hb : op.bitwise) (h1 : w = 1 → op = .nand)
    (h32 : ¬(w = 32 ∧ op = .and ∧ R.ld s.mem (p s.regs) = 32 ∧ val s.regs = 16)) :
    ∃ (U : UInterp w) (l : List (Stmt A Int)) (new : Int), rmw op res p val = some l ∧
      Effect R s (exec R (intFn S enc w U) s l) res (p s.regs) new ∧
      ¬op.Spec (BitVec.ofInt w (R.ld s.mem (p s.regs))) (BitVec.ofInt w (val s.regs)) (BitVec.ofInt w new) := by
  have hop : op.isInt := by cases op <;> first | trivial | exact hb.elim
  obtain ⟨f, hf⟩ : ∃ f, table op = some f := by cases op <;> first | exact ⟨_, rfl⟩ | exact hb.elim
  have good := bvFn_spec op f hf (BitVec.ofInt w (R.ld s.mem (p s.regs))) (BitVec.ofInt w (val s.regs))
  generalize hz : bvFn w f (BitVec.ofInt w (R.ld s.mem (p s.regs))) (BitVec.ofInt w (val s.regs)) = z at good
  let U : UInterp w :=
    { logic := fun o a b => if w = 1 then Smt.std.logic1 o a b else
        if o = .and ∧ w = 32 ∧ a = 32 ∧ b = 16 then 0 else z.toInt + 1
      nand := fun _ _ => z.toInt + 1
      ax1 := by intro h o i j; rw [if_pos h]; exact Smt.std.logic1_ax o i j
      ax32 := by intro h; rw [if_neg (by omega), if_pos ⟨rfl, h, rfl, rfl⟩] }
  obtain ⟨l, e1, e2⟩ := rmw_effect R (intFn S enc w U) s op res p val hp hv hl hop
  rw [hf] at e2
  refine ⟨U, l, _, e1, e2, fun hs => ?_⟩
  have hsame := bitwise_unique hb hs good
  have hU : intFn S enc w U f (R.ld s.mem (p s.regs)) (val s.regs) = z.toInt + 1 := by
    cases op <;> simp only [table, Option.some.injEq, reduceCtorEq] at hf <;> subst hf <;>
      first | exact hb.elim | skip
    case nand => rfl
    case and =>
      have hw1 : w ≠ 1 := fun h => by cases h1 h
      show (if w = 1 then _ else if _ then _ else _) = _
      rw [if_neg hw1, if_neg (fun h => h32 ⟨h.2.1, rfl, h.2.2⟩)]
    all_goals
      have hw1 : w ≠ 1 := fun h => by cases h1 h
      show (if w = 1 then _ else if _ then _ else _) = _
      rw [if_neg hw1, if_neg (fun h => by cases h.1)]
  exact succ_ne hw z ((congrArg (BitVec.ofInt w) hU).symm.trans hsame)

/-- **C58 fails for floating-point atomics**: the table has no entry for them. -/
theorem c58_rmw_float_fails {A V : Type} (op : Op) (h : ¬op.isInt) (res : Nat) (p : (Nat → V) → A) (val : (Nat → V) → V) :
    rmw op res p val = none := by
  cases op <;> first | rfl | exact (h trivial).elim

/-- The hypotheses are met by each kind of region: a wrapped 8-bit maximum of unnormalised integers in a map. -/
example (S : Smt) (U : UInterp 8) : ∃ l, rmw .max 1 (fun ρ : Nat → Int => ρ 0) (fun _ => 300) = some l ∧
    (exec (mapRegion Int Int) (intFn S .wrapped 8 U) ⟨fun _ => 5, fun _ => 200⟩ l).regs 1 = 200 := by
  obtain ⟨l, new, h1, h2, _⟩ := c58_rmw_int_partial S .wrapped (w := 8) (by decide) U (mapRegion Int Int)
    ⟨fun _ => 5, fun _ => 200⟩ .max 1 (fun ρ => ρ 0) (fun _ => 300) (fun _ _ => rfl) (fun _ _ => rfl) (map_lawful _)
    trivial nofun nofun
  exact ⟨l, h1, h2.result⟩

example : Lawful (byteRegion (Bytes.bvPtr 64) 32) (-2#64) :=
  c58_bytes_lawful _ (by decide) (Bytes.c08_spread_bv _ _ (by decide))

/-! ### cmpxchg -/

/-- **C58, cmpxchg.** The result variable holds the old value; memory holds the new value if the old value equals the
compared one as a Boogie value, and is unchanged otherwise. -/
theorem cmpxchg_effect {M A V : Type} [DecidableEq V] (R : Region M A V) (fn : Fn → V → V → V) (s : State M V) (res : Nat)
    (p : (Nat → V) → A) (cmp swp : (Nat → V) → V) (hp : Indep res p) (hc : Indep res cmp) (hs : Indep res swp)
    (hl : Lawful R (p s.regs)) :
    Effect R s (exec R fn s (cmpxchg res p cmp swp)) res (p s.regs)
      (if R.ld s.mem (p s.regs) = cmp s.regs then swp s.regs else R.ld s.mem (p s.regs)) := by
  have := exec_two R fn s res p (.iteEq (.load p) (.opd cmp) (.opd swp) (.load p)) hp hl
  simp only [Ex.eval, hp s.regs, hc s.regs, hs s.regs] at this
  exact this

/-- **C58, cmpxchg with bit-vectors**, memory part: exactly LLVM's compare and exchange. The results `{ old, success }`
are not available to the program: `c58_cmpxchg_result_fails`. -/
theorem c58_cmpxchg_bv_partial {M A : Type} {w : Nat} (R : Region M A (BitVec w)) (s : State M (BitVec w)) (res : Nat)
    (p : (Nat → BitVec w) → A) (cmp swp : (Nat → BitVec w) → BitVec w) (hp : Indep res p) (hc : Indep res cmp)
    (hs : Indep res swp) (hl : Lawful R (p s.regs)) :
    Effect R s (exec R (bvFn w) s (cmpxchg res p cmp swp)) res (p s.regs)
      (cmpxchgNew (R.ld s.mem (p s.regs)) (cmp s.regs) (swp s.regs)) :=
  cmpxchg_effect R (bvFn w) s res p cmp swp hp hc hs hl

/-- Two integers that are both in the signed or both in the unsigned range of the width. -/
def SameRange (w : Nat) (a b : Int) : Prop :=
  (-(2:Int)^(w-1) ≤ a ∧ a < 2^(w-1) ∧ -(2:Int)^(w-1) ≤ b ∧ b < 2^(w-1)) ∨ (0 ≤ a ∧ a < 2^w ∧ 0 ≤ b ∧ b < 2^w)

/-- **C58, cmpxchg with integers** (partial: old and compared value in a common range of the width; without it the
comparison of representatives is wrong, `c58_cmpxchg_representatives_fails`). -/
theorem c58_cmpxchg_int_partial {M A : Type} (S : Smt) (enc : Enc) {w : Nat} (hw : 1 ≤ w) (U : UInterp w)
    (R : Region M A Int) (s : State M Int) (res : Nat) (p : (Nat → Int) → A) (cmp swp : (Nat → Int) → Int)
    (hp : Indep res p) (hc : Indep res cmp) (hs : Indep res swp) (hl : Lawful R (p s.regs))
    (hr : SameRange w (R.ld s.mem (p s.regs)) (cmp s.regs)) :
    ∃ new, Effect R s (exec R (intFn S enc w U) s (cmpxchg res p cmp swp)) res (p s.regs) new ∧
      BitVec.ofInt w new =
        cmpxchgNew (BitVec.ofInt w (R.ld s.mem (p s.regs))) (BitVec.ofInt w (cmp s.regs)) (BitVec.ofInt w (swp s.regs)) := by
  refine ⟨_, cmpxchg_effect R (intFn S enc w U) s res p cmp swp hp hc hs hl, ?_⟩
  generalize R.ld s.mem (p s.regs) = a at *
  generalize cmp s.regs = b at *
  unfold cmpxchgNew
  have : (BitVec.ofInt w a = BitVec.ofInt w b) ↔ a = b := by
    refine ⟨fun h => ?_, fun h => by rw [h]⟩
    rcases hr with ⟨h1, h2, h3, h4⟩ | ⟨h1, h2, h3, h4⟩
    · rw [← IntOps.toInt_ofInt_range hw h1 h2, h, IntOps.toInt_ofInt_range hw h3 h4]
    · rw [← IntOps.toNat_ofInt_lt h1 h2, h, IntOps.toNat_ofInt_lt h3 h4]
  by_cases h : a = b
  · rw [if_pos h, if_pos (this.mpr h)]
  · rw [if_neg h, if_neg (fun e => h (this.mp e))]

example : SameRange 32 (-5) 7 ∧ SameRange 8 255 200 := by unfold SameRange; decide

/-- **C58 fails for cmpxchg with wrapped integers**: `==` compares representatives. A counter that holds the largest word
is incremented atomically (it becomes `2^w`, which represents 0); a `cmpxchg` of 0 against 1 then succeeds in LLVM but
leaves the word 0 in SMACK, for every width. -/
theorem c58_cmpxchg_representatives_fails (S : Smt) (enc : Enc) {w : Nat} (hw : 1 ≤ w) (U : UInterp w) (s : State Int Int)
    (hm : s.mem = 2 ^ w - 1) :
    ∃ l, rmw .add 0 (fun _ => ()) (fun _ => (1 : Int)) = some l ∧
      let s1 := exec (singleton Unit Int) (intFn S enc w U) s l
      let s2 := exec (singleton Unit Int) (intFn S enc w U) s1 (cmpxchg 1 (fun _ => ()) (fun _ => 0) (fun _ => 1))
      BitVec.ofInt w s1.mem = BitVec.ofInt w 0 ∧ BitVec.ofInt w s2.mem = 0#w ∧
      cmpxchgNew (BitVec.ofInt w s1.mem) (BitVec.ofInt w 0) (BitVec.ofInt w 1) ≠ BitVec.ofInt w s2.mem := by
  have hz : BitVec.ofInt w ((2:Int)^w) = 0#w := by
    apply BitVec.eq_of_toInt_eq
    rw [BitVec.toInt_ofInt]
    have : ((2:Int)^w) = ((2^w : Nat) : Int) := by push_cast; rfl
    rw [this, Int.bmod_self]
    simp
  have hpos : (2:Int)^w ≠ 0 := by have := IntOps.two_pow_pos w; omega
  have hone : BitVec.ofInt w 1 ≠ 0#w := by
    have h3 := IntOps.toNat_ofInt_lt (w := w) (i := 1) (by decide) (by
      have := Nat.one_lt_two_pow (n := w) (by omega)
      exact_mod_cast this)
    intro h
    rw [h] at h3
    simp at h3
  refine ⟨_, rfl, ?_⟩
  have e1 : (exec (singleton Unit Int) (intFn S enc w U) s
      [.assign 0 (.load fun _ => ()), .store (fun _ => ()) (.app .add (.load fun _ => ()) (.opd fun _ => 1))]).mem = 2 ^ w := by
    simp only [exec, List.foldl, step, Ex.eval, singleton, intFn, IntOps.iadd, hm]
    omega
  generalize exec (singleton Unit Int) (intFn S enc w U) s _ = s1 at e1
  have e2 : (exec (singleton Unit Int) (intFn S enc w U) s1 (cmpxchg 1 (fun _ => ()) (fun _ => 0) (fun _ => 1))).mem = 2 ^ w := by
    simp only [exec, cmpxchg, List.foldl, step, Ex.eval, singleton, e1]
    rw [if_neg hpos]
  simp only [e1, e2, hz]
  refine ⟨by simp, trivial, ?_⟩
  simpa [cmpxchgNew] using hone

/-- **C58 fails for the results of cmpxchg.** The program reads them with `extractvalue`, but the aggregate is represented by
the old value itself and `$extractvalue` is uninterpreted: any two values `x`, `y` may come out. -/
theorem c58_cmpxchg_result_fails {M A V : Type} [DecidableEq V] (R : Region M A V) (fn : Fn → V → V → V) (s : State M V)
    (res : Nat) (p : (Nat → V) → A) (cmp swp : (Nat → V) → V) (hp : Indep res p) (hc : Indep res cmp) (hs : Indep res swp)
    (hl : Lawful R (p s.regs)) (n i1 : String) (k : Nat) (x y : V) :
    (exec R fn s (cmpxchg res p cmp swp)).regs res = R.ld s.mem (p s.regs) ∧
    ∃ ext : String → V → Nat → V,
      extracted ext (pairTy n k i1) 0 ((exec R fn s (cmpxchg res p cmp swp)).regs res) = x ∧
      extracted ext (pairTy n k i1) 1 ((exec R fn s (cmpxchg res p cmp swp)).regs res) = y :=
  ⟨(cmpxchg_effect R fn s res p cmp swp hp hc hs hl).result, fun _ _ i => if i = 0 then x else y, rfl, rfl⟩

/-- The assignment of the old value to the variable of the aggregate is well-typed only when integers and references have
the same Boogie type: both integers, or both bit-vectors of the pointer width. -/
theorem c58_cmpxchg_type_fails (m : Vec.Mode) (w : Nat) :
    AssignOk m w ↔ (m.bitPrecise = false ∧ m.bitPrecisePointers = false) ∨
      (m.bitPrecise = true ∧ m.bitPrecisePointers = true ∧ w = m.ptrBits) := by
  obtain ⟨b1, b2, k⟩ := m
  cases b1 <;> cases b2 <;> simp [AssignOk, Vec.bty]
  exact eq_comm

/-! ### Atomicity -/

/-- **C58 fails with threads.** The two statements are not in an atomic section. Two concurrent increments of any memory
cell have an interleaving in which both return the same old value although the cell is incremented twice: one of them does
not return the value it replaced. -/
theorem c58_atomicity_fails {M A : Type} {w : Nat} (hw : 1 ≤ w) (R : Region M A (BitVec w)) (m : M) (a : A)
    (hl : Lawful R a) (regs : Bool → Nat → BitVec w) :
    ∃ l, rmw .add 0 (fun _ => a) (fun _ => 1#w) = some l ∧
      let c := parExec R (bvFn w) ⟨fun _ => l, regs, m⟩ [false, true, false, true]
      c.code false = [] ∧ c.code true = [] ∧ R.ld c.mem a = R.ld m a + 1#w + 1#w ∧
      c.regs false 0 = R.ld m a ∧ c.regs true 0 = R.ld m a ∧ R.ld m a ≠ R.ld m a + 1#w := by
  refine ⟨_, rfl, ?_⟩
  have hne : R.ld m a ≠ R.ld m a + 1#w := fun h => succ_ne hw (R.ld m a) (by
    rw [BitVec.ofInt_add, BitVec.ofInt_toInt]; exact h.symm)
  refine ⟨rfl, rfl, ?_, ?_, ?_, hne⟩
  · show R.ld (R.st (R.st m a (R.ld m a + 1#w)) a (R.ld (R.st m a (R.ld m a + 1#w)) a + 1#w)) a = _
    rw [hl.same, hl.same]
  · rfl
  · rfl

end Smack.Atomics
