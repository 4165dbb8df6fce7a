import Verif.Gep.Spec
import Verif.IntOps.Lemmas

set_option linter.constructorNameAsVariable false

namespace Smack.Gep

open IntOps (Smt Enc)

theorem offRest_append (sz : Ty → Nat) (t : Ty) (xs ys : List Idx) :
    offRest sz t (xs ++ ys) = (offRest sz t xs).bind fun (o1, t1) =>
      (offRest sz t1 ys).map fun (o2, t2) => (o1 + o2, t2) := by
  induction xs generalizing t with
  | nil => simp [offRest, Option.map_id']
  | cons i is ih =>
    cases t with
    | scalar => rfl
    | array n e =>
      simp only [List.cons_append, offRest, ih]
      cases offRest sz e is with
      | none => rfl
      | some p =>
        obtain ⟨o, t'⟩ := p
        simp only [Option.bind_some, Option.map_some]
        cases offRest sz t' ys with
        | none => rfl
        | some q => simp [Int.add_assoc]
    | struct s fs =>
      simp only [List.cons_append, offRest]
      cases fs.get? i.bits.toNat with
      | none => rfl
      | some p =>
        obtain ⟨o, t⟩ := p
        simp only [ih]
        cases offRest sz t is with
        | none => rfl
        | some p =>
          obtain ⟨o, t'⟩ := p
          simp only [Option.bind_some, Option.map_some]
          cases offRest sz t' ys with
          | none => rfl
          | some q => simp [Int.add_assoc]

/-- A path that ends with a sequential index ends in an array, or is empty. -/
theorem endsSeq_last (sz : Ty → Nat) (t : Ty) (is : List Idx) (so : Idx) (o : Int) (t1 : Ty) (b : Bool)
    (hs : endsSeq t (is ++ [so]) b = true) (ho : offRest sz t (is ++ [so]) = some (o, t1)) :
    ∃ o0 n, offRest sz t is = some (o0, .array n t1) ∧ o = o0 + so.bits.toInt * sz t1 := by
  induction is generalizing t o b with
  | nil =>
    cases t with
    | scalar => simp [offRest] at ho
    | array n e =>
      simp [offRest] at ho
      obtain ⟨h1, h2⟩ := ho
      subst h2
      exact ⟨0, n, rfl, by omega⟩
    | struct s fs =>
      simp only [List.nil_append, endsSeq] at hs
      cases h : fs.get? so.bits.toNat with
      | none => rw [h] at hs; simp at hs
      | some p => rw [h] at hs; simp at hs
  | cons i is ih =>
    cases t with
    | scalar => simp [offRest] at ho
    | array n e =>
      simp only [List.cons_append, offRest, endsSeq] at ho hs
      cases h : offRest sz e (is ++ [so]) with
      | none => rw [h] at ho; simp at ho
      | some p =>
        obtain ⟨o', t'⟩ := p
        rw [h] at ho
        simp at ho
        obtain ⟨h1, h2⟩ := ho
        subst h2
        obtain ⟨o0, n', h3, h4⟩ := ih e o' true hs h
        refine ⟨i.bits.toInt * sz e + o0, n', ?_, by omega⟩
        simp [offRest, h3]
    | struct s fs =>
      simp only [List.cons_append, offRest, endsSeq] at ho hs
      cases hg : fs.get? i.bits.toNat with
      | none => rw [hg] at ho; simp at ho
      | some p =>
        obtain ⟨of, e⟩ := p
        rw [hg] at ho hs
        simp only at ho hs
        cases h : offRest sz e (is ++ [so]) with
        | none => rw [h] at ho; simp at ho
        | some p =>
          obtain ⟨o', t'⟩ := p
          rw [h] at ho
          simp at ho
          obtain ⟨h1, h2⟩ := ho
          subst h2
          obtain ⟨o0, n', h3, h4⟩ := ih e o' false hs h
          refine ⟨(of : Int) + o0, n', ?_, by omega⟩
          simp [offRest, hg, h3]

theorem isNull_toInt {i : Idx} (h : i.isNull = true) : i.bits.toInt = 0 := by
  simp only [Idx.isNull, Bool.and_eq_true, beq_iff_eq] at h
  rw [h.2]; simp

theorem toInt_range {w : Nat} (x : BitVec w) : -(2:Int)^(w-1) ≤ x.toInt ∧ x.toInt < (2:Int)^(w-1) := by
  cases w with
  | zero => rw [show x = 0#0 from by ext i hi; omega]; simp
  | succ w =>
    have h1 := BitVec.le_toInt x
    have h2 := BitVec.toInt_lt (x := x)
    exact ⟨by simpa using h1, by simpa using h2⟩

/-- The sum of the indices modulo the width. -/
theorem add_toInt_dvd {w : Nat} (a b : BitVec w) : (2:Int)^w ∣ (a + b).toInt - (a.toInt + b.toInt) := by
  rw [BitVec.toInt_add]
  have := Int.bmod_emod (x := a.toInt + b.toInt) (m := 2^w)
  have h2 : ((2^w : Nat) : Int) = (2:Int)^w := by norm_cast
  rw [h2] at this
  exact Int.dvd_of_emod_eq_zero (Int.emod_eq_emod_iff_emod_sub_eq_zero.1 this)

theorem add_toInt_exact {w : Nat} (a b : BitVec w) (h1 : -(2:Int)^(w-1) ≤ a.toInt + b.toInt)
    (h2 : a.toInt + b.toInt < (2:Int)^(w-1)) : (a + b).toInt = a.toInt + b.toInt := by
  cases w with
  | zero => rw [show a = 0#0 from by ext i hi; omega, show b = 0#0 from by ext i hi; omega]; rfl
  | succ w =>
    rw [show a + b = BitVec.ofInt (w+1) (a.toInt + b.toInt) from by
      rw [BitVec.ofInt_add, BitVec.ofInt_toInt, BitVec.ofInt_toInt]]
    exact IntOps.toInt_ofInt_range (by omega) h1 h2

theorem ofInt_eq_iff {P : Nat} (a b : Int) : BitVec.ofInt P a = BitVec.ofInt P b ↔ (2:Int)^P ∣ a - b := by
  have h2 : ((2^P : Nat) : Int) = (2:Int)^P := by norm_cast
  constructor
  · intro h
    have := congrArg BitVec.toInt h
    rw [BitVec.toInt_ofInt, BitVec.toInt_ofInt] at this
    have h3 := congrArg (· % ((2^P : Nat) : Int)) this
    simp only [Int.bmod_emod] at h3
    rw [h2] at h3
    exact Int.dvd_of_emod_eq_zero (Int.emod_eq_emod_iff_emod_sub_eq_zero.1 h3)
  · intro h
    have := Int.emod_eq_emod_iff_emod_sub_eq_zero.2 (Int.emod_eq_zero_of_dvd h)
    apply BitVec.eq_of_toNat_eq
    rw [BitVec.toNat_ofInt, BitVec.toNat_ofInt, h2, this]

theorem pow_dvd {m n : Nat} (h : m ≤ n) : (2:Int)^m ∣ (2:Int)^n :=
  ⟨(2:Int)^(n-m), by rw [← Int.pow_add]; congr 1; omega⟩

/-- The merged index times any size. -/
theorem mergeSum_dvd {P : Nat} {so go sum : Idx} (h : mergeSum so go = some sum) (hok : SumOk P so go) (k : Int) :
    (2:Int)^P ∣ sum.bits.toInt * k - (so.bits.toInt * k + go.bits.toInt * k) := by
  unfold mergeSum at h
  split at h
  · rename_i hn
    cases h
    rw [isNull_toInt hn]; simp
  · split at h
    · rename_i hn
      cases h
      rw [isNull_toInt hn]; simp
    · split at h
      · rename_i hn1 hn2 hw
        cases h
        obtain ⟨ws, so, cs, rs⟩ := so
        obtain ⟨wg, go, cg, rg⟩ := go
        dsimp only at hw
        subst hw
        simp only [BitVec.cast_eq]
        rw [show (so + go).toInt * k - (so.toInt * k + go.toInt * k) = ((so + go).toInt - (so.toInt + go.toInt)) * k
          from by rw [Int.sub_mul, Int.add_mul]]
        rcases hok with h | h | h | ⟨h, h'⟩
        · exact absurd h hn1
        · exact absurd h hn2
        · exact Int.dvd_mul_of_dvd_left (Int.dvd_trans (pow_dvd h) (add_toInt_dvd so go))
        · rw [add_toInt_exact so go h h', Int.sub_self, Int.zero_mul]; exact ⟨0, by simp⟩
      · cases h

/-- What the merge does to the offsets. -/
theorem merge_offset {sz : Ty → Nat} {t : Ty} {src idx new : List Idx} (hm : merge t src idx = some new)
    {o1 : Int} {t1 : Ty} (h1 : offset sz t src = some (o1, t1)) {o2 : Int} {t2 : Ty}
    (h2 : offset sz t1 idx = some (o2, t2)) :
    ∃ o, offset sz t new = some (o, t2) ∧
      (o = o1 + o2 ∨ ∃ so go sum, srcEndsSeq t src = true ∧ src.getLast? = some so ∧ idx.head? = some go ∧
        mergeSum so go = some sum ∧ (o - (o1 + o2) =
          sum.bits.toInt * sz t1 - (so.bits.toInt * sz t1 + go.bits.toInt * sz t1))) := by
  cases idx with
  | nil => simp [merge] at hm
  | cons go rest =>
    simp only [merge] at hm
    simp only [offset] at h2
    cases hr : offRest sz t1 rest with
    | none => rw [hr] at h2; simp at h2
    | some p =>
      obtain ⟨r, t2'⟩ := p
      rw [hr] at h2
      simp at h2
      obtain ⟨h2a, h2b⟩ := h2
      subst h2b
      split at hm
      · rename_i hseq
        cases hl : src.getLast? with
        | none => rw [hl] at hm; simp at hm
        | some so =>
          rw [hl] at hm
          simp only at hm
          cases hsum : mergeSum so go with
          | none => rw [hsum] at hm; simp at hm
          | some sum =>
            rw [hsum] at hm
            simp at hm
            have hsrc : src = src.dropLast ++ [so] := by
              obtain ⟨ys, hy⟩ := List.getLast?_eq_some_iff.1 hl
              rw [hy, List.dropLast_concat]
            generalize src.dropLast = init at hsrc hm
            subst hsrc
            subst hm
            cases init with
            | nil =>
              simp [offset, offRest] at h1
              obtain ⟨h1a, h1b⟩ := h1
              subst h1b
              refine ⟨sum.bits.toInt * sz t + r, by simp [offset, hr], Or.inr ⟨so, go, sum, hseq, hl, rfl, hsum, ?_⟩⟩
              omega
            | cons i is =>
              simp only [List.cons_append, offset] at h1
              cases hi : offRest sz t (is ++ [so]) with
              | none => rw [hi] at h1; simp at h1
              | some p =>
                obtain ⟨o', t'⟩ := p
                rw [hi] at h1
                simp at h1
                obtain ⟨h1a, h1b⟩ := h1
                subst h1b
                obtain ⟨o0, n, h3, h4⟩ := endsSeq_last sz t is so o' t' true (by simpa only [List.cons_append, srcEndsSeq] using hseq) hi
                refine ⟨i.bits.toInt * sz t + (o0 + (sum.bits.toInt * sz t' + r)), ?_,
                  Or.inr ⟨so, go, sum, hseq, rfl, rfl, hsum, ?_⟩⟩
                · simp only [List.cons_append, offset, offRest_append, h3]
                  simp [offRest, hr]
                · omega
      · split at hm
        · rename_i hn
          simp at hm
          simp only [Bool.and_eq_true] at hn
          have hg := isNull_toInt hn.1
          subst hm
          cases src with
          | nil => simp at hn
          | cons i is =>
            simp only [offset] at h1
            cases hi : offRest sz t is with
            | none => rw [hi] at h1; simp at h1
            | some p =>
              obtain ⟨o', t'⟩ := p
              rw [hi] at h1
              simp at h1
              obtain ⟨h1a, h1b⟩ := h1
              subst h1b
              refine ⟨i.bits.toInt * sz t + (o' + r), ?_, Or.inl ?_⟩
              · simp only [List.cons_append, offset, offRest_append, hi]
                simp [hr]
              · rw [hg] at h2a; omega
        · simp at hm

/-! ### ptrArith -/

/-- What the arguments add up to. -/
def sumA : List Arg → Int
  | [] => 0
  | .field o :: r => (fieldOffset o : Int) + sumA r
  | .elem i t :: r => i.bits.toInt * (storageSize t : Int) + sumA r

theorem storageSize_ok {t : Ty} (h1 : t.store = t.alloc) (h2 : t.alloc < 2^32) : storageSize t = t.alloc := by
  unfold storageSize; rw [h1]; omega

theorem argsRest_sum (t : Ty) (is : List Idx) (as : List Arg) (h : argsRest t is = some as) (o : Int) (t' : Ty)
    (ho : offRest Ty.alloc t is = some (o, t')) (hs : SizesOkRest t is) :
    sumA as = o ∧ AllIdx (fun _ t => storageSize t = t.alloc) as := by
  induction is generalizing t as o with
  | nil =>
    simp [argsRest] at h
    simp [offRest] at ho
    subst h
    exact ⟨ho.1, trivial⟩
  | cons i is ih =>
    cases t with
    | scalar => simp [offRest] at ho
    | array n e =>
      simp only [argsRest] at h
      simp only [offRest] at ho
      obtain ⟨hs1, hs2, hs3⟩ := hs
      cases ha : argsRest e is with
      | none => rw [ha] at h; simp at h
      | some as' =>
        cases hoo : offRest Ty.alloc e is with
        | none => rw [hoo] at ho; simp at ho
        | some p =>
          obtain ⟨o', t''⟩ := p
          rw [ha] at h; rw [hoo] at ho
          simp at h ho
          obtain ⟨h3, h4⟩ := ih e as' ha o' (by rw [hoo, ho.2]) hs3
          subst h
          refine ⟨?_, storageSize_ok hs1 hs2, h4⟩
          simp only [sumA, storageSize_ok hs1 hs2, h3]
          exact ho.1
    | struct s fs =>
      simp only [argsRest] at h
      simp only [offRest] at ho
      simp only [SizesOkRest] at hs
      cases hg : fs.get? i.bits.toNat with
      | none => rw [hg] at h; simp at h
      | some p =>
        obtain ⟨of, e⟩ := p
        rw [hg] at h ho hs
        simp only at h ho hs
        obtain ⟨hs1, hs3⟩ := hs
        cases ha : argsRest e is with
        | none => rw [ha] at h; simp at h
        | some as' =>
          cases hoo : offRest Ty.alloc e is with
          | none => rw [hoo] at ho; simp at ho
          | some p =>
            obtain ⟨o', t''⟩ := p
            rw [ha] at h; rw [hoo] at ho
            simp at h ho
            obtain ⟨h3, h4⟩ := ih e as' ha o' (by rw [hoo, ho.2]) hs3
            subst h
            refine ⟨?_, h4⟩
            simp only [sumA, h3]
            rw [show fieldOffset of = of from by unfold fieldOffset; omega]
            exact ho.1

theorem args_sum {t : Ty} {is : List Idx} {as : List Arg} (h : args t is = some as) {o : Int} {t' : Ty}
    (ho : offset Ty.alloc t is = some (o, t')) (hs : SizesOk t is) :
    sumA as = o ∧ AllIdx (fun _ t => storageSize t = t.alloc) as := by
  cases is with
  | nil =>
    simp [args] at h
    simp [offset] at ho
    subst h
    exact ⟨ho.1, trivial⟩
  | cons i is =>
    simp only [args] at h
    simp only [offset] at ho
    obtain ⟨hs1, hs2, hs3⟩ := hs
    cases ha : argsRest t is with
    | none => rw [ha] at h; simp at h
    | some as' =>
      cases hoo : offRest Ty.alloc t is with
      | none => rw [hoo] at ho; simp at ho
      | some p =>
        obtain ⟨o', t''⟩ := p
        rw [ha] at h; rw [hoo] at ho
        simp at h ho
        obtain ⟨h3, h4⟩ := argsRest_sum t is as' ha o' t' (by rw [hoo, ho.2]) hs3
        subst h
        refine ⟨?_, storageSize_ok hs1 hs2, h4⟩
        simp only [sumA, storageSize_ok hs1 hs2, h3]
        exact ho.1

theorem argsRest_total {sz : Ty → Nat} (t : Ty) (is : List Idx) (p : Int × Ty) (ho : offRest sz t is = some p) :
    ∃ as, argsRest t is = some as := by
  induction is generalizing t p with
  | nil => exact ⟨[], by cases t <;> rfl⟩
  | cons i is ih =>
    cases t with
    | scalar => simp [offRest] at ho
    | array n e =>
      simp only [offRest] at ho
      cases hoo : offRest sz e is with
      | none => rw [hoo] at ho; simp at ho
      | some q =>
        obtain ⟨as, ha⟩ := ih e q hoo
        exact ⟨_, by simp only [argsRest, ha]; rfl⟩
    | struct s fs =>
      simp only [offRest] at ho
      cases hg : fs.get? i.bits.toNat with
      | none => rw [hg] at ho; simp at ho
      | some r =>
        obtain ⟨of, e⟩ := r
        rw [hg] at ho
        simp only at ho
        cases hoo : offRest sz e is with
        | none => rw [hoo] at ho; simp at ho
        | some q =>
          obtain ⟨as, ha⟩ := ih e q hoo
          exact ⟨_, by simp only [argsRest, hg, ha]; rfl⟩

theorem args_total {sz : Ty → Nat} {t : Ty} {is : List Idx} {p : Int × Ty} (ho : offset sz t is = some p) :
    ∃ as, args t is = some as := by
  cases is with
  | nil => exact ⟨[], rfl⟩
  | cons i is =>
    simp only [offset] at ho
    cases hoo : offRest sz t is with
    | none => rw [hoo] at ho; simp at ho
    | some q =>
      obtain ⟨as, ha⟩ := argsRest_total t is q hoo
      exact ⟨_, by simp only [args, ha]; rfl⟩

/-- A constant index that passes the assertions. -/
theorem constIdx_ok {i : Idx} {t : Ty} (h : i.ConstOk t) (hs : storageSize t = t.alloc) :
    constIdx i t = some i.bits.toInt := by
  obtain ⟨h1, h2, h3⟩ := h
  unfold constIdx
  rw [if_pos, IntOps.getSExtValue, if_pos ⟨by omega, h2⟩]
  rcases h3 with h3 | ⟨h3, h4⟩
  · have hr := toInt_range (i.bits * BitVec.ofNat i.w (storageSize t))
    have : (2:Int)^(i.w-1) ≤ (2:Int)^63 := by
      have := Nat.pow_le_pow_right (n := 2) (by decide) (show i.w - 1 ≤ 63 by omega)
      exact_mod_cast this
    omega
  · by_cases hw : i.w ≤ 64
    · have hr := toInt_range (i.bits * BitVec.ofNat i.w (storageSize t))
      have : (2:Int)^(i.w-1) ≤ (2:Int)^63 := by
        have := Nat.pow_le_pow_right (n := 2) (by decide) (show i.w - 1 ≤ 63 by omega)
        exact_mod_cast this
      omega
    · have hp : (2:Int)^63 ≤ (2:Int)^(i.w-1) := by
        have := Nat.pow_le_pow_right (n := 2) (by decide) (show 63 ≤ i.w - 1 by omega)
        exact_mod_cast this
      have he : (i.bits * BitVec.ofNat i.w (storageSize t)).toInt = i.bits.toInt * t.alloc := by
        rw [show i.bits * BitVec.ofNat i.w (storageSize t) = BitVec.ofInt i.w (i.bits.toInt * t.alloc) from by
          rw [BitVec.ofInt_mul, BitVec.ofInt_toInt, hs]; rfl]
        exact IntOps.toInt_ofInt_range (by omega) (by omega) (by omega)
      rw [he]
      exact ⟨h3, h4⟩

theorem constIdxInt_ok {i : Idx} {t : Ty} (h : i.ConstOk t) (hs : storageSize t = t.alloc) :
    constIdxInt i t = some i.bits.toInt := by
  unfold constIdxInt
  rw [constIdx_ok h hs]
  simp only
  split
  · rfl
  · rw [if_neg (by have := h.1; omega)]
    unfold IntOps.isub
    congr 1
    omega

theorem constIdxBv_ok {P : Nat} {i : Idx} {t : Ty} (h : i.ConstOk t) (hs : storageSize t = t.alloc) :
    constIdxBv P i t = some (BitVec.ofInt P i.bits.toInt) := by
  unfold constIdxBv
  rw [constIdx_ok h hs]
  simp only
  split
  · rename_i h0
    rw [← BitVec.ofInt_natCast]
    congr 2
    omega
  · rw [if_neg (by have := h.1; omega)]
    rw [← BitVec.ofInt_natCast, ← BitVec.ofInt_natCast, ← IntOps.ofInt_sub']
    congr 2
    omega

end Smack.Gep
