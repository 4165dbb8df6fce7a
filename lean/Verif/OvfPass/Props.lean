/-
C81: the pass IntegerOverflowChecker on whole functions.
-/
import Verif.OvfPass.Run
import Verif.Cfg.Check

namespace Smack.OvfPass

open Smack.Cfg Smack.Cfg.Spec Smack.OvfPass.Spec Smack.Overflow

section

variable {M : Type} {P : Params Val M} {tab : Table} {fn : Fn Val} {base : Nat} {o : Opts}

theorem term_uses (t : Term Val) : (match t with
     | .ret (some v) => [v]
     | .cbr c _ _ => [c]
     | .switch c _ _ => [c]
     | .resume v => [v]
     | _ => []) = Term.uses t := by
  cases t with
  | ret v => cases v <;> rfl
  | _ => rfl

theorem noPair_iff : (remainingUses tab base fn).any (isPair tab fn) = false ↔
    NoPairUse tab base fn := by
  have hb : ∀ {b : Nat} {blk : Block Val}, fn[b]? = some blk → blk ∈ fn := fun h => List.mem_of_getElem? h
  have hbi : ∀ {blk : Block Val}, blk ∈ fn → ∃ b : Nat, fn[b]? = some blk := by
    intro blk h
    obtain ⟨b, hb, he⟩ := List.getElem_of_mem h
    exact ⟨b, by rw [← he]; exact List.getElem?_eq_getElem _⟩
  rw [Bool.eq_false_iff, Ne, List.any_eq_true]
  constructor
  · intro h
    have key : ∀ u, u ∈ remainingUses tab base fn → ∀ d, u = .var d → isOvf tab fn d = false := by
      intro u hu d hd
      subst hd
      cases hc : isOvf tab fn d with
      | false => rfl
      | true => exact absurd ⟨_, hu, hc⟩ h
    refine ⟨?_, ?_, ?_⟩
    · rintro b i ins ⟨blk, hblk, hi⟩ hr u hu d hd
      refine key u ?_ d hd
      unfold remainingUses
      refine List.mem_flatMap.2 ⟨blk, hb hblk, List.mem_append_left _ (List.mem_append_right _ (List.mem_flatMap.2 ⟨ins, List.mem_of_getElem? hi, ?_⟩))⟩
      rw [hr]; exact hu
    · intro b blk hblk u hu d hd
      refine key u ?_ d hd
      unfold remainingUses
      refine List.mem_flatMap.2 ⟨blk, hb hblk, List.mem_append_right _ ?_⟩
      have := term_uses blk.term
      rw [← this] at hu
      exact hu
    · intro b blk hblk p hp q hq d hd
      refine key q.2 ?_ d hd
      unfold remainingUses
      exact List.mem_flatMap.2 ⟨blk, hb hblk, List.mem_append_left _ (List.mem_append_left _
        (List.mem_flatMap.2 ⟨p, hp, List.mem_map.2 ⟨q, hq, rfl⟩⟩))⟩
  · rintro ⟨h1, h2, h3⟩ ⟨u, hu, hd⟩
    cases u with
    | const v => simp [isPair] at hd
    | var d =>
      have hd' : isOvf tab fn d = true := hd
      have hcon : isOvf tab fn d ≠ false := by rw [hd']; simp
      unfold remainingUses at hu
      obtain ⟨blk, hblk, hm⟩ := List.mem_flatMap.1 hu
      obtain ⟨b, hbk⟩ := hbi hblk
      rcases List.mem_append.1 hm with hm | hm
      · rcases List.mem_append.1 hm with hm | hm
        · obtain ⟨p, hp, hm⟩ := List.mem_flatMap.1 hm
          obtain ⟨q, hq, he⟩ := List.mem_map.1 hm
          exact hcon (h3 b blk hbk p hp q hq d he)
        · obtain ⟨ins, hins, hm⟩ := List.mem_flatMap.1 hm
          obtain ⟨i, hi, he⟩ := List.getElem_of_mem hins
          cases hr : replacement tab base fn ins with
          | some y => rw [hr] at hm; simp at hm
          | none =>
            rw [hr] at hm
            exact hcon (h1 b i ins ⟨blk, hbk, by rw [← he]; exact List.getElem?_eq_getElem _⟩ hr _ hm d rfl)
      · have := term_uses blk.term
        exact hcon (h2 b blk hbk (.var d) (by rw [← this]; exact hm) d rfl)

theorem isOvf_false {d : Var} (h : ∀ (b' : Nat) (blk' : Block Val) (j : Instr Val), fn[b']? = some blk' → j ∈ blk'.body →
    j.dst = some d → ∀ op s bits, tab j.op ≠ .ovf op s bits) : isOvf tab fn d = false := by
  cases hc : isOvf tab fn d with
  | false => rfl
  | true =>
    obtain ⟨b, i, ins, op, s, bits, ⟨blk, hb, hi⟩, hd, ht⟩ := isOvf_iff.1 hc
    exact absurd ht (h b blk ins hb (List.mem_of_getElem? hi) hd op s bits)

theorem isOvf_not {d : Var} (h : isOvf tab fn d = false) (b' : Nat) (blk' : Block Val) (j : Instr Val) (hb : fn[b']? = some blk')
    (hj : j ∈ blk'.body) (hd : j.dst = some d) (op : Overflow.Op) (s : Bool) (bits : Nat) : tab j.op ≠ .ovf op s bits := by
  intro ht
  obtain ⟨i, hi, he⟩ := List.getElem_of_mem hj
  have := isOvf_iff.2 ⟨b', i, j, op, s, bits, ⟨blk', hb, by rw [← he]; exact List.getElem?_eq_getElem _⟩, hd, ht⟩
  rw [h] at this
  exact Bool.noConfusion this

theorem handled_iff : NoPairUse tab base fn ↔ Handled tab fn := by
  constructor
  · rintro ⟨h1, h2, h3⟩
    refine ⟨?_, ?_, ?_⟩
    · rintro b blk i hb hi d hd ⟨b', blk', j, hb', hj, hjd, op, s, bits, ht⟩
      obtain ⟨n, hn, he⟩ := List.getElem_of_mem hi
      cases hr : replacement tab base fn i with
      | none =>
        have := h1 b n i ⟨blk, hb, by rw [← he]; exact List.getElem?_eq_getElem _⟩ hr _ hd d rfl
        exact absurd ht (isOvf_not this b' blk' j hb' hj hjd op s bits)
      | some y =>
        obtain ⟨d', ha, _, h⟩ := replacement_some hr
        rw [ha] at hd
        have hdd : Opd.var d = Opd.var d' := List.mem_singleton.1 hd
        rw [hdd]
        rcases h with ⟨h, _⟩ | ⟨h, _⟩
        · exact ⟨.inl h, ha⟩
        · exact ⟨.inr h, ha⟩
    · intro b blk hb p hp q hq d hd b' blk' j hb' hj hjd op s bits
      exact isOvf_not (h3 b blk hb p hp q hq d hd) b' blk' j hb' hj hjd op s bits
    · intro b blk hb d hd b' blk' j hb' hj hjd op s bits
      exact isOvf_not (h2 b blk hb _ hd d rfl) b' blk' j hb' hj hjd op s bits
  · intro h
    refine ⟨?_, ?_, ?_⟩
    · rintro b i ins ⟨blk, hb, hi⟩ hr u hu d rfl
      apply isOvf_false
      intro b' blk' j hb' hj hjd op s bits ht
      obtain ⟨h1, h2⟩ := h.body b blk ins hb (List.mem_of_getElem? hi) d hu ⟨b', blk', j, hb', hj, hjd, op, s, bits, ht⟩
      obtain ⟨n, hn, he⟩ := List.getElem_of_mem hj
      have ho : isOvf tab fn d = true :=
        isOvf_iff.2 ⟨b', n, j, op, s, bits, ⟨blk', hb', by rw [← he]; exact List.getElem?_eq_getElem _⟩, hjd, ht⟩
      unfold replacement at hr
      rcases h1 with h1 | h1
      · rw [h1, h2] at hr; simp [ho] at hr
      · rw [h1, h2] at hr; simp [ho] at hr
    · rintro b blk hb u hu d rfl
      exact isOvf_false (h.term b blk hb d hu)
    · intro b blk hb p hp q hq d hd
      exact isOvf_false (h.phi b blk hb p hp q hq d hd)

/-- C81: the pass can be completed exactly for the functions that are skipped and those in which the results of intrinsics are used
by `extractvalue` instructions with index 0 or 1 only. -/
theorem c81_defined (tab : Table) (o : Opts) (base : Nat) (fn : Fn Val) :
    (pass tab o base fn).isSome = true ↔ o.smackName = true ∨ Handled tab fn := by
  unfold pass
  cases hn : o.smackName with
  | true => simp
  | false =>
    simp only [Bool.false_eq_true, if_false, false_or]
    rw [← handled_iff (base := base), ← noPair_iff]
    cases (remainingUses tab base fn).any (isPair tab fn) <;> simp

theorem pass_eq (hn : o.smackName = false) {fn' : Fn Val} (h : pass tab o base fn = some fn') :
    NoPairUse tab base fn ∧ fn' = fn.map (passBlock tab o base fn) := by
  unfold pass at h
  rw [hn] at h
  simp only [Bool.false_eq_true, if_false] at h
  cases hc : (remainingUses tab base fn).any (isPair tab fn) with
  | true => rw [hc] at h; simp at h
  | false =>
    rw [hc] at h
    simp only [Bool.false_eq_true, if_false, Option.some.injEq] at h
    exact ⟨noPair_iff.1 hc, h.symm⟩

/-- C81: every execution of a function is an execution of the function after the pass, for every function in SSA form that the
pass handles. The meaning of the function before the pass is the required one: in a checked function an intrinsic whose exact
result is not representable, and a UBSan handler, are errors. -/
theorem c81_complete_partial (hs : Ssa fn) (hsh : Shape tab base fn) (hn : o.smackName = false) {fn' : Fn Val}
    (hp : pass tab o base fn = some fn') (ρ : Env Val) (m : M) (out : Outcome Val M)
    (h : Run (required P tab o.overflow o.checked) fn 0 ρ m out) :
    ∃ out', SameOutcome tab o.overflow out out' ∧ Run (after P tab) fn' 0 ρ m out' := by
  obtain ⟨hu, rfl⟩ := pass_eq hn hp
  exact run_fwd hs hsh hu h ρ .entry (init_inv ρ)

/-- C81: and every execution after the pass is one of the function: no error is invented. -/
theorem c81_sound_partial (hs : Ssa fn) (hsh : Shape tab base fn) (hn : o.smackName = false) {fn' : Fn Val}
    (hp : pass tab o base fn = some fn') (ρ : Env Val) (m : M) (out' : Outcome Val M)
    (h : Run (after P tab) fn' 0 ρ m out') :
    ∃ out, SameOutcome tab o.overflow out out' ∧ Run (required P tab o.overflow o.checked) fn 0 ρ m out := by
  obtain ⟨hu, rfl⟩ := pass_eq hn hp
  exact run_bwd hs hsh hu h ρ .entry (init_inv ρ)

theorem exec_sem {P Q : Params Val M} (h : ∀ k args m r, P.sem k args m r → Q.sem k args m r) {is : List (Instr Val)} {ρ ρ₁ : Env Val}
    {m m₁ : M} (he : Exec P is ρ m ρ₁ m₁) : Exec Q is ρ m ρ₁ m₁ := by
  induction he with
  | nil ρ m => exact .nil _ _
  | cons i is ρ m v m' ρ₂ m₂ hs _ ih => exact .cons i is ρ m v m' ρ₂ m₂ (h _ _ _ _ hs) ih

theorem fail_sem {P Q : Params Val M} (h : ∀ k args m r, P.sem k args m r → Q.sem k args m r) {is : List (Instr Val)} {ρ : Env Val}
    {m : M} {out : Outcome Val M} (he : ExecFail P is ρ m out) : ExecFail Q is ρ m out := by
  induction he with
  | here i is ρ m hs => exact .here i is ρ m (h _ _ _ _ hs)
  | there i is ρ m v m' o hs _ ih => exact .there i is ρ m v m' o (h _ _ _ _ hs) ih

theorem run_sem {P Q : Params Val M} (h : ∀ k args m r, P.sem k args m r → Q.sem k args m r)
    (hl : ∀ ρ m t, leave P ρ m t = leave Q ρ m t) (hnx : ∀ ρ m t, next P ρ m t = next Q ρ m t) {b : Nat} {ρ : Env Val}
    {m : M} {out : Outcome Val M} (hr : Run P fn b ρ m out) : Run Q fn b ρ m out := by
  induction hr with
  | fail b blk ρ m out hb hf => exact .fail b blk ρ m out hb (fail_sem h hf)
  | leave b blk ρ m ρ₁ m₁ out hb he hlv => exact .leave b blk ρ m ρ₁ m₁ out hb (exec_sem h he) ((hl _ _ _).symm.trans hlv)
  | step b blk ρ m ρ₁ m₁ t blk' out hb he hn ht _ ih =>
    exact .step b blk ρ m ρ₁ m₁ t blk' out hb (exec_sem h he) ((hnx _ _ _).symm.trans hn) ht ih

theorem off_sem (checked : Bool) (k : Nat) (args : List Val) (m : M) (r : Option (Val × M)) :
    (required P tab false checked).sem k args m r ↔ (llvm P tab).sem k args m r := by
  unfold required llvm
  simp only
  cases tab k with
  | ovf op s bits => simp
  | extract idx => exact Iff.rfl
  | other => exact Iff.rfl
  | ubsan => simp

/-- C81: without overflow checking the pass changes no execution: the intrinsics are only expanded. -/
theorem c81_off (hs : Ssa fn) (hsh : Shape tab base fn) (hn : o.smackName = false) (hoff : o.overflow = false) {fn' : Fn Val}
    (hp : pass tab o base fn = some fn') (ρ : Env Val) (m : M) (v : Option Val) (m' : M) :
    Run (llvm P tab) fn 0 ρ m (.ret v m') ↔ Run (after P tab) fn' 0 ρ m (.ret v m') := by
  constructor
  · intro h
    have h' : Run (required P tab o.overflow o.checked) fn 0 ρ m (.ret v m') := by
      rw [hoff]
      exact run_sem (fun k args m r h => (off_sem o.checked k args m r).2 h) (fun _ _ t => by cases t <;> rfl)
        (fun _ _ t => by cases t <;> rfl) h
    obtain ⟨out', h1, h2⟩ := c81_complete_partial hs hsh hn hp ρ m _ h'
    cases h1
    exact h2
  · intro h
    obtain ⟨out, h1, h2⟩ := c81_sound_partial hs hsh hn hp ρ m _ h
    cases h1
    rw [hoff] at h2
    exact run_sem (fun k args m r h => (off_sem o.checked k args m r).1 h) (fun _ _ t => by cases t <;> rfl)
      (fun _ _ t => by cases t <;> rfl) h2

/-- C81: overflows are reported exactly: an execution of the function reaches the intrinsic `k`, in a checked function, with operands
whose exact result is not representable, if and only if an execution after the pass fails in the call of
`__SMACK_check_overflow` made for it; the state is the same. -/
theorem c81_reported_partial (hs : Ssa fn) (hsh : Shape tab base fn) (hn : o.smackName = false) (hon : o.overflow = true)
    {fn' : Fn Val} (hp : pass tab o base fn = some fn') (ρ : Env Val) (m : M)
    (k : Nat) (hk : (∃ op s bits, tab k = .ovf op s bits) ∨ tab k = .ubsan) (m₁ : M) :
    (∃ args, Run (required P tab o.overflow o.checked) fn 0 ρ m (.fail k args m₁)) ↔
      Run (after P tab) fn' 0 ρ m (.fail (16 * k + 8) [.word 32 1#32] m₁) := by
  constructor
  · rintro ⟨args, h⟩
    obtain ⟨out', h1, h2⟩ := c81_complete_partial hs hsh hn hp ρ m _ h
    cases h1 with
    | fail _ _ _ h3 h4 =>
      rcases hk with ⟨op, s, bits, hk⟩ | hk
      · exact absurd hk (h3 op s bits)
      · rw [h4 hk] at hon; exact Bool.noConfusion hon
    | check => exact h2
  · intro h
    obtain ⟨out, h1, h2⟩ := c81_sound_partial hs hsh hn hp ρ m _ h
    generalize ho' : Outcome.fail (16 * k + 8) [Val.word 32 1#32] m₁ = out' at h1
    cases h1 with
    | ret => cases ho'
    | fail k' args' m' =>
      have hkk : 16 * k + 8 = 16 * k' := by injection ho'
      omega
    | check k' args' m' =>
      have hkk : 16 * k + 8 = 16 * k' + 8 := by injection ho'
      have hmm : m₁ = m' := by injection ho'
      have : k' = k := by omega
      subst this hmm
      exact ⟨args', h2⟩

theorem keep_sem (k : Nat) (args : List Val) (m : M) (r : Option (Val × M)) :
    (after P tab).sem (16 * k) args m r ↔ (llvm P tab).sem k args m r := old_sem args m r

/-- C81 fails for functions whose name contains `__SMACK_`, anywhere: whatever the options, the function after the pass does what it
did before, and no overflow in it is reported. -/
theorem c81_smack_name_fails (hn : o.smackName = true) : ∃ fn', pass tab o base fn = some fn' ∧
    ∀ (ρ : Env Val) (m : M) (v : Option Val) (m' : M), Run (llvm P tab) fn 0 ρ m (.ret v m') → Run (after P tab) fn' 0 ρ m (.ret v m') := by
  refine ⟨fn.map fun b => { b with body := b.body.map fun i => ⟨i.dst, 16 * i.op, i.args⟩ }, by unfold pass; rw [hn]; rfl, ?_⟩
  have hexec : ∀ (is : List (Instr Val)) (ρ ρ₁ : Env Val) (m m₁ : M), Exec (llvm P tab) is ρ m ρ₁ m₁ →
      Exec (after P tab) (is.map fun i => ⟨i.dst, 16 * i.op, i.args⟩) ρ m ρ₁ m₁ := by
    intro is ρ ρ₁ m m₁ h
    induction h with
    | nil => exact .nil _ _
    | cons i is ρ m v m' ρ₂ m₂ hs _ ih => exact .cons _ _ ρ m v m' ρ₂ m₂ ((keep_sem i.op _ _ _).2 hs) ih
  intro ρ m v m'
  generalize hout : Outcome.ret v m' = out
  generalize (0 : Nat) = b
  intro h
  have hget : ∀ {b : Nat} {blk : Block Val}, fn[b]? = some blk →
      (fn.map fun b => ({ b with body := b.body.map fun i => ⟨i.dst, 16 * i.op, i.args⟩ } : Block Val))[b]? =
        some { blk with body := blk.body.map fun i => ⟨i.dst, 16 * i.op, i.args⟩ } := by
    intro b blk hb; rw [List.getElem?_map, hb]; rfl
  induction h with
  | fail b blk ρ m out hb hf =>
    subst hout
    exfalso
    have : ∀ (is : List (Instr Val)) (ρ : Env Val) (m : M) (out : Outcome Val M), ExecFail (llvm P tab) is ρ m out →
        out ≠ Outcome.ret v m' := by
      intro is ρ m out h
      induction h with
      | here => simp
      | there _ _ _ _ _ _ _ _ _ ih => exact ih
    exact this _ _ _ _ hf rfl
  | leave b blk ρ m ρ₁ m₁ out hb he hl =>
    exact .leave b _ ρ m ρ₁ m₁ out (hget hb) (hexec _ _ _ _ _ he) (by rw [← hl]; cases blk.term <;> rfl)
  | step b blk ρ m ρ₁ m₁ t blk' out hb he hn ht _ ih =>
    exact .step b _ ρ m ρ₁ m₁ t _ out (hget hb) (hexec _ _ _ _ _ he) (by rw [← hn]; cases blk.term <;> rfl) (hget ht) (ih hout)

end

/-! ## An example: `r = x + y` in 8 bits with a UBSan branch -/

namespace Ex

def tab : Table
  | 0 => .ovf .add true 8
  | 1 => .extract [0]
  | 2 => .extract [1]
  | 3 => .ubsan
  | _ => .other

def fn : Fn Val :=
  [⟨[], [⟨some 2, 0, [.var 0, .var 1]⟩, ⟨some 3, 1, [.var 2]⟩, ⟨some 4, 2, [.var 2]⟩], .cbr (.var 4) 1 2⟩,
   ⟨[], [⟨some 5, 3, []⟩], .br 2⟩,
   ⟨[⟨6, [(0, .var 3), (1, .var 3)]⟩], [], .ret (some (.var 6))⟩]

def params : Params Val Unit where
  one := .word 1 1#1
  exn := fun _ => false
  setExn := fun _ m => m
  setExnVal := fun _ m => m
  sem := fun _ _ m r => r = some (.other 0, m)

theorem ssa : Ssa fn := ssaB_ssa (by decide +kernel)

theorem mem {b : Nat} {blk : Block Val} (h : fn[b]? = some blk) :
    (b = 0 ∧ fn[0]? = some blk) ∨ (b = 1 ∧ fn[1]? = some blk) ∨ (b = 2 ∧ fn[2]? = some blk) := by
  match b with
  | 0 => exact .inl ⟨rfl, h⟩
  | 1 => exact .inr (.inl ⟨rfl, h⟩)
  | 2 => exact .inr (.inr ⟨rfl, h⟩)
  | b + 3 => simp [fn] at h

theorem shape : Shape tab 10 fn where
  ovf := by
    intro b blk i op s bits hb hi ht
    rcases mem hb with ⟨rfl, h⟩ | ⟨rfl, h⟩ | ⟨rfl, h⟩ <;> simp [fn] at h <;> subst h <;> simp at hi
    · rcases hi with rfl | rfl | rfl <;> simp [tab] at ht
      exact ⟨⟨2, .var 0, .var 1, rfl, rfl⟩, by omega⟩
    · subst hi; simp [tab] at ht
  numbered := by
    intro b blk i hb hi ht
    rcases mem hb with ⟨rfl, h⟩ | ⟨rfl, h⟩ | ⟨rfl, h⟩ <;> simp [fn] at h <;> subst h <;> simp at hi
    · rcases hi with rfl | rfl | rfl <;> exact ⟨_, rfl⟩
    · subst hi; exact ⟨_, rfl⟩
  dstLt := by
    rintro x d ⟨blk, hb, h⟩
    rcases mem hb with ⟨rfl, hk⟩ | ⟨rfl, hk⟩ | ⟨rfl, hk⟩ <;> simp [fn] at hk <;> subst hk <;> simp [dsts] at h <;> show (x : Nat) < 10 <;>
      rcases h with rfl | rfl | rfl <;> decide
  argLt := by
    intro b blk i hb hi u hu
    rcases mem hb with ⟨rfl, h⟩ | ⟨rfl, h⟩ | ⟨rfl, h⟩ <;> simp [fn] at h <;> subst h <;> simp at hi
    · rcases hi with rfl | rfl | rfl <;> simp at hu
      · rcases hu with rfl | rfl <;> simp [OpdIs]
      · subst hu; simp [OpdIs]
      · subst hu; simp [OpdIs]
    · subst hi; simp at hu
  termLt := by
    intro b blk hb u hu
    rcases mem hb with ⟨rfl, h⟩ | ⟨rfl, h⟩ | ⟨rfl, h⟩ <;> simp [fn] at h <;> subst h <;> simp [Term.uses] at hu <;> subst hu <;> simp [OpdIs]
  phiLt := by
    intro b blk hb p hp q hq
    rcases mem hb with ⟨rfl, h⟩ | ⟨rfl, h⟩ | ⟨rfl, h⟩ <;> simp [fn] at h <;> subst h <;> simp at hp
    subst hp
    simp at hq
    rcases hq with rfl | rfl <;> simp [OpdIs]

/-- The function after the pass, with checking. -/
theorem passed (ov ck : Bool) : (pass tab ⟨ov, ck, false⟩ 10 fn).isSome = true :=
  by cases ov <;> cases ck <;> decide +kernel

def env (x y : BitVec 8) : Env Val
  | 0 => .word 8 x
  | 1 => .word 8 y
  | _ => .other 7

def b0 : Block Val :=
  ⟨[], [⟨some 2, 0, [.var 0, .var 1]⟩, ⟨some 3, 1, [.var 2]⟩, ⟨some 4, 2, [.var 2]⟩], .cbr (.var 4) 1 2⟩

def b2 : Block Val := ⟨[⟨6, [(0, .var 3), (1, .var 3)]⟩], [], .ret (some (.var 6))⟩

/-- 100 + 100 does not fit. -/
theorem fails : Run (required params tab true true) fn 0 (env 100#8 100#8) () (.fail 0 [.word 8 100#8, .word 8 100#8] ()) := by
  refine Run.fail 0 b0 _ _ _ rfl (ExecFail.here (⟨some 2, 0, [.var 0, .var 1]⟩ : Instr Val) _ _ _ ?_)
  show ∃ fits v, Intrinsic .add true 8 _ fits v ∧ _
  exact ⟨false, _, ⟨100#8, 100#8, rfl, by decide, rfl⟩, rfl⟩

/-- 3 + 4 fits, and 7 is returned. -/
theorem returns (ov ck : Bool) : Run (required params tab ov ck) fn 0 (env 3#8 4#8) () (.ret (some (.word 8 7#8)) ()) := by
  have h1 : Exec (required params tab ov ck) b0.body (env 3#8 4#8) ()
      (setOpt (setOpt (setOpt (env 3#8 4#8) (some 2) (.pair 8 7#8 false)) (some 3) (.word 8 7#8)) (some 4) (.word 1 0#1)) () := by
    refine Exec.cons (⟨some 2, 0, [.var 0, .var 1]⟩ : Instr Val) _ _ _ (.pair 8 7#8 false) () _ _ ?_ ?_
    · show ∃ fits v, Intrinsic .add true 8 _ fits v ∧ _
      exact ⟨true, .pair 8 7#8 false, ⟨3#8, 4#8, rfl, by decide, rfl⟩, by cases ov <;> cases ck <;> rfl⟩
    refine Exec.cons (⟨some 3, 1, [.var 2]⟩ : Instr Val) _ _ _ (.word 8 7#8) () _ _ ?_ ?_
    · rfl
    refine Exec.cons (⟨some 4, 2, [.var 2]⟩ : Instr Val) _ _ _ (.word 1 0#1) () _ _ ?_ (.nil _ _)
    rfl
  exact Run.step 0 b0 _ () _ () 2 b2 _ rfl h1 rfl rfl (Run.leave 2 b2 _ _ _ _ _ rfl (.nil _ _) rfl)

end Ex

example : Ssa Ex.fn ∧ Shape Ex.tab 10 Ex.fn ∧ (∀ ov ck, (pass Ex.tab ⟨ov, ck, false⟩ 10 Ex.fn).isSome = true) ∧
    Run (required Ex.params Ex.tab true true) Ex.fn 0 (Ex.env 100#8 100#8) () (.fail 0 [.word 8 100#8, .word 8 100#8] ()) ∧
    (∀ ov ck, Run (required Ex.params Ex.tab ov ck) Ex.fn 0 (Ex.env 3#8 4#8) () (.ret (some (.word 8 7#8)) ())) :=
  ⟨Ex.ssa, Ex.shape, Ex.passed, Ex.fails, Ex.returns⟩

/-- C81 fails in functions that are not checked: there is a function that returns in LLVM, for an operation that is no call of an
intrinsic, and has no execution at all after the pass with overflow checking, because the call of a UBSan handler ends the path
silently. -/
theorem c81_ubsan_unchecked_fails : ∃ (fn fn' : Fn Val), Ssa fn ∧ pass Ex.tab ⟨true, false, false⟩ 10 fn = some fn' ∧
    ∀ ρ : Env Val, Run (llvm Ex.params Ex.tab) fn 0 ρ () (.ret none ()) ∧ ∀ out, ¬ Run (after Ex.params Ex.tab) fn' 0 ρ () out := by
  refine ⟨[⟨[], [⟨some 5, 3, []⟩], .ret none⟩], _, ssaB_ssa (by decide +kernel), rfl, ?_⟩
  intro ρ
  refine ⟨.leave 0 _ ρ () _ () _ rfl (.cons (⟨some 5, 3, []⟩ : Instr Val) _ _ _ (.other 0) () _ _ (show some (Val.other 0, ()) = some (Val.other 0, ()) from rfl) (.nil _ _)) rfl, ?_⟩
  intro out h
  have h1 : ∀ ρ₁ m₁, ¬ Exec (after Ex.params Ex.tab) (expandUbsan ⟨true, false, false⟩ 10 3 5) ρ () ρ₁ m₁ := fun _ _ => ubsan_exec rfl
  have h2 : ∀ out, ¬ ExecFail (after Ex.params Ex.tab) (expandUbsan ⟨true, false, false⟩ 10 3 5) ρ () out := by
    intro out hf
    have := (ubsan_fail (M := Unit) (P := Ex.params) (tab := Ex.tab) (o := ⟨true, false, false⟩) (base := 10) (k := 3) (d := 5) rfl).1 hf
    simp at this
  cases h with
  | fail b blk ρ m out hb hf =>
    simp only [List.map_cons, List.getElem?_cons_zero, Option.some.injEq] at hb
    subst hb
    exact h2 _ hf
  | leave b blk ρ m ρ₁ m₁ out hb he =>
    simp only [List.map_cons, List.getElem?_cons_zero, Option.some.injEq] at hb
    subst hb
    exact h1 _ _ he
  | step b blk ρ m ρ₁ m₁ t blk' out hb he =>
    simp only [List.map_cons, List.getElem?_cons_zero, Option.some.injEq] at hb
    subst hb
    exact h1 _ _ he

/-- C81 fails when the pair itself is used, here by being returned: the pass erases an instruction that has uses. -/
theorem c81_erased_use_fails : ∃ fn : Fn Val, Ssa fn ∧ Shape Ex.tab 10 fn ∧ ∀ ov ck, pass Ex.tab ⟨ov, ck, false⟩ 10 fn = none := by
  refine ⟨[⟨[], [⟨some 2, 0, [.var 0, .var 1]⟩], .ret (some (.var 2))⟩], ssaB_ssa (by decide +kernel), ?_, ?_⟩
  · have mem : ∀ {b : Nat} {blk : Block Val}, ([⟨[], [⟨some 2, 0, [.var 0, .var 1]⟩], .ret (some (.var 2))⟩] : Fn Val)[b]? = some blk →
        b = 0 ∧ blk = ⟨[], [⟨some 2, 0, [.var 0, .var 1]⟩], .ret (some (.var 2))⟩ := by
      intro b blk h
      cases b with
      | zero => simp at h; exact ⟨rfl, h.symm⟩
      | succ b => simp at h
    refine ⟨?_, ?_, ?_, ?_, ?_, ?_⟩
    · intro b blk i op s bits hb hi ht
      obtain ⟨_, rfl⟩ := mem hb
      simp at hi; subst hi
      simp [Ex.tab] at ht
      exact ⟨⟨2, .var 0, .var 1, rfl, rfl⟩, by omega⟩
    · intro b blk i hb hi _
      obtain ⟨_, rfl⟩ := mem hb
      simp at hi; subst hi
      exact ⟨_, rfl⟩
    · rintro x d ⟨blk, hb, h⟩
      obtain ⟨_, rfl⟩ := mem hb
      simp [dsts] at h
      subst h; show (2 : Nat) < 10; decide
    · intro b blk i hb hi u hu
      obtain ⟨_, rfl⟩ := mem hb
      simp at hi; subst hi
      simp at hu
      rcases hu with rfl | rfl <;> simp [OpdIs]
    · intro b blk hb u hu
      obtain ⟨_, rfl⟩ := mem hb
      simp [Term.uses] at hu
      subst hu; simp [OpdIs]
    · intro b blk hb p hp
      obtain ⟨_, rfl⟩ := mem hb
      simp at hp
  · intro ov ck; rfl

end Smack.OvfPass
