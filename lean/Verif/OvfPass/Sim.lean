import Verif.OvfPass.Lemmas

namespace Smack.OvfPass

open Smack.Cfg Smack.Cfg.Spec Smack.OvfPass.Spec Smack.Overflow

variable {M : Type} {P : Params Val M} {tab : Table} {fn : Fn Val} {base : Nat} {o : Opts}

/-! ## Positions -/

/-- The i-th instruction of block b. -/
def At (fn : Fn Val) (b i : Nat) (ins : Instr Val) : Prop := ∃ blk : Block Val, fn[b]? = some blk ∧ blk.body[i]? = some ins

theorem nodup_dst {l : List (Instr Val)} (h : (dsts l).Nodup) {i j : Nat} {a b : Instr Val} {x : Var} (hi : l[i]? = some a)
    (hj : l[j]? = some b) (ha : a.dst = some x) (hb : b.dst = some x) : i = j := by
  induction l generalizing i j with
  | nil => simp at hi
  | cons c l ih =>
    have hmem : ∀ {k : Nat} {e : Instr Val}, l[k]? = some e → e.dst = some x → x ∈ dsts l := by
      intro k e hk he
      exact List.mem_filterMap.2 ⟨e, List.mem_of_getElem? hk, he⟩
    cases i with
    | zero =>
      cases j with
      | zero => rfl
      | succ j =>
        simp only [List.getElem?_cons_zero, Option.some.injEq] at hi
        subst hi
        have hx : dsts (c :: l) = x :: dsts l := by simp [dsts, ha]
        rw [hx] at h
        exact absurd (hmem (by simpa using hj) hb) (List.nodup_cons.1 h).1
    | succ i =>
      cases j with
      | zero =>
        simp only [List.getElem?_cons_zero, Option.some.injEq] at hj
        subst hj
        have hx : dsts (c :: l) = x :: dsts l := by simp [dsts, hb]
        rw [hx] at h
        exact absurd (hmem (by simpa using hi) ha) (List.nodup_cons.1 h).1
      | succ j =>
        have hl : (dsts l).Nodup := by
          unfold dsts at h ⊢
          rw [List.filterMap_cons] at h
          cases hc : c.dst with
          | none => rw [hc] at h; exact h
          | some y => rw [hc] at h; exact (List.nodup_cons.1 h).2
        exact congrArg (· + 1) (ih hl (by simpa using hi) (by simpa using hj))

theorem At.defIn {b i : Nat} {ins : Instr Val} (h : At fn b i ins) {x : Var} (hx : ins.dst = some x) : DefIn fn x b := by
  obtain ⟨blk, hb, hi⟩ := h
  exact ⟨blk, hb, .inr (List.mem_filterMap.2 ⟨ins, List.mem_of_getElem? hi, hx⟩)⟩

theorem At.unique (hs : Ssa fn) {b i b' i' : Nat} {ins ins' : Instr Val} (h : At fn b i ins) (h' : At fn b' i' ins') {x : Var}
    (hx : ins.dst = some x) (hx' : ins'.dst = some x) : b = b' ∧ i = i' ∧ ins = ins' := by
  have hbb := hs.unique x b b' (h.defIn hx) (h'.defIn hx')
  subst hbb
  obtain ⟨blk, hb, hi⟩ := h
  obtain ⟨blk', hb', hi'⟩ := h'
  rw [hb] at hb'
  cases hb'
  have := nodup_dst (List.nodup_append.1 (hs.nodup b blk hb)).2.1 hi hi' hx hx'
  subst this
  rw [hi] at hi'
  cases hi'
  exact ⟨rfl, rfl, rfl⟩

/-- A variable that is defined at a position and available at another. -/
theorem At.avail (hs : Ssa fn) {b i b' i' : Nat} {ins : Instr Val} (h : At fn b' i' ins) {x : Var} (hx : ins.dst = some x)
    (ha : Avail fn b i x) : (b' ≠ b ∧ Dom fn b' b) ∨ (b' = b ∧ i' < i) := by
  rcases ha b' (h.defIn hx) with h1 | ⟨rfl, blk, hb, h1⟩
  · exact .inl h1
  · refine .inr ⟨rfl, ?_⟩
    obtain ⟨blk', hb', hi'⟩ := h
    rw [hb] at hb'
    cases hb'
    have hn := List.nodup_append.1 (hs.nodup b' blk hb)
    have hxb : x ∈ dsts blk.body := List.mem_filterMap.2 ⟨ins, List.mem_of_getElem? hi', hx⟩
    rcases h1 with h1 | h1
    · exact absurd rfl (hn.2.2 x h1 x hxb)
    · obtain ⟨e, he, hex⟩ := List.mem_filterMap.1 h1
      obtain ⟨k, hk, hke⟩ := List.getElem_of_mem he
      have hlen : k < i := by
        have := hk; rw [List.length_take] at this; omega
      have hk' : blk.body[k]? = some e := by
        rw [← hke, List.getElem_take]
        exact List.getElem?_eq_getElem _
      have := nodup_dst hn.2.1 hi' hk' hx hex
      omega

/-- The variable is not defined by a phi node. -/
theorem At.not_phi (hs : Ssa fn) {b i : Nat} {ins : Instr Val} (h : At fn b i ins) {x : Var} (hx : ins.dst = some x) {t : Nat}
    {blk : Block Val} (ht : fn[t]? = some blk) : x ∉ blk.phis.map (·.var) := by
  intro hm
  have := hs.unique x b t (h.defIn hx) ⟨blk, ht, .inl hm⟩
  subst this
  obtain ⟨blk', hb', hi'⟩ := h
  rw [ht] at hb'
  cases hb'
  exact absurd rfl ((List.nodup_append.1 (hs.nodup b blk ht)).2.2 x hm x (List.mem_filterMap.2 ⟨ins, List.mem_of_getElem? hi', hx⟩))

/-- Of two different blocks, of which one is reachable, one can be reached without the other. -/
theorem avoid_or {b e : Nat} (hr : Reach fn b) (hne : b ≠ e) : Avoid fn e b ∨ Avoid fn b e := by
  have key : ∀ y, Reach fn y → (Avoid fn e b ∨ Avoid fn b e) ∨ (y ≠ b ∧ Avoid fn e y ∧ Avoid fn b y) := by
    intro y hy
    induction hy with
    | entry =>
      by_cases h1 : 0 = b
      · left; left; subst h1; exact .entry hne
      · by_cases h2 : 0 = e
        · left; right; subst h2; exact .entry h1
        · right; exact ⟨h1, .entry h2, .entry h1⟩
    | step y t _ he ih =>
      rcases ih with h | ⟨_, ha, hb⟩
      · exact .inl h
      · by_cases h1 : t = b
        · left; left; subst h1; exact .step y t ha he hne
        · by_cases h2 : t = e
          · left; right; subst h2; exact .step y t hb he h1
          · right; exact ⟨h1, .step y t ha he h2, .step y t hb he h1⟩
  rcases key b hr with h | h
  · exact h
  · exact absurd rfl h.1

/-! ## The replaced variables -/

theorem isOvf_iff {d : Var} : isOvf tab fn d = true ↔ ∃ b i ins op s bits, At fn b i ins ∧ ins.dst = some d ∧ tab ins.op = .ovf op s bits := by
  unfold isOvf
  rw [List.any_eq_true]
  constructor
  · rintro ⟨ins, hm, h⟩
    obtain ⟨blk, hblk, hi⟩ := List.mem_flatMap.1 hm
    obtain ⟨b, hb, hbe⟩ := List.getElem_of_mem hblk
    obtain ⟨i, hi', hie⟩ := List.getElem_of_mem hi
    simp only [Bool.and_eq_true, beq_iff_eq] at h
    cases ht : tab ins.op with
    | ovf op s bits =>
      refine ⟨b, i, ins, op, s, bits, ⟨blk, ?_, ?_⟩, h.1, ht⟩
      · rw [← hbe]; exact List.getElem?_eq_getElem _
      · rw [← hie]; exact List.getElem?_eq_getElem _
    | extract idx => rw [ht] at h; simp at h
    | ubsan => rw [ht] at h; simp at h
    | other => rw [ht] at h; simp at h
  · rintro ⟨b, i, ins, op, s, bits, ⟨blk, hb, hi⟩, hd, ht⟩
    refine ⟨ins, List.mem_flatMap.2 ⟨blk, List.mem_of_getElem? hb, List.mem_of_getElem? hi⟩, ?_⟩
    simp [hd, ht]

/-- What a replaced instruction looks like. -/
theorem replacement_some {ins : Instr Val} {y : Var} (h : replacement tab base fn ins = some y) :
    ∃ d, ins.args = [.var d] ∧ isOvf tab fn d = true ∧
      ((tab ins.op = .extract [0] ∧ y = newVar base d 3) ∨ (tab ins.op = .extract [1] ∧ y = newVar base d 6)) := by
  unfold replacement at h
  split at h
  · rename_i d h1 h2
    split at h
    · rename_i ho; cases h; exact ⟨d, h2, ho, .inl ⟨h1, rfl⟩⟩
    · simp at h
  · rename_i d h1 h2
    split at h
    · rename_i ho; cases h; exact ⟨d, h2, ho, .inr ⟨h1, rfl⟩⟩
    · simp at h
  · simp at h

theorem replacement_not_ovf {ins : Instr Val} {op : Overflow.Op} {s : Bool} {bits : Nat} (h : tab ins.op = .ovf op s bits) :
    replacement tab base fn ins = none := by
  unfold replacement; rw [h]

theorem substVar_at (hs : Ssa fn) {b i : Nat} {ins : Instr Val} (h : At fn b i ins) {x : Var} (hx : ins.dst = some x) :
    substVar tab base fn x = (replacement tab base fn ins).getD x := by
  unfold substVar
  cases hf : (fn.flatMap (·.body)).find? (fun i => i.dst == some x) with
  | none =>
    exfalso
    obtain ⟨blk, hb, hi⟩ := h
    have := List.find?_eq_none.1 hf ins (List.mem_flatMap.2 ⟨blk, List.mem_of_getElem? hb, List.mem_of_getElem? hi⟩)
    simp [hx] at this
  | some j =>
    have h1 := List.find?_some hf
    have h2 := List.mem_of_find?_eq_some hf
    obtain ⟨blk, hblk, hi⟩ := List.mem_flatMap.1 h2
    obtain ⟨b', hb', hbe⟩ := List.getElem_of_mem hblk
    obtain ⟨i', hi', hie⟩ := List.getElem_of_mem hi
    have hat : At fn b' i' j := ⟨blk, by rw [← hbe]; exact List.getElem?_eq_getElem _, by rw [← hie]; exact List.getElem?_eq_getElem _⟩
    have hj : j.dst = some x := by simpa using h1
    obtain ⟨_, _, rfl⟩ := h.unique hs hat hx hj
    simp only
    cases replacement tab base fn ins <;> rfl

theorem substVar_undef {x : Var} (h : ∀ b i ins, At fn b i ins → ins.dst ≠ some x) : substVar tab base fn x = x := by
  unfold substVar
  cases hf : (fn.flatMap (·.body)).find? (fun i => i.dst == some x) with
  | none => rfl
  | some j =>
    exfalso
    have h1 := List.find?_some hf
    have h2 := List.mem_of_find?_eq_some hf
    obtain ⟨blk, hblk, hi⟩ := List.mem_flatMap.1 h2
    obtain ⟨b', hb', hbe⟩ := List.getElem_of_mem hblk
    obtain ⟨i', hi', hie⟩ := List.getElem_of_mem hi
    exact h b' i' j ⟨blk, by rw [← hbe]; exact List.getElem?_eq_getElem _, by rw [← hie]; exact List.getElem?_eq_getElem _⟩ (by simpa using h1)

theorem substVar_new (hsh : Shape tab base fn) (d j : Nat) : substVar tab base fn (newVar base d j) = newVar base d j := by
  apply substVar_undef
  intro b i ins h hx
  have := hsh.dstLt _ _ (h.defIn hx)
  have h2 : base + 16 * d + j < base := this
  omega

/-! ## The relation between the environments -/

/-- The pair and its replaced components. -/
def PairSync (base : Nat) (ρ ρ' : Env Val) (d : Var) : Prop :=
  ∃ w v f, ρ d = .pair w v f ∧ ρ' (newVar base d 3) = .word w v ∧ ρ' (newVar base d 6) = .word 1 (BitVec.ofBool f)

/-- Before the i-th instruction of block b. -/
structure Inv (tab : Table) (base : Nat) (fn : Fn Val) (b i : Nat) (ρ ρ' : Env Val) : Prop where
  same : ∀ x, x < base → (∀ b' i' ins, At fn b' i' ins → ins.dst = some x →
    (∀ op s bits, tab ins.op ≠ .ovf op s bits) ∧ replacement tab base fn ins = none) → ρ' x = ρ x
  pairs : ∀ b' i' ins d op s bits, At fn b' i' ins → ins.dst = some d → tab ins.op = .ovf op s bits →
    PairSync base ρ ρ' d ∨ (b' ≠ b ∧ Avoid fn b' b) ∨ (b' = b ∧ i ≤ i')
  comps : ∀ b' i' ins e y, At fn b' i' ins → ins.dst = some e → replacement tab base fn ins = some y →
    ρ' y = ρ e ∨ (b' ≠ b ∧ Avoid fn b' b) ∨ (b' = b ∧ i ≤ i')

theorem Inv.use (hs : Ssa fn) {b i : Nat} {ρ ρ' : Env Val} (h : Inv tab base fn b i ρ ρ') {u : Opd Val}
    (ha : OpdIs (Avail fn b i) u) (hl : OpdIs (· < base) u) (hno : ∀ d, u = .var d → isOvf tab fn d = false) :
    eval ρ' (substOpd tab base fn u) = eval ρ u := by
  cases u with
  | const v => rfl
  | var x =>
    simp only [substOpd, eval]
    by_cases hdef : ∃ b' i' ins, At fn b' i' ins ∧ ins.dst = some x
    · obtain ⟨b', i', ins, hat, hx⟩ := hdef
      rw [substVar_at hs hat hx]
      cases hr : replacement tab base fn ins with
      | none =>
        refine h.same x hl ?_
        intro b'' i'' ins' hat' hx'
        obtain ⟨_, _, rfl⟩ := hat.unique hs hat' hx hx'
        refine ⟨?_, hr⟩
        intro op s bits ht
        have := isOvf_iff.2 ⟨b', i', ins, op, s, bits, hat, hx, ht⟩
        rw [hno x rfl] at this
        exact Bool.noConfusion this
      | some y =>
        simp only [Option.getD_some]
        rcases h.comps b' i' ins x y hat hx hr with h1 | ⟨h1, h2⟩ | ⟨h1, h2⟩
        · exact h1
        · rcases hat.avail hs hx ha with ⟨_, h3⟩ | ⟨h3, _⟩
          · exact absurd h2 h3
          · exact absurd h3 h1
        · rcases hat.avail hs hx ha with ⟨h3, _⟩ | ⟨_, h4⟩
          · exact absurd h1 h3
          · omega
    · have hnd : ∀ b i ins, At fn b i ins → ins.dst ≠ some x := fun b i ins h1 h2 => hdef ⟨b, i, ins, h1, h2⟩
      rw [substVar_undef hnd]
      exact h.same x hl (fun b' i' ins h1 h2 => absurd h2 (hnd b' i' ins h1))

theorem Inv.pair (hs : Ssa fn) {b i : Nat} {ρ ρ' : Env Val} (h : Inv tab base fn b i ρ ρ') {d : Var}
    (ha : Avail fn b i d) (ho : isOvf tab fn d = true) : PairSync base ρ ρ' d := by
  obtain ⟨b', i', ins, op, s, bits, hat, hd, ht⟩ := isOvf_iff.1 ho
  rcases h.pairs b' i' ins d op s bits hat hd ht with h1 | ⟨h1, h2⟩ | ⟨h1, h2⟩
  · exact h1
  · rcases hat.avail hs hd ha with ⟨_, h3⟩ | ⟨h3, _⟩
    · exact absurd h2 h3
    · exact absurd h3 h1
  · rcases hat.avail hs hd ha with ⟨h3, _⟩ | ⟨_, h4⟩
    · exact absurd h1 h3
    · omega

theorem PairSync.congr {ρ ρ' ρ₁ ρ₁' : Env Val} {d : Var} (h : PairSync base ρ ρ' d) (h1 : ρ₁ d = ρ d)
    (h2 : ρ₁' (newVar base d 3) = ρ' (newVar base d 3)) (h3 : ρ₁' (newVar base d 6) = ρ' (newVar base d 6)) :
    PairSync base ρ₁ ρ₁' d := by
  obtain ⟨w, v, f, a, b, c⟩ := h
  exact ⟨w, v, f, h1.trans a, h2.trans b, h3.trans c⟩

theorem new_ge (d j : Nat) : base ≤ newVar base d j := by unfold newVar; omega

theorem replacement_ge {ins : Instr Val} {y : Var} (h : replacement tab base fn ins = some y) : base ≤ y := by
  obtain ⟨d, _, _, ⟨_, rfl⟩ | ⟨_, rfl⟩⟩ := replacement_some h <;> exact new_ge _ _

theorem setOpt_none (ρ : Env Val) (v : Val) : setOpt ρ none v = ρ := rfl

/-- An instruction that stays. -/
theorem Inv.plain (hs : Ssa fn) (hsh : Shape tab base fn) {b i : Nat} {ρ ρ' : Env Val} (h : Inv tab base fn b i ρ ρ')
    {ins : Instr Val} (hat : At fn b i ins) (hno : ∀ op s bits, tab ins.op ≠ .ovf op s bits)
    (hr : replacement tab base fn ins = none) (v : Val) :
    Inv tab base fn b (i + 1) (setOpt ρ ins.dst v) (setOpt ρ' ins.dst v) := by
  have hnew : ∀ y, base ≤ y → setOpt ρ' ins.dst v y = ρ' y := by
    intro y hy
    cases hd : ins.dst with
    | none => rfl
    | some x =>
      have hx : x < base := hsh.dstLt _ _ (hat.defIn hd)
      exact set_ne _ (by intro e; rw [e] at hy; exact absurd hx (Nat.not_lt.2 hy)) _
  have hold : ∀ b' i' ins' x, At fn b' i' ins' → ins'.dst = some x →
      ((∃ op s bits, tab ins'.op = .ovf op s bits) ∨ ∃ y, replacement tab base fn ins' = some y) →
      setOpt ρ ins.dst v x = ρ x ∧ (b' = b ∧ i ≤ i' → b' = b ∧ i + 1 ≤ i') := by
    intro b' i' ins' x hat' hx' hsp
    have hdiff : ins ≠ ins' := by
      rintro rfl
      rcases hsp with ⟨op, s, bits, h1⟩ | ⟨y, h1⟩
      · exact hno op s bits h1
      · rw [hr] at h1; simp at h1
    refine ⟨?_, ?_⟩
    · cases hd : ins.dst with
      | none => rfl
      | some z =>
        refine set_ne _ ?_ _
        rintro rfl
        exact hdiff (hat.unique hs hat' hd hx').2.2
    · rintro ⟨rfl, h1⟩
      refine ⟨rfl, ?_⟩
      by_cases he : i = i'
      · subst he
        obtain ⟨blk, hb, hi⟩ := hat
        obtain ⟨blk', hb', hi'⟩ := hat'
        rw [hb] at hb'; cases hb'
        rw [hi] at hi'; cases hi'
        exact absurd rfl hdiff
      · omega
  refine ⟨?_, ?_, ?_⟩
  · intro x hx hsp
    cases hd : ins.dst with
    | none => exact h.same x hx hsp
    | some z =>
      by_cases hxz : x = z
      · subst hxz; rw [set_self, set_self]
      · rw [set_ne _ hxz, set_ne _ hxz]; exact h.same x hx hsp
  · intro b' i' ins' d op s bits hat' hd' ht'
    obtain ⟨h1, h2⟩ := hold b' i' ins' d hat' hd' (.inl ⟨op, s, bits, ht'⟩)
    rcases h.pairs b' i' ins' d op s bits hat' hd' ht' with h3 | h3 | h3
    · exact .inl (h3.congr h1 (hnew _ (new_ge _ _)) (hnew _ (new_ge _ _)))
    · exact .inr (.inl h3)
    · exact .inr (.inr (h2 h3))
  · intro b' i' ins' e y hat' hd' hr'
    obtain ⟨h1, h2⟩ := hold b' i' ins' e hat' hd' (.inr ⟨y, hr'⟩)
    rcases h.comps b' i' ins' e y hat' hd' hr' with h3 | h3 | h3
    · left; rw [h1, hnew _ (replacement_ge hr')]; exact h3
    · exact .inr (.inl h3)
    · exact .inr (.inr (h2 h3))

theorem At.eq {b i : Nat} {ins ins' : Instr Val} (h : At fn b i ins) (h' : At fn b i ins') : ins = ins' := by
  obtain ⟨blk, hb, hi⟩ := h
  obtain ⟨blk', hb', hi'⟩ := h'
  rw [hb] at hb'; cases hb'
  rw [hi] at hi'; cases hi'
  rfl

/-- A replaced instruction. -/
theorem Inv.removed (hs : Ssa fn) {b i : Nat} {ρ ρ' : Env Val} (h : Inv tab base fn b i ρ ρ')
    {ins : Instr Val} (hat : At fn b i ins) {e y : Var} (he : ins.dst = some e)
    (hr : replacement tab base fn ins = some y) {v : Val} (hv : ρ' y = v) :
    Inv tab base fn b (i + 1) (setOpt ρ ins.dst v) ρ' := by
  rw [he]
  have hother : ∀ b' i' ins' x, At fn b' i' ins' → ins'.dst = some x → ins' ≠ ins → setOpt ρ (some e) v x = ρ x := by
    intro b' i' ins' x hat' hx' hne
    refine set_ne _ ?_ _
    rintro rfl
    exact hne (hat'.unique hs hat hx' he).2.2
  have hidx : ∀ b' i' ins', At fn b' i' ins' → ins' ≠ ins → b' = b ∧ i ≤ i' → b' = b ∧ i + 1 ≤ i' := by
    rintro b' i' ins' hat' hne ⟨rfl, h1⟩
    refine ⟨rfl, ?_⟩
    by_cases hii : i = i'
    · subst hii; exact absurd (hat'.eq hat) hne
    · omega
  refine ⟨?_, ?_, ?_⟩
  · intro x hx hsp
    have hxe : x ≠ e := by
      rintro rfl
      have := (hsp b i ins hat he).2
      rw [hr] at this; simp at this
    rw [set_ne _ hxe]
    exact h.same x hx hsp
  · intro b' i' ins' d op s bits hat' hd' ht'
    have hne : ins' ≠ ins := by
      rintro rfl
      rw [replacement_not_ovf ht'] at hr; simp at hr
    rcases h.pairs b' i' ins' d op s bits hat' hd' ht' with h3 | h3 | h3
    · exact .inl (h3.congr (hother _ _ _ _ hat' hd' hne) rfl rfl)
    · exact .inr (.inl h3)
    · exact .inr (.inr (hidx _ _ _ hat' hne h3))
  · intro b' i' ins' e' y' hat' hd' hr'
    by_cases hne : ins' = ins
    · subst hne
      rw [he] at hd'; cases hd'
      rw [hr] at hr'; cases hr'
      left; rw [set_self, hv]
    · rcases h.comps b' i' ins' e' y' hat' hd' hr' with h3 | h3 | h3
      · left; rw [hother _ _ _ _ hat' hd' hne]; exact h3
      · exact .inr (.inl h3)
      · exact .inr (.inr (hidx _ _ _ hat' hne h3))

theorem newVar_diff {d d' j j' : Nat} (h : d ≠ d') (hj : j < 16) (hj' : j' < 16) : newVar base d j ≠ newVar base d' j' := by
  intro e
  have e' : base + 16 * d + j = base + 16 * d' + j' := e
  omega

/-- A call of an intrinsic. -/
theorem Inv.ovf (hs : Ssa fn) {b i : Nat} {ρ ρ' ρ₁' : Env Val} (h : Inv tab base fn b i ρ ρ')
    (hreach : Reach fn b)
    {ins : Instr Val} (hat : At fn b i ins) {d : Var} (hd : ins.dst = some d) {op : Overflow.Op} {s : Bool} {bits : Nat}
    (ht : tab ins.op = .ovf op s bits) {w : Nat} {v : BitVec w} {f : Bool}
    (hkeep : ∀ z, (∀ j, j < 8 → z ≠ newVar base d j) → ρ₁' z = ρ' z)
    (h3 : ρ₁' (newVar base d 3) = .word w v) (h6 : ρ₁' (newVar base d 6) = .word 1 (BitVec.ofBool f)) :
    Inv tab base fn b (i + 1) (setOpt ρ ins.dst (.pair w v f)) ρ₁' := by
  rw [hd]
  have hother : ∀ b' i' ins' x, At fn b' i' ins' → ins'.dst = some x → ins' ≠ ins → x ≠ d := by
    intro b' i' ins' x hat' hx' hne
    rintro rfl
    exact hne (hat'.unique hs hat hx' hd).2.2
  have hidx : ∀ b' i' ins', At fn b' i' ins' → ins' ≠ ins → b' = b ∧ i ≤ i' → b' = b ∧ i + 1 ≤ i' := by
    rintro b' i' ins' hat' hne ⟨rfl, h1⟩
    refine ⟨rfl, ?_⟩
    by_cases hii : i = i'
    · subst hii; exact absurd (hat'.eq hat) hne
    · omega
  have hold : ∀ d' j', d' ≠ d → j' < 8 → ρ₁' (newVar base d' j') = ρ' (newVar base d' j') := by
    intro d' j' hne hj'
    exact hkeep _ (fun j hj => newVar_diff hne (by omega) (by omega))
  refine ⟨?_, ?_, ?_⟩
  · intro x hx hsp
    have hxd : x ≠ d := by
      rintro rfl
      exact (hsp b i ins hat hd).1 op s bits ht
    rw [set_ne _ hxd, hkeep]
    · exact h.same x hx hsp
    · intro j _ e
      rw [e] at hx
      exact absurd hx (Nat.not_lt.2 (new_ge _ _))
  · intro b' i' ins' d' op' s' bits' hat' hd' ht'
    by_cases hne : ins' = ins
    · subst hne
      rw [hd] at hd'; cases hd'
      exact .inl ⟨w, v, f, set_self _ _ _, h3, h6⟩
    · have hdd := hother _ _ _ _ hat' hd' hne
      rcases h.pairs b' i' ins' d' op' s' bits' hat' hd' ht' with h4 | h4 | h4
      · exact .inl (h4.congr (set_ne _ hdd _) (hold _ _ hdd (by omega)) (hold _ _ hdd (by omega)))
      · exact .inr (.inl h4)
      · exact .inr (.inr (hidx _ _ _ hat' hne h4))
  · intro b' i' ins' e y hat' hd' hr'
    have hne : ins' ≠ ins := by
      rintro rfl
      rw [replacement_not_ovf ht] at hr'; simp at hr'
    have hed := hother _ _ _ _ hat' hd' hne
    obtain ⟨d', hargs, _, hy⟩ := replacement_some hr'
    by_cases hdd : d' = d
    · subst hdd
      obtain ⟨blk', hb', hi'⟩ := hat'
      have hav : Avail fn b' i' d' := hs.body b' blk' i' ins' hb' hi' (.var d') (by rw [hargs]; exact List.mem_singleton.2 rfl)
      rcases hat.avail hs hd hav with ⟨h4, h5⟩ | ⟨h4, h5⟩
      · right; left
        refine ⟨fun e => h4 e.symm, ?_⟩
        rcases avoid_or hreach h4 with h6 | h6
        · exact h6
        · exact absurd h6 h5
      · right; right
        exact ⟨h4.symm, by omega⟩
    · have hyk : ρ₁' y = ρ' y := by
        rcases hy with ⟨_, rfl⟩ | ⟨_, rfl⟩
        · exact hold _ _ hdd (by omega)
        · exact hold _ _ hdd (by omega)
      rcases h.comps b' i' ins' e y hat' hd' hr' with h4 | h4 | h4
      · left; rw [set_ne _ hed, hyk]; exact h4
      · exact .inr (.inl h4)
      · exact .inr (.inr (hidx _ _ _ hat' hne h4))

/-! ## Blocks -/

/-- The code made for an instruction. -/
abbrev code (tab : Table) (o : Opts) (base : Nat) (fn : Fn Val) (i : Instr Val) : List (Instr Val) :=
  (expand tab o base fn i).map (substInstr tab base fn)

/-- What is used about the pass not failing: the operands of an instruction that stays are not results of intrinsics. -/
def NoPairUse (tab : Table) (base : Nat) (fn : Fn Val) : Prop :=
  (∀ b i ins, At fn b i ins → replacement tab base fn ins = none → ∀ u ∈ ins.args, ∀ d, u = .var d → isOvf tab fn d = false) ∧
  (∀ (b : Nat) (blk : Block Val), fn[b]? = some blk → ∀ u ∈ Term.uses blk.term, ∀ d, u = .var d → isOvf tab fn d = false) ∧
  (∀ (b : Nat) (blk : Block Val), fn[b]? = some blk → ∀ p ∈ blk.phis, ∀ q ∈ p.inc, ∀ d, q.2 = .var d → isOvf tab fn d = false)

theorem args_eq (hs : Ssa fn) (hsh : Shape tab base fn) (hu : NoPairUse tab base fn) {b i : Nat} {ρ ρ' : Env Val}
    (h : Inv tab base fn b i ρ ρ') {ins : Instr Val} (hat : At fn b i ins) (hr : replacement tab base fn ins = none) :
    (ins.args.map (substOpd tab base fn)).map (eval ρ') = ins.args.map (eval ρ) := by
  rw [List.map_map]
  apply List.map_congr_left
  intro u hmem
  have hat' := hat
  obtain ⟨blk, hb, hi⟩ := hat'
  exact h.use hs (hs.body b blk i ins hb hi u hmem) (hsh.argLt b blk ins hb (List.mem_of_getElem? hi) u hmem)
    (hu.1 b i ins hat hr u hmem)

/-- The cases of an instruction. -/
theorem code_cases (hsh : Shape tab base fn) (o : Opts) {b i : Nat} {ins : Instr Val} (hat : At fn b i ins) :
    (∃ op s bits d x y, tab ins.op = .ovf op s bits ∧ 1 ≤ bits ∧ ins.dst = some d ∧ ins.args = [x, y] ∧
      expand tab o base fn ins = expandOvf o base ins.op d x y) ∨
    (∃ d, tab ins.op = .ubsan ∧ o.overflow = true ∧ ins.dst = some d ∧ expand tab o base fn ins = expandUbsan o base ins.op d) ∨
    (∃ e y, ins.dst = some e ∧ replacement tab base fn ins = some y ∧ expand tab o base fn ins = []) ∨
    ((∀ op s bits, tab ins.op ≠ .ovf op s bits) ∧ replacement tab base fn ins = none ∧ (tab ins.op = .ubsan → o.overflow = false) ∧
      expand tab o base fn ins = [⟨ins.dst, 16 * ins.op, ins.args⟩]) := by
  obtain ⟨blk, hb, hi⟩ := hat
  have hm := List.mem_of_getElem? hi
  cases ht : tab ins.op with
  | ovf op s bits =>
    obtain ⟨⟨d, x, y, hd, hargs⟩, hbits⟩ := hsh.ovf b blk ins op s bits hb hm ht
    exact .inl ⟨op, s, bits, d, x, y, rfl, hbits, hd, hargs, by unfold expand; rw [ht, hd, hargs]⟩
  | ubsan =>
    obtain ⟨d, hd⟩ := hsh.numbered b blk ins hb hm (.inl ht)
    have hr : replacement tab base fn ins = none := by unfold replacement; rw [ht]
    cases ho : o.overflow with
    | true => exact .inr (.inl ⟨d, rfl, rfl, hd, by unfold expand; rw [ht, hd]; simp [ho]⟩)
    | false =>
      refine .inr (.inr (.inr ⟨by simp, hr, by simp, ?_⟩))
      unfold expand; rw [ht, hd]; simp [ho]
  | extract idx =>
    obtain ⟨d, hd⟩ := hsh.numbered b blk ins hb hm (.inr ⟨idx, ht⟩)
    cases hr : replacement tab base fn ins with
    | some y => exact .inr (.inr (.inl ⟨d, y, hd, rfl, by unfold expand; rw [ht]; simp [hr]⟩))
    | none =>
      refine .inr (.inr (.inr ⟨by simp, rfl, by simp, ?_⟩))
      unfold expand; rw [ht]; simp [hr]
  | other =>
    have hr : replacement tab base fn ins = none := by unfold replacement; rw [ht]
    refine .inr (.inr (.inr ⟨by simp, hr, by simp, ?_⟩))
    unfold expand; rw [ht]; simp [hr]

theorem required_plain {k : Nat} (h1 : ∀ op s bits, tab k ≠ .ovf op s bits) (h2 : tab k = .ubsan → o.overflow = false)
    (args : List Val) (m : M) (r : Option (Val × M)) :
    (required P tab o.overflow o.checked).sem k args m r ↔ (llvm P tab).sem k args m r := by
  unfold required
  simp only
  cases ht : tab k with
  | ovf op s bits => exact absurd ht (h1 op s bits)
  | extract idx => exact Iff.rfl
  | other => exact Iff.rfl
  | ubsan => simp only [h2 ht, llvm, ht]; rfl

theorem code_ovf (hsh : Shape tab base fn) (k d : Nat) (x y : Opd Val) :
    (expandOvf o base k d x y).map (substInstr tab base fn) =
      seven k (newVar base d) (substOpd tab base fn x) (substOpd tab base fn y) ++
        (if o.overflow && o.checked then addCheck k (newVar base d 7) 7 [.var (newVar base d 6)] else []) := by
  unfold expandOvf seven addCheck
  cases o.overflow && o.checked <;>
  simp [substInstr, substOpd, substVar_new hsh]

theorem code_ubsan (hsh : Shape tab base fn) (k d : Nat) :
    (expandUbsan o base k d).map (substInstr tab base fn) = expandUbsan o base k d := by
  unfold expandUbsan addCheck
  cases o.checked <;> simp [substInstr, substOpd, substVar_new hsh]

theorem substVar_lt_or (x : Var) : substVar tab base fn x = x ∨ ∃ d, substVar tab base fn x = newVar base d 3 ∨ substVar tab base fn x = newVar base d 6 := by
  unfold substVar
  cases (fn.flatMap (·.body)).find? (fun i => i.dst == some x) with
  | none => exact .inl rfl
  | some j =>
    simp only
    cases hr : replacement tab base fn j with
    | none => exact .inl rfl
    | some y =>
      obtain ⟨d, _, _, h⟩ := replacement_some hr
      rcases h with ⟨_, rfl⟩ | ⟨_, rfl⟩
      · exact .inr ⟨d, .inl rfl⟩
      · exact .inr ⟨d, .inr rfl⟩

theorem subst_ne_first {u : Opd Val} (hl : OpdIs (· < base) u) (d : Nat) : substOpd tab base fn u ≠ .var (newVar base d 0) := by
  cases u with
  | const v => simp [substOpd]
  | var x =>
    intro e
    simp only [substOpd, Opd.var.injEq] at e
    have hx : x < base := hl
    rcases substVar_lt_or (tab := tab) (base := base) (fn := fn) x with h | ⟨d', h | h⟩
    · rw [h] at e
      have := new_ge (base := base) d 0
      rw [← e] at this
      exact absurd hx (Nat.not_lt.2 this)
    · rw [h] at e
      have e' : base + 16 * d' + 3 = base + 16 * d + 0 := e
      omega
    · rw [h] at e
      have e' : base + 16 * d' + 6 = base + 16 * d + 0 := e
      omega

/-- The check of a computed flag. -/
theorem check_exec {k : Nat} {op : Overflow.Op} {s : Bool} {bits : Nat} (hk : tab k = .ovf op s bits) {t z : Var} {f : Bool} {ρ ρ₂ : Env Val}
    {m m₂ : M} (hf : ρ z = .word 1 (BitVec.ofBool f)) :
    Exec (after P tab) (addCheck k t 7 [.var z]) ρ m ρ₂ m₂ ↔
      f = false ∧ m₂ = m ∧ ρ₂ = setOpt ρ (some t) (.word 32 ((BitVec.ofBool f).setWidth 32)) := by
  unfold addCheck
  rw [new_cons (by omega)]
  constructor
  · rintro ⟨v, hv, h⟩
    obtain ⟨v2, hv2, h⟩ := (new_cons (by omega)).1 h
    cases h
    simp only [List.map_cons, List.map_nil, eval, hf, hk, newStep, if_true, Option.some.injEq] at hv
    subst hv
    simp only [List.map_cons, List.map_nil, eval, set_self, hk, newStep, if_true] at hv2
    cases f
    · exact ⟨rfl, rfl, rfl⟩
    · simp at hv2
  · rintro ⟨rfl, rfl, rfl⟩
    refine ⟨_, ?_, (new_cons (by omega)).2 ⟨.other 0, ?_, .nil _ _⟩⟩
    · simp only [List.map_cons, List.map_nil, eval, hf, hk, newStep, if_true]
    · simp only [List.map_cons, List.map_nil, eval, set_self, hk, newStep, if_true]
      rfl

theorem check_fail {k : Nat} {op : Overflow.Op} {s : Bool} {bits : Nat} (hk : tab k = .ovf op s bits) {t z : Var} {f : Bool} {ρ : Env Val}
    {m : M} (hf : ρ z = .word 1 (BitVec.ofBool f)) {out : Outcome Val M} :
    ExecFail (after P tab) (addCheck k t 7 [.var z]) ρ m out ↔ f = true ∧ out = .fail (16 * k + 8) [.word 32 1#32] m := by
  unfold addCheck
  rw [new_fail_cons (by omega)]
  constructor
  · rintro (⟨h, _⟩ | ⟨v, hv, h⟩)
    · exact absurd (step_not_fail h) (by omega)
    · simp only [List.map_cons, List.map_nil, eval, hf, hk, newStep, if_true, Option.some.injEq] at hv
      subst hv
      rcases (new_fail_cons (by omega)).1 h with ⟨h1, h2⟩ | ⟨_, _, h⟩
      · simp only [List.map_cons, List.map_nil, eval, set_self, hk, newStep, if_true] at h1 h2
        cases f
        · simp at h1
        · exact ⟨rfl, h2⟩
      · cases h
  · rintro ⟨rfl, rfl⟩
    refine .inr ⟨.word 32 1#32, ?_, (new_fail_cons (by omega)).2 (.inl ⟨?_, ?_⟩)⟩
    · simp only [List.map_cons, List.map_nil, eval, hf, hk, newStep, if_true]
      rfl
    · simp only [List.map_cons, List.map_nil, eval, set_self, hk, newStep, if_true]
      rfl
    · simp only [List.map_cons, List.map_nil, eval, set_self]

/-- The code for a UBSan handler never continues. -/
theorem ubsan_exec {k d : Nat} (hk : tab k = .ubsan) {ρ ρ₂ : Env Val} {m m₂ : M} :
    ¬ Exec (after P tab) (expandUbsan o base k d) ρ m ρ₂ m₂ := by
  intro h
  unfold expandUbsan at h
  obtain ⟨ρ₁, m₁, _, h⟩ := exec_append.1 h
  obtain ⟨v1, hv1, h⟩ := (new_cons (by omega)).1 h
  obtain ⟨v2, hv2, h⟩ := (new_cons (by omega)).1 h
  obtain ⟨v3, hv3, h⟩ := (new_cons (by omega)).1 h
  simp only [List.map_nil, hk, newStep, Option.some.injEq] at hv1
  subst hv1
  simp only [List.map_cons, List.map_nil, eval, set_self, hk, newStep, if_true, Option.some.injEq] at hv2
  subst hv2
  simp only [List.map_cons, List.map_nil, eval, set_self, hk, newStep, if_true] at hv3
  simp at hv3

theorem ubsan_fail {k d : Nat} (hk : tab k = .ubsan) {ρ : Env Val} {m : M} {out : Outcome Val M} :
    ExecFail (after P tab) (expandUbsan o base k d) ρ m out ↔ o.checked = true ∧ out = .fail (16 * k + 8) [.word 32 1#32] m := by
  unfold expandUbsan
  rw [fail_append]
  have hrest : ∀ ρ₁ (m₁ : M), ¬ ExecFail (after P tab) [⟨some (newVar base d 1), 16 * k + 10, []⟩,
      ⟨some (newVar base d 2), 16 * k + 11, [.var (newVar base d 1)]⟩, ⟨none, 16 * k + 12, [.var (newVar base d 2)]⟩] ρ₁ m₁ out := by
    intro ρ₁ m₁
    apply new_no_fail
    intro i hi
    simp only [List.mem_cons, List.not_mem_nil, or_false] at hi
    rcases hi with rfl | rfl | rfl <;> simp only <;> omega
  constructor
  · rintro (h | ⟨ρ₁, m₁, _, h⟩)
    · cases hc : o.checked with
      | false => rw [hc] at h; cases h
      | true =>
        rw [hc, if_pos rfl] at h
        refine ⟨rfl, ?_⟩
        unfold addCheck at h
        rcases (new_fail_cons (by omega)).1 h with ⟨h1, _⟩ | ⟨v, hv, h⟩
        · exact absurd (step_not_fail h1) (by omega)
        · simp only [List.map_nil, hk, newStep, Option.some.injEq] at hv
          subst hv
          rcases (new_fail_cons (by omega)).1 h with ⟨_, h2⟩ | ⟨_, _, h⟩
          · simp only [List.map_cons, List.map_nil, eval, set_self] at h2
            exact h2
          · cases h
    · exact absurd h (hrest _ _)
  · rintro ⟨hc, rfl⟩
    left
    rw [hc, if_pos rfl]
    unfold addCheck
    refine (new_fail_cons (by omega)).2 (.inr ⟨.word 32 1#32, ?_, (new_fail_cons (by omega)).2 (.inl ⟨?_, ?_⟩)⟩)
    · simp only [List.map_nil, hk, newStep]; rfl
    · simp only [List.map_cons, List.map_nil, eval, set_self, hk, newStep, if_true]; rfl
    · simp only [List.map_cons, List.map_nil, eval, set_self]

end Smack.OvfPass
