import Verif.Contracts.Lemmas

namespace Smack.Contracts

open Spec

variable {S : Type} {I : Interp S}

theorem setReturn_name (ii : Name) (b : Block) : (setReturn ii b).name = b.name := by
  unfold setReturn
  split
  · rfl
  · cases findContract b.instrs with
    | none => rfl
    | some p => rfl

theorem efind_exprFn (R : List Block) (ii n : Name) : efind (exprFn R ii) n = (find R n).map (setReturn ii) := by
  unfold efind find exprFn
  induction R with
  | nil => rfl
  | cons b R ih =>
    rw [List.map_cons, List.find?_cons, List.find?_cons, setReturn_name]
    by_cases h : b.name = n
    · simp [h]
    · simp only [h, decide_false]
      exact ih

theorem findContract_none {l : List Instr} (h : ∀ k a, Instr.contract k a ∉ l) : findContract l = none := by
  induction l with
  | nil => rfl
  | cons i r ih =>
    cases i with
    | contract k a => exact absurd (List.mem_cons_self ..) (h k a)
    | op x =>
      rw [findContract, ih (fun k a hm => h k a (List.mem_cons_of_mem _ hm))]

theorem findContract_last {x : List Instr} {k : Kind} {a : Nat} (h : ∀ k a, Instr.contract k a ∉ x) :
    findContract (x ++ [.contract k a]) = some (x, (k, a), []) := by
  induction x with
  | nil => rfl
  | cons i r ih =>
    cases i with
    | contract k' a' => exact absurd (List.mem_cons_self ..) (h k' a')
    | op y =>
      rw [List.cons_append, findContract, ih (fun k a hm => h k a (List.mem_cons_of_mem _ hm))]

theorem exec_contract (x : List Instr) (k : Kind) (a : Nat) (s : S) : exec I (x ++ [.contract k a]) s = exec I x s := by
  rw [exec_append]; rfl

/-- A block other than the one of the invocation, which does not return, behaves as before. -/
theorem setReturn_other {ii : Name} {b : Block} (hr : Ready [b]) (hn : b.name ≠ ii) (ht : b.term ≠ .ret) :
    (setReturn ii b).term = b.term.plain ∧ ∀ s, exec I (setReturn ii b).instrs s = exec I b.instrs s := by
  unfold setReturn
  rw [if_neg ht]
  rcases hr b (by simp) with h | ⟨x, k, a, e, h⟩
  · rw [findContract_none h]
    exact ⟨rfl, fun _ => rfl⟩
  · rw [e, findContract_last h]
    simp only [if_neg hn, List.append_nil]
    exact ⟨trivial, fun s => (exec_contract x k a s).symm⟩

theorem setReturn_self {b : Block} {x : List Instr} {k : Kind} {a : Nat} (e : b.instrs = x ++ [.contract k a])
    (h : ∀ k a, Instr.contract k a ∉ x) (ht : b.term ≠ .ret) : setReturn b.name b = ⟨b.name, x, .retArg a⟩ := by
  unfold setReturn
  rw [if_neg ht, e, findContract_last h]
  simp

theorem ready_one {R : List Block} (h : Ready R) {b : Block} (hb : b ∈ R) : Ready [b] := by
  intro c hc
  rw [List.mem_singleton.1 hc]
  exact h b hb

theorem ready_contract {b : Block} (h : Ready [b]) {x : List Instr} {k : Kind} {a : Nat} (e : b.instrs = x ++ [.contract k a]) :
    ∀ k a, Instr.contract k a ∉ x := by
  rcases h b (by simp) with h | ⟨x', k', a', e', h⟩
  · exact absurd (by rw [e]; simp) (h k a)
  · rw [e] at e'
    have := List.append_inj' e' rfl
    rw [this.1]
    exact h

/-- One step of a contract expression. -/
theorem eval_step {R : List Block} {ii b b' : Name} {B : Block} {s : S} {v : Bool} (hr : Ready R) (hf : find R b = some B) (hn : b ≠ ii)
    (hnext : next I B.term (exec I B.instrs s) = some b') :
    Eval I (exprFn R ii) b s v ↔ Eval I (exprFn R ii) b' (exec I B.instrs s) v := by
  obtain ⟨hm, e⟩ := find_some hf
  have ht : B.term ≠ .ret := by
    intro h; rw [h] at hnext; cases hnext
  obtain ⟨h1, h2⟩ := setReturn_other (I := I) (ii := ii) (ready_one hr hm) (by rw [e]; exact hn) ht
  have hef : efind (exprFn R ii) b = some (setReturn ii B) := by rw [efind_exprFn, hf]; rfl
  rw [← h2 s]
  rw [← h2 s] at hnext
  cases hterm : B.term with
  | ret => exact absurd hterm ht
  | br d =>
    rw [hterm] at h1 hnext
    cases hnext
    constructor
    · intro h
      cases h with
      | out h' => rw [hef] at h'; cases h'
      | retTrue h' h'' => rw [hef] at h'; cases h'; rw [h1] at h''; cases h''
      | retArg h' h'' => rw [hef] at h'; cases h'; rw [h1] at h''; cases h''
      | br h' h'' h3 => rw [hef] at h'; cases h'; rw [h1] at h''; cases h''; exact h3
      | cond h' h'' h3 => rw [hef] at h'; cases h'; rw [h1] at h''; cases h''
    · intro h
      exact .br hef h1 h
  | cond c t f =>
    rw [hterm] at h1 hnext
    cases hnext
    constructor
    · intro h
      cases h with
      | out h' => rw [hef] at h'; cases h'
      | retTrue h' h'' => rw [hef] at h'; cases h'; rw [h1] at h''; cases h''
      | retArg h' h'' => rw [hef] at h'; cases h'; rw [h1] at h''; cases h''
      | br h' h'' h3 => rw [hef] at h'; cases h'; rw [h1] at h''; cases h''
      | cond h' h'' h3 => rw [hef] at h'; cases h'; rw [h1] at h''; cases h''; exact h3
    · intro h
      exact .cond hef h1 h

theorem eval_ret {R : List Block} {ii b : Name} {B : Block} {s : S} {v : Bool} (hf : find R b = some B) (ht : B.term = .ret) :
    Eval I (exprFn R ii) b s v ↔ v = true := by
  have hef : efind (exprFn R ii) b = some (setReturn ii B) := by rw [efind_exprFn, hf]; rfl
  have h1 : (setReturn ii B).term = .retTrue := by unfold setReturn; rw [if_pos ht]
  constructor
  · intro h
    cases h with
    | out h' => rfl
    | retTrue h' h'' => rfl
    | retArg h' h'' => rw [hef] at h'; cases h'; rw [h1] at h''; cases h''
    | br h' h'' h3 => rw [hef] at h'; cases h'; rw [h1] at h''; cases h''
    | cond h' h'' h3 => rw [hef] at h'; cases h'; rw [h1] at h''; cases h''
  · rintro rfl
    exact .retTrue hef h1

theorem eval_out {R : List Block} {ii b : Name} {s : S} {v : Bool} (hf : find R b = none) : Eval I (exprFn R ii) b s v ↔ v = true := by
  have hef : efind (exprFn R ii) b = none := by rw [efind_exprFn, hf]; rfl
  constructor
  · intro h
    cases h with
    | out h' => rfl
    | retTrue h' h'' => rfl
    | retArg h' h'' => rw [hef] at h'; cases h'
    | br h' h'' h3 => rw [hef] at h'; cases h'
    | cond h' h'' h3 => rw [hef] at h'; cases h'
  · rintro rfl
    exact .out hef

theorem eval_self {R : List Block} {ii : Name} {B : Block} {s : S} {v : Bool} {x : List Instr} {k : Kind} {a : Nat} (hr : Ready R)
    (hf : find R ii = some B) (e : B.instrs = x ++ [.contract k a]) (ht : B.term ≠ .ret) :
    Eval I (exprFn R ii) ii s v ↔ v = I.test a (exec I x s) := by
  obtain ⟨hm, e'⟩ := find_some hf
  have hef : efind (exprFn R ii) ii = some ⟨ii, x, .retArg a⟩ := by
    rw [efind_exprFn, hf, ← e']
    exact congrArg some (setReturn_self e (ready_contract (ready_one hr hm) e) ht)
  constructor
  · intro h
    cases h with
    | out h' => rw [hef] at h'; cases h'
    | retTrue h' h'' => rw [hef] at h'; cases h'; cases h''
    | retArg h' h'' => rw [hef] at h'; cases h'; cases h''; rfl
    | br h' h'' h3 => rw [hef] at h'; cases h'; cases h''
    | cond h' h'' h3 => rw [hef] at h'; cases h'; cases h''
  · rintro rfl
    exact .retArg hef rfl

theorem exprValue_step {R : List Block} {ii b b' : Name} {B : Block} {s : S} {v : Bool} (hf : find R b = some B) (hn : b ≠ ii)
    (hnext : next I B.term (exec I B.instrs s) = some b') :
    ExprValue I R ii b s v ↔ ExprValue I R ii b' (exec I B.instrs s) v := by
  have key : ∀ c s1, (c = ii ∨ (c ≠ ii ∧ (find R c = none ∨ ∃ B, find R c = some B ∧ B.term = .ret))) →
      (Path I R ii b s c s1 ↔ Path I R ii b' (exec I B.instrs s) c s1) := by
    intro c s1 hc
    constructor
    · intro h
      cases h with
      | refl =>
        rcases hc with hc | ⟨_, hc | ⟨B', hc, ht⟩⟩
        · exact absurd hc hn
        · rw [hf] at hc; cases hc
        · rw [hf] at hc; cases hc; rw [ht] at hnext; cases hnext
      | step hf' _ hn' h =>
        rw [hf] at hf'; cases hf'
        rw [hnext] at hn'; cases hn'
        exact h
    · exact fun h => .step hf hn hnext h
  unfold ExprValue
  constructor
  · rintro (⟨s1, B', x, k, a, h, h'⟩ | ⟨hv, c, s1, h, h1, h2⟩)
    · exact .inl ⟨s1, B', x, k, a, (key _ _ (.inl rfl)).1 h, h'⟩
    · exact .inr ⟨hv, c, s1, (key _ _ (.inr ⟨h1, h2⟩)).1 h, h1, h2⟩
  · rintro (⟨s1, B', x, k, a, h, h'⟩ | ⟨hv, c, s1, h, h1, h2⟩)
    · exact .inl ⟨s1, B', x, k, a, (key _ _ (.inl rfl)).2 h, h'⟩
    · exact .inr ⟨hv, c, s1, (key _ _ (.inr ⟨h1, h2⟩)).2 h, h1, h2⟩

theorem next_none {t : Term} {s : S} (h : next I t s = none) : t = .ret := by
  cases t with
  | ret => rfl
  | br b => cases h
  | cond c a b => cases h

theorem exprValue_of_eval {R : List Block} {ii : Name} {Bi : Block} {x : List Instr} {k : Kind} {a : Nat} (hr : Ready R)
    (hi : find R ii = some Bi) (ei : Bi.instrs = x ++ [.contract k a]) (ht : Bi.term ≠ .ret) {G : List EBlock} (hG : G = exprFn R ii)
    {e : Name} {s : S} {v : Bool} (h : Eval I G e s v) : ExprValue I R ii e s v := by
  have step : ∀ {b : Name} {s : S} {v : Bool}, Eval I G b s v → ¬ (b = ii) → (∀ B, find R b = some B → B.term ≠ .ret →
      ∃ b', next I B.term (exec I B.instrs s) = some b' ∧ ExprValue I R ii b' (exec I B.instrs s) v) → ExprValue I R ii b s v := by
    intro b s v h hb hs
    cases hf : find R b with
    | none =>
      subst hG
      rw [eval_out hf] at h
      exact .inr ⟨h, b, s, .refl _ _, hb, .inl hf⟩
    | some B =>
      by_cases hB : B.term = .ret
      · subst hG
        rw [eval_ret hf hB] at h
        exact .inr ⟨h, b, s, .refl _ _, hb, .inr ⟨B, hf, hB⟩⟩
      · obtain ⟨b', h1, h2⟩ := hs B hf hB
        exact (exprValue_step hf hb h1).2 h2
  have self : ∀ {s : S} {v : Bool}, Eval I G ii s v → ExprValue I R ii ii s v := by
    intro s v h
    subst hG
    rw [eval_self hr hi ei ht] at h
    exact .inl ⟨s, Bi, x, k, a, .refl _ _, hi, ei, h⟩
  -- the induction hypothesis for the next block
  have nextOf : ∀ {b : Name} {B : Block} {s : S}, find R b = some B → B.term ≠ .ret → b ≠ ii → ∀ {E : EBlock}, efind G b = some E →
      E.term = B.term.plain ∧ exec I E.instrs s = exec I B.instrs s := by
    intro b B s hf hB hb E hE
    subst hG
    rw [efind_exprFn, hf] at hE
    cases hE
    obtain ⟨hm, e⟩ := find_some hf
    obtain ⟨h1, h2⟩ := setReturn_other (I := I) (ii := ii) (ready_one hr hm) (by rw [e]; exact hb) hB
    exact ⟨h1, h2 s⟩
  induction h with
  | @out b s hf =>
    by_cases hb : b = ii
    · subst hb; exact self (.out hf)
    · refine step (.out hf) hb ?_
      intro B hB _
      subst hG
      rw [efind_exprFn, hB] at hf
      cases hf
  | @retTrue b E s hf ht' =>
    by_cases hb : b = ii
    · subst hb; exact self (.retTrue hf ht')
    · refine step (.retTrue hf ht') hb ?_
      intro B hB hnr
      have := (nextOf (s := s) hB hnr hb hf).1
      rw [ht'] at this
      cases hbt : B.term <;> rw [hbt] at this <;> first | exact absurd hbt hnr | cases this
  | @retArg b E s a' hf ht' =>
    by_cases hb : b = ii
    · subst hb; exact self (.retArg hf ht')
    · refine step (.retArg hf ht') hb ?_
      intro B hB hnr
      have := (nextOf (s := s) hB hnr hb hf).1
      rw [ht'] at this
      cases hbt : B.term <;> rw [hbt] at this <;> cases this
  | @br b E s b' v hf ht' h ih =>
    by_cases hb : b = ii
    · subst hb; exact self (.br hf ht' h)
    · refine step (.br hf ht' h) hb ?_
      intro B hB hnr
      obtain ⟨h1, h2⟩ := nextOf (s := s) hB hnr hb hf
      rw [ht'] at h1
      cases hbt : B.term with
      | ret => exact absurd hbt hnr
      | br d =>
        rw [hbt] at h1; cases h1
        exact ⟨b', rfl, h2 ▸ ih⟩
      | cond c t f => rw [hbt] at h1; cases h1
  | @cond b E s c t f v hf ht' h ih =>
    by_cases hb : b = ii
    · subst hb; exact self (.cond hf ht' h)
    · refine step (.cond hf ht' h) hb ?_
      intro B hB hnr
      obtain ⟨h1, h2⟩ := nextOf (s := s) hB hnr hb hf
      rw [ht'] at h1
      cases hbt : B.term with
      | ret => exact absurd hbt hnr
      | br d => rw [hbt] at h1; cases h1
      | cond c' t' f' =>
        rw [hbt] at h1; cases h1
        rw [h2] at ih
        exact ⟨_, rfl, ih⟩

theorem eval_of_exprValue {R : List Block} {ii : Name} {Bi : Block} {x : List Instr} {k : Kind} {a : Nat} (hr : Ready R)
    (hi : find R ii = some Bi) (ei : Bi.instrs = x ++ [.contract k a]) (ht : Bi.term ≠ .ret)
    {e : Name} {s : S} {v : Bool} (h : ExprValue I R ii e s v) : Eval I (exprFn R ii) e s v := by
  have key : ∀ {b c : Name} {s s1 : S}, Path I R ii b s c s1 → Eval I (exprFn R ii) c s1 v → Eval I (exprFn R ii) b s v := by
    intro b c s s1 hp he
    induction hp with
    | refl => exact he
    | step hf hn hnext _ ih => exact (eval_step hr hf hn hnext).2 (ih he)
  rcases h with ⟨s1, B', x', k', a', hp, hf, e', rfl⟩ | ⟨rfl, c, s1, hp, hc, hf | ⟨B, hf, hB⟩⟩
  · rw [hi] at hf; cases hf
    exact key hp ((eval_self hr hi e' ht).2 rfl)
  · exact key hp ((eval_out hf).2 rfl)
  · exact key hp ((eval_ret hf hB).2 rfl)

end Smack.Contracts
