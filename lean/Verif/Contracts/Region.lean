import Verif.Contracts.Expr

namespace Smack.Contracts

open Spec

variable {S : Type} {I : Interp S}

/-- The region, entered at `b` in state `s` with no effects, is left to `nxt`. -/
inductive Leaves (I : Interp S) (R : List Block) (nxt : Name) (s : S) : Name → List (Kind × Bool) → Prop
  | last {b B} : find R b = some B → next I B.term s = some nxt → Leaves I R nxt s b (trace I B.instrs s)
  | go {b B b' tr} : find R b = some B → next I B.term s = some b' → Leaves I R nxt s b' tr → Leaves I R nxt s b (trace I B.instrs s ++ tr)

theorem trace_none {l : List Instr} (h : ∀ k a, Instr.contract k a ∉ l) (s : S) : trace I l s = [] := by
  induction l generalizing s with
  | nil => rfl
  | cons i r ih =>
    cases i with
    | contract k a => exact absurd (List.mem_cons_self ..) (h k a)
    | op x => exact ih (fun k a hm => h k a (List.mem_cons_of_mem _ hm)) _

theorem trace_last {x : List Instr} {k : Kind} {a : Nat} (h : ∀ k a, Instr.contract k a ∉ x) (s : S) :
    trace I (x ++ [.contract k a]) s = [(k, I.test a (exec I x s))] := by
  rw [trace_append, trace_none h]
  rfl

/-- With no effects, the value of a contract expression is true or that of its argument. -/
theorem eval_pure {R : List Block} {ii : Name} {Bi : Block} {x : List Instr} {k : Kind} {a : Nat} (hr : Ready R)
    (hi : find R ii = some Bi) (ei : Bi.instrs = x ++ [.contract k a]) (ht : Bi.term ≠ .ret) (hp : ∀ B ∈ R, ∀ s, exec I B.instrs s = s)
    {b : Name} {s : S} {v : Bool} (h : Eval I (exprFn R ii) b s v) : v = true ∨ v = I.test a s := by
  have hx : ∀ s, exec I x s = s := by
    intro s
    have := hp Bi (find_some hi).1 s
    rw [ei, exec_contract] at this
    exact this
  have path : ∀ {b c : Name} {s s1 : S}, Path I R ii b s c s1 → s1 = s := by
    intro b c s s1 h
    induction h with
    | refl => rfl
    | step hf _ _ _ ih => rw [ih, hp _ (find_some hf).1]
  rcases exprValue_of_eval hr hi ei ht rfl h with ⟨s1, B', x', k', a', h1, hf, e', rfl⟩ | ⟨h, _⟩
  · rw [hi] at hf; cases hf
    rw [ei] at e'
    have e2 := List.append_inj' e' rfl
    cases e2.2
    rw [← e2.1, hx, path h1]
    exact .inr rfl
  · exact .inl h

theorem leaves_eval {R : List Block} {nxt : Name} {s : S} {b : Name} {tr : List (Kind × Bool)} (hr : Ready R)
    (hp : ∀ B ∈ R, ∀ s, exec I B.instrs s = s) (hout : find R nxt = none) (h : Leaves I R nxt s b tr) {ii : Name} {Bi : Block} {x : List Instr}
    {k : Kind} {a : Nat} (hi : find R ii = some Bi) (ei : Bi.instrs = x ++ [.contract k a]) (ht : Bi.term ≠ .ret) :
    ∃ v, Eval I (exprFn R ii) b s v ∧ (v = false → ∃ c ∈ tr, c.2 = false) := by
  have hx : ∀ s, exec I x s = s := by
    intro s
    have := hp Bi (find_some hi).1 s
    rw [ei, exec_contract] at this
    exact this
  have self : ∀ {b B}, find R b = some B → b = ii → ∃ v, Eval I (exprFn R ii) b s v ∧ (v = false → ∃ c ∈ trace I B.instrs s, c.2 = false) := by
    rintro b B hf rfl
    rw [hi] at hf; cases hf
    refine ⟨_, (eval_self hr hi ei ht).2 rfl, fun hv => ?_⟩
    rw [ei, trace_last (ready_contract (ready_one hr (find_some hi).1) ei)]
    exact ⟨_, List.mem_singleton.2 rfl, hv⟩
  induction h with
  | @last b B hf hn =>
    by_cases hb : b = ii
    · exact self hf hb
    · refine ⟨true, ?_, nofun⟩
      have hB := hp B (find_some hf).1 s
      exact (eval_step hr hf hb (by rw [hB]; exact hn)).2 (by rw [hB]; exact (eval_out hout).2 rfl)
  | @go b B b' tr hf hn _ ih =>
    by_cases hb : b = ii
    · obtain ⟨v, h1, h2⟩ := self hf hb
      refine ⟨v, h1, fun hv => ?_⟩
      obtain ⟨c, hc, h3⟩ := h2 hv
      exact ⟨c, List.mem_append_left _ hc, h3⟩
    · obtain ⟨v, h1, h2⟩ := ih
      have hB := hp B (find_some hf).1 s
      refine ⟨v, (eval_step hr hf hb (by rw [hB]; exact hn)).2 (by rw [hB]; exact h1), fun hv => ?_⟩
      obtain ⟨c, hc, h3⟩ := h2 hv
      exact ⟨c, List.mem_append_right _ hc, h3⟩

/-- A contract call of a ready block. -/
theorem trace_mem {B : Block} (hr : Ready [B]) {s : S} {c : Kind × Bool} (hc : c ∈ trace I B.instrs s) :
    ∃ x k a, B.instrs = x ++ [.contract k a] ∧ c = (k, I.test a (exec I x s)) := by
  rcases hr B (by simp) with h | ⟨x, k, a, e, h⟩
  · rw [trace_none h] at hc; cases hc
  · rw [e, trace_last h] at hc
    exact ⟨x, k, a, e, List.mem_singleton.1 hc⟩

theorem leaves_false {R : List Block} {nxt : Name} {s : S} {b : Name} {tr : List (Kind × Bool)} (hr : Ready R) (hnr : ∀ B ∈ R, B.term ≠ .ret)
    (hp : ∀ B ∈ R, ∀ s, exec I B.instrs s = s) (h : Leaves I R nxt s b tr) {c : Kind × Bool} (hc : c ∈ tr) (hv : c.2 = false) :
    ∃ ii Bi x k a, find R ii = some Bi ∧ Bi.instrs = x ++ [.contract k a] ∧ Eval I (exprFn R ii) b s false := by
  have self : ∀ {b B}, find R b = some B → c ∈ trace I B.instrs s →
      ∃ ii Bi x k a, find R ii = some Bi ∧ Bi.instrs = x ++ [.contract k a] ∧ Eval I (exprFn R ii) b s false := by
    intro b B hf hc
    obtain ⟨x, k, a, e, rfl⟩ := trace_mem (ready_one hr (find_some hf).1) hc
    exact ⟨b, B, x, k, a, hf, e, (eval_self hr hf e (hnr B (find_some hf).1)).2 hv.symm⟩
  induction h with
  | last hf hn => exact self hf hc
  | @go b B b' tr hf hn _ ih =>
    rcases List.mem_append.1 hc with hc | hc
    · exact self hf hc
    · obtain ⟨ii, Bi, x, k, a, hi, e, he⟩ := ih hc
      have hm := (find_some hi).1
      refine ⟨ii, Bi, x, k, a, hi, e, ?_⟩
      by_cases hb : b = ii
      · subst hb
        have h1 := eval_pure hr hi e (hnr Bi hm) hp he
        have hx : exec I x s = s := by
          have := hp Bi hm s
          rw [e, exec_contract] at this
          exact this
        rw [eval_self hr hi e (hnr Bi hm), hx]
        rcases h1 with h1 | h1
        · cases h1
        · exact h1
      · have hB := hp B (find_some hf).1 s
        exact (eval_step hr hf hb (by rw [hB]; exact hn)).2 (by rw [hB]; exact he)

/-- Evaluation is deterministic. -/
theorem eval_det {G : List EBlock} {b : Name} {s : S} {v w : Bool} (h1 : Eval I G b s v) : Eval I G b s w → v = w := by
  induction h1 with
  | out h =>
    intro h'
    cases h' with
    | out => rfl
    | retTrue h2 _ => rfl
    | retArg h2 _ => rw [h] at h2; cases h2
    | br h2 _ _ => rw [h] at h2; cases h2
    | cond h2 _ _ => rw [h] at h2; cases h2
  | retTrue h ht =>
    intro h'
    cases h' with
    | out => rfl
    | retTrue h2 _ => rfl
    | retArg h2 h3 => rw [h] at h2; cases h2; rw [ht] at h3; cases h3
    | br h2 h3 _ => rw [h] at h2; cases h2; rw [ht] at h3; cases h3
    | cond h2 h3 _ => rw [h] at h2; cases h2; rw [ht] at h3; cases h3
  | retArg h ht =>
    intro h'
    cases h' with
    | out h2 => rw [h] at h2; cases h2
    | retTrue h2 h3 => rw [h] at h2; cases h2; rw [ht] at h3; cases h3
    | retArg h2 h3 => rw [h] at h2; cases h2; rw [ht] at h3; cases h3; rfl
    | br h2 h3 _ => rw [h] at h2; cases h2; rw [ht] at h3; cases h3
    | cond h2 h3 _ => rw [h] at h2; cases h2; rw [ht] at h3; cases h3
  | br h ht _ ih =>
    intro h'
    cases h' with
    | out h2 => rw [h] at h2; cases h2
    | retTrue h2 h3 => rw [h] at h2; cases h2; rw [ht] at h3; cases h3
    | retArg h2 h3 => rw [h] at h2; cases h2; rw [ht] at h3; cases h3
    | br h2 h3 h4 => rw [h] at h2; cases h2; rw [ht] at h3; cases h3; exact ih h4
    | cond h2 h3 _ => rw [h] at h2; cases h2; rw [ht] at h3; cases h3
  | cond h ht _ ih =>
    intro h'
    cases h' with
    | out h2 => rw [h] at h2; cases h2
    | retTrue h2 h3 => rw [h] at h2; cases h2; rw [ht] at h3; cases h3
    | retArg h2 h3 => rw [h] at h2; cases h2; rw [ht] at h3; cases h3
    | br h2 h3 _ => rw [h] at h2; cases h2; rw [ht] at h3; cases h3
    | cond h2 h3 h4 => rw [h] at h2; cases h2; rw [ht] at h3; cases h3; exact ih h4

theorem vals_exist {R R' : List Block} {nxt e : Name} {s : S} {tr : List (Kind × Bool)} (hr : Ready R) (hnd : (R.map (·.name)).Nodup)
    (hnr : ∀ B ∈ R, B.term ≠ .ret) (hp : ∀ B ∈ R, ∀ s, exec I B.instrs s = s) (hout : find R nxt = none) (h : Leaves I R nxt s e tr)
    (hsub : ∀ B ∈ R', B ∈ R) : ∃ vs, Vals I R e s (clauses R') vs ∧ (AllTrue tr → AllTrue vs) ∧
      ∀ B ∈ R', ∀ x k a, B.instrs = x ++ [.contract k a] → Eval I (exprFn R B.name) e s false → ¬ AllTrue vs := by
  induction R' with
  | nil =>
    refine ⟨[], .nil, fun _ c h => ?_, fun B hB => ?_⟩
    · cases h
    · cases hB
  | cons B R' ih =>
    obtain ⟨vs, h1, h2, h3⟩ := ih (fun C hC => hsub C (List.mem_cons_of_mem _ hC))
    have hB := hsub B (List.mem_cons_self ..)
    rcases hr B hB with hno | ⟨x, k, a, e', hno⟩
    · refine ⟨vs, ?_, h2, ?_⟩
      · unfold clauses at h1 ⊢
        rw [List.filterMap_cons]
        simp only [findContract_none hno]
        exact h1
      · intro C hC x k a e1
        rcases List.mem_cons.1 hC with rfl | hC
        · exact absurd (by rw [e1]; simp) (hno k a)
        · exact h3 C hC x k a e1
    · have hf := find_mem hnd hB
      obtain ⟨v, hv, hv'⟩ := leaves_eval hr hp hout h hf e' (hnr B hB)
      refine ⟨(k, v) :: vs, ?_, ?_, ?_⟩
      · unfold clauses at h1 ⊢
        rw [List.filterMap_cons]
        simp only [e', findContract_last hno]
        exact .cons hv h1
      · intro ht c hc
        rcases List.mem_cons.1 hc with rfl | hc
        · cases hvv : v with
          | true => rfl
          | false =>
            obtain ⟨c, hc, h4⟩ := hv' hvv
            rw [ht c hc] at h4; cases h4
        · exact h2 ht c hc
      · intro C hC x' k' a' e1 he hall
        rcases List.mem_cons.1 hC with rfl | hC
        · have hd : v = false := eval_det hv he
          have := hall (k, v) (List.mem_cons_self ..)
          rw [hd] at this; cases this
        · exact h3 C hC x' k' a' e1 he (fun c hc => hall c (List.mem_cons_of_mem _ hc))

theorem allTrue_append {a b : List (Kind × Bool)} : AllTrue (a ++ b) ↔ AllTrue a ∧ AllTrue b := by
  unfold AllTrue
  constructor
  · exact fun h => ⟨fun c hc => h c (List.mem_append_left _ hc), fun c hc => h c (List.mem_append_right _ hc)⟩
  · rintro ⟨h1, h2⟩ c hc
    rcases List.mem_append.1 hc with hc | hc
    · exact h1 c hc
    · exact h2 c hc

theorem xfind_entry (F R' : List Block) (B : Block) (nxt : Name) :
    xfind (extracted F (B :: R') nxt) B.name = some (.clauses B.name (clauses (B :: R')) nxt) := by
  unfold xfind extracted
  rw [List.find?_cons]
  simp [XBlock.nm]

theorem xfind_other {F R : List Block} {e nxt b : Name} {B : Block} (hnd : ((splitFn F).map (·.name)).Nodup)
    (hx : Extractable I (splitFn F) R e nxt) (hb : ∀ B' ∈ R, B'.name ≠ b) (hf : find (splitFn F) b = some B) :
    xfind (extracted F R nxt) b = some (.block B) := by
  obtain ⟨B0, R', rfl, h0⟩ := hx.entry
  obtain ⟨hm, hn⟩ := find_some hf
  unfold xfind extracted
  have hne : ¬ (B0.name = b) := hb B0 (List.mem_cons_self ..)
  rw [List.find?_cons]
  simp only [XBlock.nm, hne, decide_false]
  have gen : ∀ L : List Block, (L.map (·.name)).Nodup → B ∈ L →
      List.find? (fun b_1 => decide (XBlock.nm b_1 = b)) ((L.filter fun b => !((B0 :: R').map (·.name)).contains b.name).map XBlock.block) =
        some (.block B) := by
    intro L hL hB
    induction L with
    | nil => cases hB
    | cons c L ih =>
      rw [List.map_cons, List.nodup_cons] at hL
      rcases List.mem_cons.1 hB with rfl | hB
      · have hcon : ((B0 :: R').map (·.name)).contains B.name = false := by
          rw [Bool.eq_false_iff]
          intro h
          obtain ⟨C, hC, e1⟩ := List.mem_map.1 (List.contains_iff_mem.1 h)
          exact hb C hC (e1.trans hn)
        rw [List.filter_cons, if_pos (by rw [hcon]; rfl), List.map_cons, List.find?_cons]
        simp [XBlock.nm, hn]
      · have hcb : ¬ (c.name = b) := fun h => hL.1 (List.mem_map.2 ⟨B, hB, hn.trans h.symm⟩)
        rw [List.filter_cons]
        split
        · rw [List.map_cons, List.find?_cons]
          simp only [XBlock.nm, hcb, decide_false]
          exact ih hL.2 hB
        · exact ih hL.2 hB
  exact gen _ hnd hm

end Smack.Contracts
