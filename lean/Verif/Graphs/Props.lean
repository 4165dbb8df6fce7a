import Verif.Graphs.Spec

/-
C46 (verifier code marking) and C47 (dead definition removal).
-/

namespace Smack.Graphs

theorem isVerifierFunctionCall_iff (k : Kind) : isVerifierFunctionCall k = true ↔ VerifierCall k := by
  have hp : ∀ p n : List Char, p.isPrefixOf n = true ↔ ∃ r, n = p ++ r := by
    intro p n
    rw [List.isPrefixOf_iff_prefix]
    constructor
    · rintro ⟨r, h⟩; exact ⟨r, h.symm⟩
    · rintro ⟨r, h⟩; exact ⟨r, h.symm⟩
  unfold VerifierCall
  cases k with
  | call c =>
    cases c with
    | none => simp [isVerifierFunctionCall]
    | some n =>
      simp only [isVerifierFunctionCall, Bool.or_eq_true, hp]
      constructor
      · rintro ((⟨r, h⟩ | ⟨r, h⟩) | ⟨r, h⟩)
        · exact ⟨r, Or.inl (by rw [h])⟩
        · exact ⟨r, Or.inr (Or.inl (by rw [h]))⟩
        · exact ⟨r, Or.inr (Or.inr (by rw [h]))⟩
      · rintro ⟨r, h | h | h⟩
        · exact Or.inl (Or.inl ⟨r, by simpa using h⟩)
        · exact Or.inl (Or.inr ⟨r, by simpa using h⟩)
        · exact Or.inr ⟨r, by simpa using h⟩
  | invoke c => simp [isVerifierFunctionCall]
  | other b => simp [isVerifierFunctionCall]

/-- Invariant of the marking while the operands `todo` of the current instruction are left. -/
structure Inv (g : Graph) (todo : List Nat) (s : State) : Prop where
  sound : ∀ i, s.marked i = true → VCode g i
  calls : ∀ i, i < g.size → isVerifierFunctionCall (g.kind i) = true → s.marked i = true
  work : ∀ i ∈ s.work, s.marked i = true
  pending : ∀ j, j < g.size → s.marked j = false → isCallInst (g.kind j) = false → g.users j ≠ [] →
    (∀ u ∈ g.users j, s.marked u = true) → j ∈ todo ∨ ∃ u ∈ g.users j, u ∈ s.work

theorem VCode.lt {g : Graph} {i : Nat} (h : VCode g i) : i < g.size := by
  cases h <;> assumption

theorem processOps_inv (g : Graph) (i : Nat) (hi : i < g.size) (hwf : g.WF) (js : List Nat)
    (hjs : ∀ j ∈ js, j ∈ g.operands i) (s : State) (h : Inv g js s) : Inv g [] (processOps g js s) := by
  induction js generalizing s with
  | nil => exact h
  | cons j js ih =>
    have hjs' : ∀ j' ∈ js, j' ∈ g.operands i := fun j' hj' => hjs j' (List.mem_cons_of_mem _ hj')
    rw [processOps]
    split
    · rename_i hc
      simp only [Bool.and_eq_true, Bool.not_eq_true'] at hc
      obtain ⟨⟨hm, hk⟩, hu⟩ := hc
      have hjlt := hwf.operands_lt i hi j (hjs j List.mem_cons_self)
      have hju : i ∈ g.users j := (hwf.operand_user i j hi hjlt).1 (hjs j List.mem_cons_self)
      apply ih hjs'
      constructor
      · intro x hx
        simp only [setMark] at hx
        split at hx
        · rename_i he
          subst he
          refine VCode.flow hjlt hk (List.ne_nil_of_mem hju) ?_
          intro u hu'
          exact h.sound u (List.all_eq_true.1 hu u hu')
        · exact h.sound x hx
      · intro x hx hv
        simp only [setMark]
        split
        · rfl
        · exact h.calls x hx hv
      · intro x hx
        rw [List.mem_append, List.mem_singleton] at hx
        simp only [setMark]
        split
        · rfl
        · rename_i hne
          rcases hx with hx | hx
          · exact h.work x hx
          · exact absurd hx hne
      · intro x hx hmx hkx hne hux
        simp only [setMark] at hmx hux
        split at hmx
        · cases hmx
        · rename_i hxj
          by_cases hold : ∀ u ∈ g.users x, s.marked u = true
          · rcases h.pending x hx hmx hkx hne hold with ht | ⟨u, hu1, hu2⟩
            · rcases List.mem_cons.1 ht with he | he
              · exact absurd he hxj
              · exact Or.inl he
            · exact Or.inr ⟨u, hu1, List.mem_append_left _ hu2⟩
          · have : ∃ u ∈ g.users x, s.marked u = false := by
              apply Classical.byContradiction
              intro hc
              apply hold
              intro u hu'
              cases hmu : s.marked u with
              | true => rfl
              | false => exact absurd ⟨u, hu', hmu⟩ hc
            obtain ⟨u, hu1, hu2⟩ := this
            have := hux u hu1
            rw [hu2] at this
            split at this
            · rename_i he
              exact Or.inr ⟨u, hu1, by rw [he]; simp⟩
            · cases this
    · rename_i hc
      apply ih hjs'
      refine ⟨h.sound, h.calls, h.work, ?_⟩
      intro x hx hmx hkx hne hux
      rcases h.pending x hx hmx hkx hne hux with ht | ht
      · rcases List.mem_cons.1 ht with he | he
        · exfalso
          apply hc
          subst he
          rw [hmx, hkx]
          simp only [Bool.not_false, Bool.and_true, Bool.true_and]
          exact List.all_eq_true.2 hux
        · exact Or.inl he
      · exact Or.inr ht

/-- The loop only appends to the work list, one entry per new mark. -/
theorem processOps_work (g : Graph) (js : List Nat) (s : State) :
    ∃ l, (processOps g js s).work = s.work ++ l ∧ l.Nodup ∧ (∀ x ∈ l, s.marked x = false) ∧
      (∀ x, (processOps g js s).marked x = true ↔ s.marked x = true ∨ x ∈ l) ∧ (∀ x ∈ l, x ∈ js) := by
  induction js generalizing s with
  | nil => exact ⟨[], by simp [processOps], List.nodup_nil, by simp, by simp [processOps], by simp⟩
  | cons j js ih =>
    rw [processOps]
    split
    · rename_i hc
      simp only [Bool.and_eq_true, Bool.not_eq_true'] at hc
      obtain ⟨l, h1, h2, h3, h4, h5⟩ := ih { marked := setMark s.marked j, work := s.work ++ [j] }
      have hjl : j ∉ l := by
        intro hj
        have := h3 j hj
        simp [setMark] at this
      refine ⟨j :: l, by rw [h1]; simp, List.nodup_cons.2 ⟨hjl, h2⟩, ?_, ?_, ?_⟩
      · intro x hx
        rcases List.mem_cons.1 hx with he | he
        · rw [he]; exact hc.1.1
        · have := h3 x he
          simp only [setMark] at this
          split at this
          · cases this
          · exact this
      · intro x
        rw [h4]
        simp only [setMark, List.mem_cons]
        by_cases hx : x = j
        · simp [hx]
        · simp [hx]
      · intro x hx
        rcases List.mem_cons.1 hx with he | he
        · rw [he]; exact List.mem_cons_self
        · exact List.mem_cons_of_mem _ (h5 x he)
    · obtain ⟨l, h1, h2, h3, h4, h5⟩ := ih s
      exact ⟨l, h1, h2, h3, h4, fun x hx => List.mem_cons_of_mem _ (h5 x hx)⟩

theorem round_inv (g : Graph) (hwf : g.WF) (s : State) (h : Inv g [] s) : Inv g [] (round g s) := by
  unfold round
  cases hw : s.work with
  | nil => exact h
  | cons i rest =>
    have hi : i < g.size := (h.sound i (h.work i (by rw [hw]; exact List.mem_cons_self))).lt
    dsimp only
    have h1 : Inv g (g.operands i) { s with work := rest } := by
      refine ⟨h.sound, h.calls, fun x hx => h.work x (by rw [hw]; exact List.mem_cons_of_mem _ hx), ?_⟩
      intro j hj hm hk hne hu
      rcases h.pending j hj hm hk hne hu with ht | ⟨u, hu1, hu2⟩
      · simp at ht
      · rw [hw] at hu2
        rcases List.mem_cons.1 hu2 with he | he
        · subst he
          exact Or.inl ((hwf.operand_user u j hi hj).2 hu1)
        · exact Or.inr ⟨u, hu1, he⟩
    have h2 := processOps_inv g i hi hwf (g.operands i) (fun _ h => h) _ h1
    have hcomm : ∀ (js : List Nat) (m : Nat → Bool) (w : List Nat),
        { processOps g js ⟨m, i :: w⟩ with work := (processOps g js ⟨m, i :: w⟩).work.tail } = processOps g js ⟨m, w⟩ := by
      intro js
      induction js with
      | nil => intro m w; rfl
      | cons j js ih =>
        intro m w
        simp only [processOps]
        split
        · exact ih _ _
        · exact ih _ _
    have hs : s = ⟨s.marked, i :: rest⟩ := by rw [← hw]
    rw [hs]
    have := hcomm (g.operands i) s.marked rest
    dsimp only at this ⊢
    rw [this]
    exact h2

theorem initState_inv (g : Graph) : Inv g [] (initState g) := by
  constructor
  · intro i hi
    simp only [initState, Bool.and_eq_true, decide_eq_true_eq] at hi
    exact VCode.call hi.1 ((isVerifierFunctionCall_iff _).1 hi.2)
  · intro i hi hv
    simp only [initState, Bool.and_eq_true, decide_eq_true_eq]
    exact ⟨hi, hv⟩
  · intro i hi
    simp only [initState, List.mem_filter, List.mem_range, Bool.and_eq_true, decide_eq_true_eq] at hi ⊢
    exact hi
  · intro j hj hm hk hne hu
    right
    obtain ⟨u, hu'⟩ := List.exists_mem_of_ne_nil _ hne
    refine ⟨u, hu', ?_⟩
    have := hu u hu'
    simp only [initState, List.mem_filter, List.mem_range, Bool.and_eq_true, decide_eq_true_eq] at this ⊢
    exact this

theorem rounds_inv (g : Graph) (hwf : g.WF) (n : Nat) (s : State) (h : Inv g [] s) : Inv g [] (rounds g n s) := by
  induction n generalizing s with
  | zero => exact h
  | succ n ih => exact ih _ (round_inv g hwf s h)

/-! Termination: the instructions taken off the list so far and those on it are different marked instructions. -/

structure Count (g : Graph) (done : List Nat) (s : State) : Prop where
  nodup : (done ++ s.work).Nodup
  marked : ∀ x, s.marked x = true ↔ x ∈ done ++ s.work
  lt : ∀ x ∈ done ++ s.work, x < g.size

theorem nodup_length_le {l : List Nat} {n : Nat} (hn : l.Nodup) (h : ∀ x ∈ l, x < n) : l.length ≤ n := by
  have : l.length ≤ (List.range n).length :=
    List.Nodup.length_le_of_subset hn (fun x hx => List.mem_range.2 (h x hx))
  simpa using this

theorem count_round (g : Graph) (hwf : g.WF) (done : List Nat) (s : State) (h : Count g done s) (i : Nat)
    (rest : List Nat) (hw : s.work = i :: rest) : Count g (done ++ [i]) (round g s) := by
  obtain ⟨l, h1, h2, h3, h4, h5⟩ := processOps_work g (g.operands i) s
  have hi : i < g.size := h.lt i (by rw [hw]; simp)
  have hwork : (round g s).work = rest ++ l := by
    unfold round; rw [hw]; dsimp only; rw [h1, hw]; rfl
  have hmark : ∀ x, (round g s).marked x = true ↔ s.marked x = true ∨ x ∈ l := by
    intro x; rw [← h4]; unfold round; rw [hw]
  have he : done ++ [i] ++ (rest ++ l) = (done ++ s.work) ++ l := by rw [hw]; simp
  constructor
  · rw [hwork, he, List.nodup_append]
    refine ⟨h.nodup, h2, ?_⟩
    intro a ha b hb hab
    subst hab
    have hx := h3 a hb
    rw [(h.marked a).2 ha] at hx
    cases hx
  · intro x
    rw [hwork, he, hmark, h.marked, List.mem_append (s := done ++ s.work)]
  · intro x hx
    rw [hwork, he] at hx
    rcases List.mem_append.1 hx with hx | hx
    · exact h.lt x hx
    · exact hwf.operands_lt i hi x (h5 x hx)

theorem rounds_count (g : Graph) (hwf : g.WF) (n : Nat) (done : List Nat) (s : State) (h : Count g done s)
    (hn : g.size ≤ done.length + n) : (rounds g n s).work = [] := by
  induction n generalizing done s with
  | zero =>
    have := nodup_length_le h.nodup h.lt
    rw [List.length_append] at this
    exact List.length_eq_zero_iff.1 (by show s.work.length = 0; omega)
  | succ n ih =>
    rw [rounds]
    cases hw : s.work with
    | nil =>
      have hr : round g s = s := by unfold round; rw [hw]
      rw [hr]
      have hstay : ∀ n, (rounds g n s).work = [] := by
        intro n
        induction n with
        | zero => exact hw
        | succ n ih => rw [rounds, hr]; exact ih
      exact hstay n
    | cons i rest =>
      exact ih (done ++ [i]) _ (count_round g hwf done s h i rest hw) (by simp; omega)

theorem initState_count (g : Graph) : Count g [] (initState g) := by
  constructor
  · exact List.Nodup.sublist List.filter_sublist List.nodup_range
  · intro x
    simp [initState]
  · intro x hx
    simp [initState] at hx
    exact hx.1

/-- C46: the work list is processed to the end. -/
theorem c46_terminates (g : Graph) (hwf : g.WF) : (runMarking g).work = [] :=
  rounds_count g hwf g.size [] _ (initState_count g) (by simp)

/-- C46, exactly: the marked instructions are the verifier calls and the non-calls that have uses, all of them in
verifier code. -/
theorem c46_exact (g : Graph) (hwf : g.WF) (i : Nat) : (runMarking g).marked i = true ↔ VCode g i := by
  have hinv := rounds_inv g hwf g.size _ (initState_inv g)
  have hend := c46_terminates g hwf
  constructor
  · exact hinv.sound i
  · intro h
    induction h with
    | call hi hv => exact hinv.calls _ hi ((isVerifierFunctionCall_iff _).2 hv)
    | flow hi hk hne _ ih =>
      cases hm : (runMarking g).marked _ with
      | true => rfl
      | false =>
        rcases hinv.pending _ hi hm hk hne ih with h | ⟨u, _, h⟩
        · simp at h
        · unfold runMarking at hend
          rw [hend] at h
          simp at h

/-- C46 as stated: a marked instruction is a verifier call, or it has users and all are marked. -/
theorem c46_marked_partial (g : Graph) (hwf : g.WF) (i : Nat) (h : (runMarking g).marked i = true) :
    VerifierCall (g.kind i) ∨
      (isCallInst (g.kind i) = false ∧ g.users i ≠ [] ∧ ∀ u ∈ g.users i, (runMarking g).marked u = true) := by
  cases (c46_exact g hwf i).1 h with
  | call _ hv => exact Or.inl hv
  | flow _ hk hne hu => exact Or.inr ⟨hk, hne, fun u hu' => (c46_exact g hwf u).2 (hu u hu')⟩

/-- The second part of C46 is false: effects of user code are marked too. Every invoke and every non-call instruction
with a side effect is marked once its result flows only into verifier calls. -/
theorem c46_effect_fails (g : Graph) (hwf : g.WF) (i : Nat) (hi : i < g.size)
    (hk : (∃ n, g.kind i = .invoke n) ∨ g.kind i = .other true) (hne : g.users i ≠ [])
    (hu : ∀ u ∈ g.users i, VerifierCall (g.kind u)) : (runMarking g).marked i = true := by
  refine (c46_exact g hwf i).2 (VCode.flow hi ?_ hne ?_)
  · rcases hk with ⟨n, h⟩ | h <;> rw [h] <;> rfl
  · intro u hu'
    exact VCode.call (hwf.users_lt i hi u hu') (hu u hu')

/-! ## C47 -/

theorem hasInfix_iff (p s : List Char) : hasInfix p s = true ↔ Occurs p s := by
  induction s with
  | nil =>
    unfold hasInfix Occurs
    cases p with
    | nil => simp
    | cons c cs => simp
  | cons c cs ih =>
    rw [hasInfix, Bool.or_eq_true, ih, List.isPrefixOf_iff_prefix]
    unfold Occurs
    constructor
    · rintro (⟨r, h⟩ | ⟨a, b, h⟩)
      · exact ⟨[], r, by simp [h]⟩
      · exact ⟨c :: a, b, by simp [h]⟩
    · rintro ⟨a, b, h⟩
      cases a with
      | nil => exact Or.inl ⟨b, by simpa using h.symm⟩
      | cons a0 a =>
        simp at h
        exact Or.inr ⟨a, b, by simp [h.2]⟩

theorem isEntryPoint_iff (eps : List (List Char)) (n : List Char) : isEntryPoint eps n = true ↔ n ∈ eps := by
  simp [isEntryPoint]

theorem isDead_iff (eps : List (List Char)) (alive : List Fn) (f : Fn) :
    isDead eps alive f = true ↔ ¬ Protected eps f ∧
      (((liveUses alive f) = []) ∨ (f.discardable = true ∧ ∀ u ∈ liveUses alive f, u = .blockAddress)) := by
  have hd : (isDefTriviallyDead alive f || (liveUses alive f).length == 0) = true ↔
      ((liveUses alive f) = []) ∨ (f.discardable = true ∧ ∀ u ∈ liveUses alive f, u = .blockAddress) := by
    simp only [isDefTriviallyDead, Bool.or_eq_true, Bool.and_eq_true, List.all_eq_true, beq_iff_eq,
      List.length_eq_zero_iff]
    exact or_comm
  unfold Protected
  rw [← isEntryPoint_iff, ← hasInfix_iff, ← hasInfix_iff, ← hd]
  unfold isDead
  cases (isDefTriviallyDead alive f || (liveUses alive f).length == 0) <;>
    cases hasInfix "__SMACK_".toList f.name <;> cases hasInfix "__VERIFIER_assume".toList f.name <;>
    cases isEntryPoint eps f.name <;> simp

theorem removeLoop_invariant (eps : List (List Char)) (P : List Fn → Prop)
    (hstep : ∀ fs, P fs → P (fs.filter fun f => !isDead eps fs f)) (n : Nat) (fs : List Fn) (h : P fs) :
    P (removeLoop eps n fs) := by
  induction n generalizing fs with
  | zero => exact h
  | succ n ih =>
    rw [removeLoop]
    split
    · exact h
    · exact ih _ (hstep fs h)

/-- C47, first part: entry points and functions whose name contains `__SMACK_` or `__VERIFIER_assume` stay. -/
theorem c47_protected_partial (eps : List (List Char)) (fs : List Fn) (f : Fn) (hf : f ∈ fs) (hp : Protected eps f) :
    f ∈ removeDead eps fs := by
  apply removeLoop_invariant eps (fun ks => f ∈ ks) _ _ fs hf
  intro ks hk
  rw [List.mem_filter]
  refine ⟨hk, ?_⟩
  cases hd : isDead eps ks f with
  | false => rfl
  | true => exact absurd hp ((isDead_iff eps ks f).1 hd).1

/-- Other `__VERIFIER_` functions are removed when they are unused, so C47 is false as stated for them. -/
theorem c47_verifier_fails (eps : List (List Char)) (fs : List Fn) (f : Fn) (hp : ¬ Protected eps f) (hu : f.uses = []) :
    f ∉ removeDead eps fs := by
  have hdead : ∀ alive, isDead eps alive f = true := by
    intro alive
    rw [isDead_iff]
    exact ⟨hp, Or.inl (by simp [liveUses, hu])⟩
  unfold removeDead
  rw [removeLoop]
  split
  · rename_i he
    intro hm
    have := List.mem_filter.2 ⟨hm, hdead fs⟩
    rw [List.isEmpty_iff.1 he] at this
    simp at this
  · apply removeLoop_invariant eps (fun ks => f ∉ ks)
    · intro ks hk hm
      exact hk (List.mem_filter.1 hm).1
    · intro hm
      have := (List.mem_filter.1 hm).2
      rw [hdead] at this
      cases this

theorem removeDead_subset (eps : List (List Char)) (fs : List Fn) : removeDead eps fs ⊆ fs := by
  apply removeLoop_invariant eps (fun ks => ks ⊆ fs)
  · intro ks hk x hx
    exact hk (List.mem_filter.1 hx).1
  · exact fun x h => h

/-- C47: a function used in the body of a kept function is kept. -/
theorem c47_used (eps : List (List Char)) (fs : List Fn) (f g : Fn) (hf : f ∈ fs) (hg : g ∈ removeDead eps fs)
    (hu : UsedBy f g) : f ∈ removeDead eps fs := by
  have h : g ∈ removeDead eps fs → f ∈ removeDead eps fs := by
    apply removeLoop_invariant eps (fun ks => g ∈ ks → f ∈ ks)
    · intro ks hk hgk
      have hgk' := (List.mem_filter.1 hgk).1
      rw [List.mem_filter]
      refine ⟨hk hgk', ?_⟩
      cases hd : isDead eps ks f with
      | false => rfl
      | true =>
        exfalso
        have hlive : Use.body g.id ∈ liveUses ks f := by
          unfold liveUses
          rw [List.mem_filter]
          exact ⟨hu, by simp only [List.any_eq_true, beq_iff_eq]; exact ⟨g, hgk', rfl⟩⟩
        rcases ((isDead_iff eps ks f).1 hd).2 with h | ⟨_, h⟩
        · rw [h] at hlive; simp at hlive
        · exact absurd (h _ hlive) (by simp)
    · intro _; exact hf
  exact h hg

/-- C47, transitively. -/
theorem c47_reach (eps : List (List Char)) (fs : List Fn) (f : Fn) (h : Reach fs (removeDead eps fs) f) :
    f ∈ removeDead eps fs := by
  induction h with
  | base hg hf hu => exact c47_used eps fs _ _ hf hg hu
  | step _ hf hu ih => exact c47_used eps fs _ _ hf ih hu

/-- C47: functions used by global initialisers or constants are kept. -/
theorem c47_global (eps : List (List Char)) (fs : List Fn) (f : Fn) (hf : f ∈ fs) (hu : Use.global ∈ f.uses) :
    f ∈ removeDead eps fs := by
  apply removeLoop_invariant eps (fun ks => f ∈ ks) _ _ fs hf
  intro ks hk
  rw [List.mem_filter]
  refine ⟨hk, ?_⟩
  cases hd : isDead eps ks f with
  | false => rfl
  | true =>
    exfalso
    have hlive : Use.global ∈ liveUses ks f := by
      unfold liveUses
      rw [List.mem_filter]
      exact ⟨hu, rfl⟩
    rcases ((isDead_iff eps ks f).1 hd).2 with h | ⟨_, h⟩
    · rw [h] at hlive; simp at hlive
    · exact absurd (h _ hlive) (by simp)

/-- The pass runs to the end: everything left is protected or still used. -/
theorem c47_fixpoint (eps : List (List Char)) (fs : List Fn) :
    ∀ f ∈ removeDead eps fs, isDead eps (removeDead eps fs) f = false := by
  have h : ∀ n fs, fs.length < n → ∀ f ∈ removeLoop eps n fs, isDead eps (removeLoop eps n fs) f = false := by
    intro n
    induction n with
    | zero => intro fs h; omega
    | succ n ih =>
      intro fs hl
      rw [removeLoop]
      split
      · rename_i he
        intro f hf
        cases hd : isDead eps fs f with
        | false => rfl
        | true =>
          have := List.mem_filter.2 ⟨hf, hd⟩
          rw [List.isEmpty_iff.1 he] at this
          simp at this
      · rename_i he
        apply ih
        have hne : fs.filter (isDead eps fs) ≠ [] := by
          intro hc; exact he (by rw [hc]; rfl)
        obtain ⟨x, hx⟩ := List.exists_mem_of_ne_nil _ hne
        have hx' := List.mem_filter.1 hx
        have : (fs.filter fun f => !isDead eps fs f).length < fs.length :=
          List.length_filter_lt_length_iff_exists.2 ⟨x, hx'.1, by simp [hx'.2]⟩
        omega
  exact h _ fs (by omega)

/-! ## Concrete cases -/

section Examples

/-- `%0 = load; %1 = icmp %0; %2 = invoke f; %3 = call __VERIFIER_assert(%1, %2)`. -/
def exG : Graph :=
  { size := 4
    kind := fun i => if i = 3 then .call (some "__VERIFIER_assert".toList) else if i = 2 then .invoke none else .other false
    operands := fun i => if i = 1 then [0] else if i = 3 then [1, 2] else []
    users := fun i => if i = 0 then [1] else if i = 1 then [3] else if i = 2 then [3] else [] }

example : exG.WF := by
  refine ⟨?_, ?_, ?_⟩
  · have : ∀ i : Fin 4, ∀ j : Fin 4, (j.val ∈ exG.operands i.val ↔ i.val ∈ exG.users j.val) := by decide
    intro i j hi hj
    exact this ⟨i, hi⟩ ⟨j, hj⟩
  · have : ∀ i : Fin 4, ∀ j ∈ exG.operands i.val, j < 4 := by decide
    intro i hi
    exact this ⟨i, hi⟩
  · have : ∀ i : Fin 4, ∀ j ∈ exG.users i.val, j < 4 := by decide
    intro i hi
    exact this ⟨i, hi⟩
example : (List.range 4).map (runMarking exG).marked = [true, true, true, true] := by decide

/-- `main` uses `f`, `f` uses `g`; `h` and `k` use each other's callee only from dead code. -/
def exFs : List Fn :=
  [⟨0, "main".toList, false, []⟩, ⟨1, "f".toList, true, [.body 0]⟩, ⟨2, "g".toList, true, [.body 1]⟩,
   ⟨3, "h".toList, true, []⟩, ⟨4, "k".toList, false, [.body 3]⟩, ⟨5, "__VERIFIER_error".toList, false, []⟩,
   ⟨6, "__SMACK_top_decl".toList, false, []⟩]

example : (removeDead ["main".toList] exFs).map (·.id) = [0, 1, 2, 6] := by decide
example : Reach exFs (removeDead ["main".toList] exFs) ⟨2, "g".toList, true, [.body 1]⟩ :=
  .step (g := ⟨1, "f".toList, true, [.body 0]⟩)
    (.base (g := ⟨0, "main".toList, false, []⟩) (by decide) (by decide) (by unfold UsedBy; decide)) (by decide)
    (by unfold UsedBy; decide)
example : ¬ Protected ["main".toList] ⟨5, "__VERIFIER_error".toList, false, []⟩ := by
  unfold Protected
  rw [← hasInfix_iff, ← hasInfix_iff]
  decide

end Examples

end Smack.Graphs
