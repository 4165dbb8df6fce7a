/-
Lemmas about the naming of values.
-/
import Verif.Naming.Model

namespace Smack.Naming

theorem dec_inj {a b : Nat} (h : dec a = dec b) : a = b := by
  have h1 := Nat.ofDigitChars_toDigits (b := 10) (n := a) (by decide) (by decide)
  have h2 := Nat.ofDigitChars_toDigits (b := 10) (n := b) (by decide) (by decide)
  unfold dec at h
  rw [h, h2] at h1
  exact h1.symm

/-- Counters. -/
inductive Grp where
  | global | block | undef | var
deriving DecidableEq

/-- The counter used for a value without name. -/
def grp (v : Info) : Option Grp :=
  match v.name, v.kind with
  | some _, .inst => some .var
  | some _, _ => none
  | none, .global => some .global
  | none, .block => some .block
  | none, .undef => some .undef
  | none, .inst => some .var
  | none, .arg => some .var
  | none, .other => none

def ctr (g : Grp) (s : St) : Nat :=
  match g with
  | .global => s.globalNum
  | .block => s.blockNum
  | .undef => s.undefNum
  | .var => s.varNum

def pref (g : Grp) (c : Cls) : Str :=
  match g with
  | .global => ['$', 'g']
  | .block => ['$', 'b', 'b']
  | .undef => ['$', 'u']
  | .var => varPrefix c

def bump (g : Grp) (s : St) : St :=
  match g with
  | .global => { s with globalNum := s.globalNum + 1 }
  | .block => { s with blockNum := s.blockNum + 1 }
  | .undef => { s with undefNum := s.undefNum + 1 }
  | .var => { s with varNum := s.varNum + 1 }

theorem compute_grp {v : Info} {g : Grp} (h : grp v = some g) (s : St) :
    compute v s = (pref g v.cls ++ dec (ctr g s), bump g s) := by
  obtain ⟨n, k, c⟩ := v
  cases n <;> cases k <;> simp [grp] at h <;> subst h <;> rfl

theorem compute_named {v : Info} {n : Str} (hn : v.name = some n) (hk : v.kind ≠ .inst) (s : St) : compute v s = (ident n, s) := by
  obtain ⟨n', k, c⟩ := v
  simp only at hn hk
  subst hn
  cases k <;> first | rfl | exact absurd rfl hk

theorem compute_other {v : Info} (h : grp v = none) (s : St) : (compute v s).2 = s := by
  obtain ⟨n, k, c⟩ := v
  cases n <;> cases k <;> simp [grp] at h <;> rfl

theorem ctr_bump (g g' : Grp) (s : St) : ctr g' (bump g s) = if g' = g then ctr g s + 1 else ctr g' s := by
  cases g <;> cases g' <;> rfl

theorem names_bump (g : Grp) (s : St) : (bump g s).names = s.names := by cases g <;> rfl

theorem pref_inj {g g' : Grp} {c c' : Cls} {a b : Nat} (h : pref g c ++ dec a = pref g' c' ++ dec b) : g = g' ∧ a = b := by
  have key : g = g' ∧ dec a = dec b := by
    cases g <;> cases g' <;> cases c <;> cases c' <;> simp_all [pref, varPrefix]
  exact ⟨key.1, dec_inj key.2⟩

theorem pref_dollar (g : Grp) (c : Cls) (a : Nat) : ∃ t, pref g c ++ dec a = '$' :: t := by
  cases g <;> cases c <;> exact ⟨_, rfl⟩

/-- `v` is one of the values whose counter restarts with each function. -/
def isLocal (v : Info) : Prop := grp v = some .var ∨ grp v = some .block

/-- The invariant between two resets; `old` are the values named before the last reset. -/
structure Inv (env : Nat → Info) (old : Nat → Prop) (s : St) : Prop where
  named : ∀ v n m, s.names.lookup v = some n → (env v).name = some m → (env v).kind ≠ .inst → n = ident m
  fresh : ∃ f : Nat → Nat, ∀ v n g, s.names.lookup v = some n → grp (env v) = some g → (isLocal (env v) → ¬ old v) →
    n = pref g (env v).cls ++ dec (f v) ∧ f v < ctr g s ∧
    ∀ v' n', v' ≠ v → s.names.lookup v' = some n' → grp (env v') = some g → (isLocal (env v') → ¬ old v') → f v' ≠ f v

theorem inv_init (env : Nat → Info) (old : Nat → Prop) : Inv env old {} :=
  ⟨fun v n m h => by simp at h, ⟨fun _ => 0, fun v n g h => by simp at h⟩⟩

theorem lookup_cons_eq (v w : Nat) (n : Str) (l : List (Nat × Str)) :
    List.lookup v ((w, n) :: l) = if v = w then some n else l.lookup v := by
  rw [List.lookup_cons]
  by_cases h : v = w
  · subst h; simp
  · have hb : (v == w) = false := by simpa using h
    rw [hb, if_neg h]

theorem inv_get {env : Nat → Info} {old : Nat → Prop} {s : St} (h : Inv env old s) (w : Nat) :
    Inv env old (get env w s).2 := by
  unfold get
  cases hl : s.names.lookup w with
  | some n => exact h
  | none =>
    simp only
    cases hg : grp (env w) with
    | none =>
      have hs := compute_other hg s
      have hnm : ∀ v n, List.lookup v ((w, (compute (env w) s).1) :: (compute (env w) s).2.names) = some n →
          v = w ∨ s.names.lookup v = some n := by
        intro v n hv
        rw [lookup_cons_eq, hs] at hv
        by_cases hvw : v = w
        · exact .inl hvw
        · rw [if_neg hvw] at hv; exact .inr hv
      have hctr : ∀ g n, ctr g { (compute (env w) s).2 with names := n } = ctr g s := by
        intro g n; rw [hs]; cases g <;> rfl
      refine ⟨?_, ?_⟩
      · intro v n m hv hn hk
        simp only at hv
        by_cases hvw : v = w
        · subst hvw
          rw [lookup_cons_eq, if_pos rfl, compute_named hn hk] at hv
          exact (Option.some.inj hv).symm
        · rcases hnm v n hv with h1 | h1
          · exact absurd h1 hvw
          · exact h.named v n m h1 hn hk
      · obtain ⟨f, hf⟩ := h.fresh
        refine ⟨f, ?_⟩
        intro v n g hv hgv ho
        simp only at hv
        rcases hnm v n hv with h1 | h1
        · subst h1; rw [hg] at hgv; cases hgv
        · obtain ⟨a, b, c⟩ := hf v n g h1 hgv ho
          refine ⟨a, by rw [hctr]; exact b, ?_⟩
          intro v' n' hne hv' hg' ho'
          simp only at hv'
          rcases hnm v' n' hv' with h2 | h2
          · subst h2; rw [hg] at hg'; cases hg'
          · exact c v' n' hne h2 hg' ho'
    | some g0 =>
      have hcg := compute_grp hg s
      rw [hcg]
      simp only
      refine ⟨?_, ?_⟩
      · intro v n m hv hn hk
        simp only at hv
        rw [lookup_cons_eq, names_bump] at hv
        by_cases hvw : v = w
        · subst hvw
          exfalso
          unfold grp at hg
          rw [hn] at hg
          cases hkk : (env v).kind <;> rw [hkk] at hg <;> simp at hg
          exact hk hkk
        · rw [if_neg hvw] at hv
          exact h.named v n m hv hn hk
      · obtain ⟨f, hf⟩ := h.fresh
        refine ⟨fun v => if v = w then ctr g0 s else f v, ?_⟩
        intro v n g hv hgv ho
        simp only at hv
        rw [lookup_cons_eq, names_bump] at hv
        have hctr : ∀ g n, ctr g { bump g0 s with names := n } = ctr g (bump g0 s) := by
          intro g n; cases g <;> rfl
        by_cases hvw : v = w
        · subst hvw
          rw [if_pos rfl] at hv
          rw [hg] at hgv
          have hgg := Option.some.inj hgv
          subst hgg
          refine ⟨by simp [← Option.some.inj hv], by rw [hctr, ctr_bump]; simp, ?_⟩
          intro v' n' hne hv' hg' ho'
          simp only at hv'
          rw [lookup_cons_eq, names_bump, if_neg hne] at hv'
          obtain ⟨_, b, _⟩ := hf v' n' g0 hv' hg' ho'
          simp only [if_neg hne, if_pos]
          omega
        · rw [if_neg hvw] at hv
          obtain ⟨a, b, c⟩ := hf v n g hv hgv ho
          refine ⟨by simp only [if_neg hvw]; exact a, ?_, ?_⟩
          · rw [hctr, ctr_bump]
            simp only [if_neg hvw]
            split
            · rename_i e; subst e; omega
            · exact b
          · intro v' n' hne hv' hg' ho'
            simp only at hv'
            rw [lookup_cons_eq, names_bump] at hv'
            simp only [if_neg hvw]
            by_cases hvw' : v' = w
            · subst hvw'
              rw [hg] at hg'
              have hgg := Option.some.inj hg'
              subst hgg
              simp only [if_pos]
              omega
            · rw [if_neg hvw'] at hv'
              simp only [if_neg hvw']
              exact c v' n' hne hv' hg' ho'

theorem inv_block {env : Nat → Info} {old : Nat → Prop} {s : St} (h : Inv env old s) : Inv env old (freshBlockName s).2 := by
  refine ⟨h.named, ?_⟩
  obtain ⟨f, hf⟩ := h.fresh
  refine ⟨f, ?_⟩
  intro v n g hv hgv ho
  obtain ⟨a, b, c⟩ := hf v n g hv hgv ho
  refine ⟨a, ?_, c⟩
  cases g <;> simp only [ctr, freshBlockName] at b ⊢ <;> omega

/-- A reset makes all values named so far old. -/
theorem inv_reset {env : Nat → Info} {old : Nat → Prop} {s : St} (h : Inv env old s) (old' : Nat → Prop)
    (ho : ∀ v, isLocal (env v) → (s.names.lookup v).isSome = true → old' v) : Inv env old' (reset s) := by
  refine ⟨h.named, ?_⟩
  obtain ⟨f, hf⟩ := h.fresh
  refine ⟨f, ?_⟩
  intro v n g hv hgv hov
  have hv' : s.names.lookup v = some n := hv
  have hnl : ¬ isLocal (env v) := fun hl => hov hl (ho v hl (by rw [hv']; rfl))
  obtain ⟨a, b, c⟩ := hf v n g hv' hgv (fun hl => absurd hl hnl)
  refine ⟨a, ?_, ?_⟩
  · cases g with
    | global => exact b
    | undef => exact b
    | block => exact absurd (.inr hgv) hnl
    | var => exact absurd (.inl hgv) hnl
  · intro v' n' hne hv'' hg' ho'
    refine c v' n' hne hv'' hg' ?_
    intro hl
    unfold isLocal at hl hnl
    rw [hg', ← hgv] at hl
    exact absurd hl hnl

theorem inv_seg {env : Nat → Info} {old : Nat → Prop} (seg : List Op) (hseg : Op.reset ∉ seg) {s : St} (h : Inv env old s) :
    Inv env old (run env s seg) := by
  induction seg generalizing s with
  | nil => exact h
  | cons op seg ih =>
    simp only [List.mem_cons, not_or] at hseg
    show Inv env old (run env (stepOp env s op) seg)
    refine ih hseg.2 ?_
    cases op with
    | get v => exact inv_get h v
    | freshBlock => exact inv_block h
    | reset => exact absurd rfl hseg.1

/-- Values that have an entry after `ops` had one before or were requested in `ops`. -/
theorem lookup_run {env : Nat → Info} (ops : List Op) {s : St} {v : Nat}
    (h : ((run env s ops).names.lookup v).isSome = true) : (s.names.lookup v).isSome = true ∨ Op.get v ∈ ops := by
  induction ops generalizing s with
  | nil => exact .inl h
  | cons op ops ih =>
    have h' : ((run env (stepOp env s op) ops).names.lookup v).isSome = true := h
    rcases ih h' with h1 | h1
    · cases op with
      | get w =>
        by_cases hw : v = w
        · subst hw; exact .inr (by simp)
        · refine .inl ?_
          simp only [stepOp, get] at h1
          cases hl : s.names.lookup w with
          | some n => rw [hl] at h1; exact h1
          | none =>
            rw [hl] at h1
            simp only at h1
            rw [lookup_cons_eq, if_neg hw] at h1
            have : (compute (env w) s).2.names = s.names := by
              cases hg : grp (env w) with
              | none => rw [compute_other hg]
              | some g => rw [compute_grp hg]; exact names_bump g s
            rwa [this] at h1
      | freshBlock => exact .inl h1
      | reset => exact .inl h1
    · exact .inr (List.mem_cons_of_mem _ h1)

/-- Some state invariant holds after any history (with the values of earlier functions as old). -/
theorem inv_any (env : Nat → Info) (ops : List Op) : ∃ old, Inv env old (run env {} ops) := by
  have key : ∀ (ops : List Op) (s : St), (∃ old, Inv env old s) → ∃ old, Inv env old (run env s ops) := by
    intro ops
    induction ops with
    | nil => intro s h; exact h
    | cons op ops ih =>
      rintro s ⟨old, h⟩
      refine ih (stepOp env s op) ?_
      cases op with
      | get v => exact ⟨old, inv_get h v⟩
      | freshBlock => exact ⟨old, inv_block h⟩
      | reset => exact ⟨fun _ => True, inv_reset h _ fun _ _ _ => trivial⟩
  exact key ops {} ⟨fun _ => False, inv_init env _⟩

/-- The invariant in the middle of a function: `h1` is what happened before its start. -/
theorem inv_function (env : Nat → Info) (h1 seg : List Op) (hseg : Op.reset ∉ seg) :
    Inv env (fun v => Op.get v ∈ h1) (run env {} (h1 ++ Op.reset :: seg)) := by
  obtain ⟨old, h⟩ := inv_any env h1
  have hr : run env {} (h1 ++ Op.reset :: seg) = run env (reset (run env {} h1)) seg := by
    unfold run
    rw [List.foldl_append]
    rfl
  rw [hr]
  refine inv_seg seg hseg (inv_reset h _ ?_)
  intro v _ hl
  rcases lookup_run h1 hl with h2 | h2
  · simp at h2
  · exact h2

/-- Entries are never changed. -/
theorem lookup_keep {env : Nat → Info} (ops : List Op) {s : St} {v : Nat} {n : Str} (h : s.names.lookup v = some n) :
    (run env s ops).names.lookup v = some n := by
  induction ops generalizing s with
  | nil => exact h
  | cons op ops ih =>
    refine ih (s := stepOp env s op) ?_
    cases op with
    | get w =>
      simp only [stepOp, get]
      cases hl : s.names.lookup w with
      | some m => exact h
      | none =>
        simp only
        have : (compute (env w) s).2.names = s.names := by
          cases hg : grp (env w) with
          | none => rw [compute_other hg]
          | some g => rw [compute_grp hg]; exact names_bump g s
        rw [lookup_cons_eq, this]
        have hne : v ≠ w := by intro e; subst e; rw [h] at hl; cases hl
        rw [if_neg hne]; exact h
    | freshBlock => exact h
    | reset => exact h

theorem get_lookup (env : Nat → Info) (v : Nat) (s : St) : (get env v s).2.names.lookup v = some (get env v s).1 := by
  unfold get
  cases hl : s.names.lookup v with
  | some n => exact hl
  | none => simp only; rw [lookup_cons_eq, if_pos rfl]

theorem get_of_lookup {env : Nat → Info} {v : Nat} {s : St} {n : Str} (h : s.names.lookup v = some n) : (get env v s).1 = n := by
  unfold get; rw [h]

/-! ## Escaping -/

theorem escChar_dollar {c : Char} (h : escChar c = '$') : c = '$' := by
  unfold escChar at h
  by_cases h1 : c = '@'
  · rw [if_pos h1] at h; exact absurd h (by decide)
  · rw [if_neg h1] at h
    by_cases h2 : special.contains c = true
    · rw [if_pos h2] at h; exact absurd h (by decide)
    · rw [if_neg h2] at h; exact h

theorem kw_underscore (k : Str) (h : isBplKeyword k = true) : isBplKeyword (k ++ ['_']) = false := by
  have : ∀ k ∈ bplKw, isBplKeyword (k ++ ['_']) = false := by decide +kernel
  exact this k (by simpa [isBplKeyword] using h)

theorem kw_not_dollar (k : Str) (h : isBplKeyword k = true) : k.head? ≠ some '$' := by
  have : ∀ k ∈ bplKw, k.head? ≠ some '$' := by decide +kernel
  exact this k (by simpa [isBplKeyword] using h)

theorem ident_dollar {n t : Str} (h : ident n = '$' :: t) : n.head? = some '$' := by
  unfold ident at h
  by_cases hk : isBplKeyword (escape n) = true
  · rw [if_pos hk] at h
    exfalso
    refine kw_not_dollar _ hk ?_
    cases he : escape n with
    | nil => rw [he] at hk; revert hk; decide +kernel
    | cons c r => rw [he] at h; simp at h; simp [h.1]
  · rw [if_neg hk] at h
    unfold escape at h
    cases n with
    | nil => simp at h
    | cons c r =>
      simp only [List.map_cons, List.cons.injEq] at h
      simp [escChar_dollar h.1]

end Smack.Naming
