import Verif.Vec.Model

/-
Helper lemmas: evaluation and typing of argument lists, printed names.
-/

namespace Smack.Vec

variable {V : Type}

theorem evals_list (I : Interp V) (env : List (String × Val V)) : ∀ (ts : List Term) (zs : List V), ts.length = zs.length →
    (∀ k (h1 : k < ts.length) (h2 : k < zs.length), eval I env ts[k] = some (.sc zs[k])) →
    evals I env ts = some (zs.map .sc)
  | [], [], _, _ => by simp [evals]
  | t :: ts, z :: zs, hl, h => by
    have h0 := h 0 (by simp) (by simp)
    have hr := evals_list I env ts zs (by simpa using hl) (fun k h1 h2 =>
      h (k + 1) (Nat.succ_lt_succ h1) (Nat.succ_lt_succ h2))
    simp only [List.getElem_cons_zero] at h0
    simp [evals, h0, hr]

theorem scalars_map : ∀ zs : List V, scalars (zs.map .sc) = some zs
  | [] => rfl
  | z :: zs => by simp [scalars, scalars_map zs]

theorem mk_list (I : Interp V) (env : List (String × Val V)) (n : Nat) (s : Sc) (ts : List Term) (zs : List V)
    (hn : zs.length = n) (hl : ts.length = zs.length)
    (h : ∀ k (h1 : k < ts.length) (h2 : k < zs.length), eval I env ts[k] = some (.sc zs[k])) :
    eval I env (.app (.mk n s) ts) = some (.vec n s zs) := by
  simp [eval, evals_list I env ts zs hl h, apply, scalars_map, hn]

theorem eval_sel (I : Interp V) (env : List (String × Val V)) (x : String) (n : Nat) (s : Sc) (xs : List V) (i : Nat)
    (hi : i < xs.length) (hx : env.lookup x = some (.vec n s xs)) :
    eval I env (.app (.sel n s i) [.var x]) = some (.sc xs[i]) := by
  simp [eval, evals, hx, apply, hi]

theorem eval_op (I : Interp V) (env : List (String × Val V)) (o : Op) (s : Sc) (t u : Term) (a b : V)
    (ht : eval I env t = some (.sc a)) (hu : eval I env u = some (.sc b)) :
    eval I env (.app (.op o s) [t, u]) = some (.sc (I.op o s a b)) := by
  simp [eval, evals, ht, hu, apply]

theorem typesOf_const (m : Mode) (env : List (String × BTy)) (b : BTy) : ∀ ts : List Term,
    (∀ t ∈ ts, typeOf m env t = some b) → typesOf m env ts = some (List.replicate ts.length b)
  | [], _ => by simp [typesOf]
  | t :: ts, h => by
    have h0 := h t (by simp)
    have hr := typesOf_const m env b ts (fun u hu => h u (by simp [hu]))
    simp [typesOf, h0, hr, List.replicate_succ]

theorem typeOf_sel (m : Mode) (env : List (String × BTy)) (x : String) (n : Nat) (s : Sc) (i : Nat) (hi : i < n)
    (hx : env.lookup x = some (.vec n s)) : typeOf m env (.app (.sel n s i) [.var x]) = some (bty m s) := by
  simp [typeOf, typesOf, sig, hi, hx]

theorem typeOf_mk (m : Mode) (env : List (String × BTy)) (n : Nat) (s : Sc) (ts : List Term) (hn : ts.length = n)
    (h : ∀ t ∈ ts, typeOf m env t = some (bty m s)) : typeOf m env (.app (.mk n s) ts) = some (.vec n s) := by
  simp [typeOf, typesOf_const m env _ ts h, sig, hn]

/-- A constructor application has the constructor's type or none. -/
theorem typeOf_mk_le (m : Mode) (env : List (String × BTy)) (n : Nat) (s : Sc) (ts : List Term) (b : BTy)
    (h : typeOf m env (.app (.mk n s) ts) = some b) : b = .vec n s := by
  simp only [typeOf, sig] at h
  split at h
  · rename_i as r bs he hb
    simp only [Option.some.injEq, Prod.mk.injEq] at he
    split at h
    · simp only [Option.some.injEq] at h
      rw [← h, ← he.2]
    · exact absurd h nofun
  · exact absurd h nofun

theorem typesOf_none (m : Mode) (env : List (String × BTy)) : ∀ (ts : List Term) (t : Term), t ∈ ts →
    typeOf m env t = none → typesOf m env ts = none
  | u :: us, t, hm, ht => by
    rcases List.mem_cons.mp hm with rfl | hm
    · simp [typesOf, ht]
    · have := typesOf_none m env us t hm ht
      simp only [typesOf, this]
      split <;> simp_all

theorem typeOf_app_none (m : Mode) (env : List (String × BTy)) (f : Fn) (ts : List Term) (t : Term) (hm : t ∈ ts)
    (ht : typeOf m env t = none) : typeOf m env (.app f ts) = none := by
  simp [typeOf, typesOf_none m env ts t hm ht]

/-! Names. -/

theorem dec_inj {a b : Nat} (h : dec a = dec b) : a = b := by
  have h1 := Nat.ofDigitChars_toDigits (b := 10) (n := a) (by decide) (by decide)
  have h2 := Nat.ofDigitChars_toDigits (b := 10) (n := b) (by decide) (by decide)
  unfold dec at h
  rw [h, h2] at h1
  exact h1.symm

theorem dec_digit (n : Nat) : ∀ c ∈ dec n, c.isDigit = true := by
  intro c hc
  unfold dec at hc
  exact Nat.isDigit_of_mem_toDigits (b := 10) (by decide) (by decide) hc

theorem dec_ne (n : Nat) (d : Char) (hd : d.isDigit = false) : d ∉ dec n := fun h => by
  have := dec_digit n d h
  rw [hd] at this
  exact absurd this nofun

/-- Two texts without the character `d`, each followed by `d` or nothing. -/
theorem split_at_char {d : Char} : ∀ {a b t u : List Char}, d ∉ a → d ∉ b → (t = [] ∨ t.head? = some d) →
    (u = [] ∨ u.head? = some d) → a ++ t = b ++ u → a = b ∧ t = u
  | [], [], t, u, _, _, _, _, h => ⟨rfl, h⟩
  | [], c :: b, t, u, _, hb, ht, _, h => by
    rcases ht with ht | ht
    · rw [ht] at h; exact absurd h (by simp)
    · rw [List.nil_append] at h
      rw [h] at ht
      simp only [List.cons_append, List.head?_cons, Option.some.injEq] at ht
      exact absurd (by rw [ht]; simp) hb
  | c :: a, [], t, u, ha, _, _, hu, h => by
    rcases hu with hu | hu
    · rw [hu] at h; exact absurd h (by simp)
    · rw [List.nil_append] at h
      rw [← h] at hu
      simp only [List.cons_append, List.head?_cons, Option.some.injEq] at hu
      exact absurd (by rw [hu]; simp) ha
  | c :: a, e :: b, t, u, ha, hb, ht, hu, h => by
    simp only [List.cons_append, List.cons.injEq] at h
    obtain ⟨h1, h2⟩ := split_at_char (fun hm => ha (by simp [hm])) (fun hm => hb (by simp [hm])) ht hu h.2
    exact ⟨by rw [h.1, h1], h2⟩

end Smack.Vec
