import Verif.StdLib.Lemmas

namespace Smack.StdLib

open CString (Mem Byte wr strlen strspn strpbrk Str Apart SpanLen FirstOf Bytes)
open Spec

theorem str_byte {m : Mem} {p : Nat} {a b : List Byte} {c : Byte} (h : Str m p (a ++ c :: b)) : m (p + a.length) = some c :=
  h.bytes a.length c (by simp)

theorem str_stop {m : Mem} {p : Nat} {a : List Byte} (h : Str m p a) : m (p + a.length) = some 0 :=
  h.bytes a.length 0 (by simp)

/-- The string at which a call of `strtok` starts. -/
def start (olds str : Option Nat) : Option Nat := match str with | some s => some s | none => olds

theorem strtok_eq (m : Mem) (olds str : Option Nat) (d s : Nat) (h : start olds str = some s) :
    strtok m olds str d = (strspn m s d).bind fun k => (m (s + k)).bind fun b =>
      if b = 0 then some (m, olds, none)
      else (strpbrk m (s + k) d).bind fun r =>
        match r with
        | none => some (m, none, some (s + k))
        | some e => (wr m e 0).bind fun m' => some (m', some (e + 1), some (s + k)) := by
  cases str with
  | some a =>
    cases h
    rfl
  | none =>
    have h' : olds = some s := h
    subst h'
    rfl

theorem strtok_all {m : Mem} {olds str : Option Nat} {d s : Nat} {x y : List Byte} (hs : start olds str = some s) (hx : Str m s x)
    (hy : Str m d y) (h : ∀ b ∈ x, b ∈ y) : strtok m olds str d = some (m, olds, none) := by
  obtain ⟨k, hk, hspan⟩ := CString.c54_strspn m s d x y hx hy
  have : k = x.length := spanLen_unique hspan (by have := spanLen_prefix (r := []) (P := (· ∈ y)) h (by simp); simpa using this)
  subst this
  rw [strtok_eq m olds str d s hs, hk, Option.bind_some, str_stop hx, Option.bind_some, if_pos rfl]

theorem strtok_tok {m : Mem} {olds str : Option Nat} {d s : Nat} {pre t r y : List Byte} (hs : start olds str = some s)
    (hx : Str m s (pre ++ (t ++ r))) (hy : Str m d y) (hp : ∀ b ∈ pre, b ∈ y) (ht : ∀ b ∈ t, b ∉ y) (hne : t ≠ []) :
    (r = [] → strtok m olds str d = some (m, none, some (s + pre.length))) ∧
    ((∃ c r', r = c :: r' ∧ c ∈ y) → ∃ m', strtok m olds str d = some (m', some (s + (pre.length + t.length + 1)), some (s + pre.length)) ∧
      ∀ a, m' a = if a = s + (pre.length + t.length) then some 0 else m a) := by
  obtain ⟨k, hk, hspan⟩ := CString.c54_strspn m s d _ y hx hy
  obtain ⟨b, t', rfl⟩ := List.exists_cons_of_ne_nil hne
  have : k = pre.length := spanLen_unique hspan (spanLen_prefix hp (by
    intro c hc
    simp only [List.cons_append, List.head?_cons, Option.some.injEq] at hc
    subst hc
    exact ht b (by simp)))
  subst this
  have hb : m (s + pre.length) = some b := str_byte (b := t' ++ r) (by simpa using hx)
  have hb0 : b ≠ 0 := by
    intro h
    exact hx.nonzero (by rw [h]; simp)
  have hx' := str_drop hx
  obtain ⟨q, hq, hq1, hq2⟩ := CString.c54_strpbrk m (s + pre.length) d _ y hx' hy
  have heq := strtok_eq m olds str d s hs
  rw [hk, Option.bind_some, hb, Option.bind_some, if_neg hb0, hq, Option.bind_some] at heq
  constructor
  · rintro rfl
    have : q = none := hq2.2 (by
      intro c hc
      exact ht c (by simpa using hc))
    subst this
    exact heq
  · rintro ⟨c, r', rfl, hc⟩
    have hq3 : q = some (s + pre.length + (b :: t').length) := (hq1 _).2 ⟨_, rfl, ⟨c, by simp, hc⟩, by
      intro e he
      rw [List.take_left' rfl] at he
      exact ht e he⟩
    subst hq3
    have hm : m (s + pre.length + (b :: t').length) = some c := str_byte hx'
    refine ⟨fun a => if a = s + pre.length + (b :: t').length then some 0 else m a, ?_, ?_⟩
    · rw [heq]
      simp only
      unfold wr
      rw [hm]
      simp only [Option.bind_some, Nat.add_assoc]
    · intro a
      rw [Nat.add_assoc]

theorem further_none (d : Nat) (m : Mem) (n : Nat) : further d m none n = some (m, none, List.replicate n none) := by
  induction n with
  | zero => rfl
  | succ n ih =>
    have : strtok m none none d = some (m, none, none) := rfl
    simp only [further, this, Option.bind_some, ih, List.replicate_succ]

theorem further_all {d : Nat} {m : Mem} {s : Nat} {x y : List Byte} (hx : Str m s x) (hy : Str m d y) (h : ∀ b ∈ x, b ∈ y) (n : Nat) :
    further d m (some s) n = some (m, some s, List.replicate n none) := by
  induction n with
  | zero => rfl
  | succ n ih =>
    have : strtok m (some s) none d = some (m, some s, none) := strtok_all rfl hx hy h
    simp only [further, this, Option.bind_some, ih, List.replicate_succ]

/-- The results of `n` calls. -/
def results (s n : Nat) (ts : List (Nat × Nat)) : List (Option Nat) := ((ts.map fun t : Nat × Nat => some (s + t.1)) ++ List.replicate n none).take n

theorem results_cons (s n : Nat) (t : Nat × Nat) (ts : List (Nat × Nat)) :
    results s (n + 1) (t :: ts) = some (s + t.1) :: results s n ts := by
  unfold results
  rw [List.map_cons, List.cons_append, List.take_succ_cons]
  congr 1
  rw [List.replicate_succ', ← List.append_assoc, List.take_append_of_le_length (by simp)]

theorem results_shift (s k n : Nat) (ts : List (Nat × Nat)) : results s n (shift k ts) = results (s + k) n ts := by
  unfold results shift
  rw [List.map_map]
  congr 2
  apply List.map_congr_left
  intro t _
  simp only [Function.comp, Nat.add_assoc]

theorem results_nil (s n : Nat) : results s n [] = List.replicate n none := by
  simp [results]

theorem cut_refl (m : Mem) (s len : Nat) : Cut m m s len [] := by
  intro a
  exact ⟨by rintro ⟨t, ht, _⟩; simp at ht, fun _ => rfl⟩

theorem further_spec (n : Nat) : ∀ {d : Nat} {m : Mem} {s : Nat} {x y : List Byte}, Str m s x → Str m d y →
    Apart s (x.length + 1) d (y.length + 1) → ∃ ts, Tokens y x ts ∧ ∃ m' o', further d m (some s) n = some (m', o', results s n ts) ∧
      Cut m m' s x.length (ts.take n) := by
  intro d m s x y
  induction hlen : x.length using Nat.strongRecOn generalizing n m s x with
  | ind len ih =>
  intro hx hy hap
  rcases split_string y x with hall | ⟨pre, t, r, rfl, hp, ht, hne, hr⟩
  · refine ⟨[], tokens_all hall, m, some s, ?_, by simpa using cut_refl m s len⟩
    rw [further_all hx hy hall, results_nil]
  · have hk := strtok_tok (olds := some s) (str := none) rfl hx hy hp ht hne
    rcases hr with rfl | ⟨c, r', rfl, hc⟩
    · refine ⟨[(pre.length, t.length)], by simpa using tokens_last hp ht hne, m, ?_⟩
      have hcut : ∀ k, Cut m m s len (List.take k [(pre.length, t.length)]) := by
        intro k a
        refine ⟨?_, fun _ => rfl⟩
        rintro ⟨u, hu, _, h2⟩
        have := List.mem_singleton.1 (List.mem_of_mem_take hu)
        subst this
        simp only [List.length_append, List.length_nil] at hlen
        simp only at h2
        omega
      cases n with
      | zero => exact ⟨some s, rfl, hcut 0⟩
      | succ n =>
        refine ⟨none, ?_, hcut _⟩
        simp only [further, hk.1 rfl, Option.bind_some, further_none]
        rw [results_cons, results_nil]
    · obtain ⟨m1, h1, hm1⟩ := hk.2 ⟨c, r', rfl, hc⟩
      have hlen' : len = pre.length + (t.length + (r'.length + 1)) := by
        rw [← hlen]; simp only [List.length_append, List.length_cons]
      have hx1 : Str m1 (s + (pre.length + t.length + 1)) r' := by
        have e : pre ++ (t ++ c :: r') = (pre ++ t ++ [c]) ++ r' := by simp
        have h0 : Str m (s + (pre ++ t ++ [c]).length) r' := str_drop (by rw [← e]; exact hx)
        refine ⟨?_, h0.nonzero⟩
        intro i b hb
        have hl : (pre ++ t ++ [c]).length = pre.length + t.length + 1 := by simp only [List.length_append, List.length_cons, List.length_nil]
        rw [hm1, if_neg (by omega), ← hl]
        exact h0.bytes i b hb
      have hy1 : Str m1 d y := by
        refine ⟨?_, hy.nonzero⟩
        intro i b hb
        have hi : i < (y ++ [0]).length := (List.getElem?_eq_some_iff.1 hb).1
        simp only [List.length_append, List.length_cons, List.length_nil] at hi
        rw [hm1, if_neg (by unfold Apart at hap; omega)]
        exact hy.bytes i b hb
      have hap1 : Apart (s + (pre.length + t.length + 1)) (r'.length + 1) d (y.length + 1) := by
        unfold Apart at hap ⊢
        omega
      cases n with
      | zero =>
        obtain ⟨ts, hts, _⟩ := ih r'.length (by omega) 0 rfl hx1 hy1 hap1
        exact ⟨_, tokens_more hp ht hne hc hts, m, some s, rfl, by simpa using cut_refl m s len⟩
      | succ n =>
        obtain ⟨ts, hts, m', o', hf, hcut⟩ := ih r'.length (by omega) n rfl hx1 hy1 hap1
        refine ⟨_, tokens_more hp ht hne hc hts, m', o', ?_, ?_⟩
        · simp only [further, h1, Option.bind_some, hf]
          rw [results_cons, results_shift]
        · intro a
          have ha := hcut a
          have hiff : (∃ u ∈ (shift (pre.length + t.length + 1) ts).take n, a = s + (u.1 + u.2) ∧ u.1 + u.2 < len) ↔
              ∃ u ∈ ts.take n, a = s + (pre.length + t.length + 1) + (u.1 + u.2) ∧ u.1 + u.2 < r'.length := by
            unfold shift
            rw [← List.map_take]
            constructor
            · rintro ⟨u, hu, h2, h3⟩
              obtain ⟨v, hv, rfl⟩ := List.mem_map.1 hu
              exact ⟨v, hv, by dsimp only at h2; omega, by dsimp only at h3; omega⟩
            · rintro ⟨v, hv, h2, h3⟩
              exact ⟨_, List.mem_map.2 ⟨v, hv, rfl⟩, by dsimp only; omega, by dsimp only; omega⟩
          rw [List.take_succ_cons]
          simp only [List.mem_cons, exists_eq_or_imp]
          rw [hiff, hm1] at *
          by_cases hex : ∃ u ∈ ts.take n, a = s + (pre.length + t.length + 1) + (u.1 + u.2) ∧ u.1 + u.2 < r'.length
          · exact ⟨fun _ => ha.1 hex, fun h => absurd (.inr hex) h⟩
          · rw [ha.2 hex]
            constructor
            · rintro (⟨h2, _⟩ | h2)
              · rw [if_pos h2]
              · exact absurd h2 hex
            · intro h
              rw [if_neg]
              intro h2
              exact h (.inl ⟨h2, by omega⟩)

/-- Uniqueness of sorted enumerations. -/
theorem tokens_unique {D x : List Byte} {a b : List (Nat × Nat)} (ha : Tokens D x a) (hb : Tokens D x b) : a = b := by
  have key : ∀ a b : List (Nat × Nat), a.Pairwise (fun u v => u.1 < v.1) → b.Pairwise (fun u v => u.1 < v.1) →
      (∀ p, p ∈ a ↔ p ∈ b) → a = b := by
    intro a
    induction a with
    | nil =>
      intro b _ _ h
      cases b with
      | nil => rfl
      | cons p b => exact absurd ((h p).2 (by simp)) (by simp)
    | cons p a ih =>
      intro b h1 h2 h
      cases b with
      | nil => exact absurd ((h p).1 (by simp)) (by simp)
      | cons q b =>
        have e1 := List.pairwise_cons.1 h1
        have e2 := List.pairwise_cons.1 h2
        have hpq : p = q := by
          rcases List.mem_cons.1 ((h p).1 (by simp)) with e | e
          · exact e
          · rcases List.mem_cons.1 ((h q).2 (by simp)) with e' | e'
            · exact e'.symm
            · have := e2.1 p e
              have := e1.1 q e'
              omega
        subst hpq
        congr 1
        refine ih b e1.2 e2.2 ?_
        intro r
        constructor
        · intro hr
          rcases List.mem_cons.1 ((h r).1 (List.mem_cons_of_mem _ hr)) with e | e
          · subst e
            have := e1.1 r hr
            omega
          · exact e
        · intro hr
          rcases List.mem_cons.1 ((h r).2 (List.mem_cons_of_mem _ hr)) with e | e
          · subst e
            have := e2.1 r hr
            omega
          · exact e
  exact key a b ha.sorted hb.sorted (fun p => by obtain ⟨i, n⟩ := p; rw [ha.mem, hb.mem])

end Smack.StdLib
