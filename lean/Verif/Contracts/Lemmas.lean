import Verif.Contracts.Spec

namespace Smack.Contracts

open Spec

variable {S : Type} {I : Interp S}

theorem exec_append (a b : List Instr) (s : S) : exec I (a ++ b) s = exec I b (exec I a s) := by
  induction a generalizing s with
  | nil => rfl
  | cons i r ih => cases i <;> exact ih _

theorem trace_append (a b : List Instr) (s : S) : trace I (a ++ b) s = trace I a s ++ trace I b (exec I a s) := by
  induction a generalizing s with
  | nil => rfl
  | cons i r ih =>
    cases i with
    | op x => exact ih _
    | contract k x => simp only [List.cons_append, trace, exec, ih]

theorem splitFirst_spec {l a b : List Instr} (h : splitFirst l = some (a, b)) :
    l = a ++ b ∧ ∃ x k c, a = x ++ [.contract k c] ∧ ∀ k' a', Instr.contract k' a' ∉ x := by
  induction l generalizing a b with
  | nil => cases h
  | cons i r ih =>
    cases i with
    | contract k x =>
      cases h
      exact ⟨rfl, [], k, x, rfl, by simp⟩
    | op x =>
      rw [splitFirst] at h
      cases hr : splitFirst r with
      | none => rw [hr] at h; cases h
      | some p =>
        obtain ⟨u, v⟩ := p
        rw [hr] at h
        cases h
        obtain ⟨e, y, k, c, e2, e3⟩ := ih hr
        exact ⟨by rw [e]; rfl, .op x :: y, k, c, by rw [e2]; rfl, by simpa using e3⟩

theorem splitFirst_none {l : List Instr} (h : splitFirst l = none) : ∀ k a, Instr.contract k a ∉ l := by
  induction l with
  | nil => simp
  | cons i r ih =>
    cases i with
    | contract k x => cases h
    | op x =>
      rw [splitFirst] at h
      cases hr : splitFirst r with
      | none => simpa using ih hr
      | some p => rw [hr] at h; cases h

theorem splitBlock_none {n k : Nat} {is : List Instr} {t : Term} (h : splitFirst is = none) : splitBlock n k is t = [⟨(n, k), is, t⟩] := by
  rw [splitBlock]
  split
  · rfl
  · rename_i a b h'
    rw [h] at h'; cases h'

theorem splitBlock_some {n k : Nat} {is a b : List Instr} {t : Term} (h : splitFirst is = some (a, b)) :
    splitBlock n k is t = ⟨(n, k), a, .br (n, k + 1)⟩ :: splitBlock n (k + 1) b t := by
  rw [splitBlock]
  split
  · rename_i h'
    rw [h] at h'; cases h'
  · rename_i a' b' h'
    rw [h] at h'; cases h'
    rfl

/-- Induction over the pieces of a block. -/
theorem split_induction {P : Nat → List Instr → Prop} (h0 : ∀ k is, splitFirst is = none → P k is)
    (h1 : ∀ k is a b, splitFirst is = some (a, b) → P (k + 1) b → P k is) (k : Nat) (is : List Instr) : P k is := by
  induction hl : is.length using Nat.strongRecOn generalizing k is with
  | ind len ih =>
    cases h : splitFirst is with
    | none => exact h0 k is h
    | some p => exact h1 k is p.1 p.2 h (ih _ (by rw [← hl]; exact splitFirst_lt h) _ _ rfl)

theorem splitBlock_names (n : Nat) (t : Term) (k : Nat) (is : List Instr) :
    ∀ b ∈ splitBlock n k is t, b.name.1 = n ∧ k ≤ b.name.2 := by
  induction k, is using split_induction with
  | h0 k is h =>
    rw [splitBlock_none h]
    intro b hb
    cases List.mem_singleton.1 hb
    exact ⟨rfl, Nat.le_refl _⟩
  | h1 k is a b h ih =>
    rw [splitBlock_some h]
    intro c hc
    rcases List.mem_cons.1 hc with rfl | hc
    · exact ⟨rfl, Nat.le_refl _⟩
    · have := ih c hc
      exact ⟨this.1, by omega⟩

theorem splitBlock_nodup (n : Nat) (t : Term) (k : Nat) (is : List Instr) : ((splitBlock n k is t).map (·.name)).Nodup := by
  induction k, is using split_induction with
  | h0 k is h => rw [splitBlock_none h]; simp
  | h1 k is a b h ih =>
    rw [splitBlock_some h, List.map_cons, List.nodup_cons]
    refine ⟨?_, ih⟩
    intro hm
    obtain ⟨c, hc, e⟩ := List.mem_map.1 hm
    have := (splitBlock_names n t _ _ c hc).2
    rw [e] at this
    simp at this
    omega

theorem splitBlock_ready (n : Nat) (t : Term) (k : Nat) (is : List Instr) : Ready (splitBlock n k is t) := by
  induction k, is using split_induction with
  | h0 k is h =>
    rw [splitBlock_none h]
    intro b hb
    cases List.mem_singleton.1 hb
    exact .inl (splitFirst_none h)
  | h1 k is a b h ih =>
    rw [splitBlock_some h]
    intro c hc
    rcases List.mem_cons.1 hc with rfl | hc
    · exact .inr (splitFirst_spec h).2
    · exact ih c hc

theorem splitFn_ready (F : List Block) : Ready (splitFn F) := by
  intro b hb
  obtain ⟨c, _, hc⟩ := List.mem_flatMap.1 hb
  exact splitBlock_ready _ _ _ _ b hc

theorem splitFn_nodup {F : List Block} (hF : Fresh F) : ((splitFn F).map (·.name)).Nodup := by
  obtain ⟨h1, h2⟩ := hF
  induction F with
  | nil => exact .nil
  | cons b F ih =>
    rw [List.map_cons, List.nodup_cons] at h1
    show ((splitBlock b.name.1 0 b.instrs b.term ++ splitFn F).map (·.name)).Nodup
    rw [List.map_append, List.nodup_append]
    refine ⟨splitBlock_nodup _ _ _ _, ih h1.2 (fun c hc => h2 c (List.mem_cons_of_mem _ hc)), ?_⟩
    intro x hx y hy hxy
    subst hxy
    obtain ⟨c, hc, ec⟩ := List.mem_map.1 hx
    obtain ⟨d, hd, ed⟩ := List.mem_map.1 hy
    obtain ⟨f, hf, hd'⟩ := List.mem_flatMap.1 hd
    have e1 := (splitBlock_names _ _ _ _ c hc).1
    have e2 := (splitBlock_names _ _ _ _ d hd').1
    apply h1.1
    refine List.mem_map.2 ⟨f, hf, ?_⟩
    have e3 := h2 f (List.mem_cons_of_mem _ hf)
    have e4 := h2 b (by simp)
    apply Prod.ext
    · rw [← e2, ed, ← ec, e1]
    · rw [e3, e4]

theorem find_mem {F : List Block} (hF : (F.map (·.name)).Nodup) {B : Block} (h : B ∈ F) : find F B.name = some B := by
  unfold find
  induction F with
  | nil => cases h
  | cons c F ih =>
    rw [List.map_cons, List.nodup_cons] at hF
    rw [List.find?_cons]
    rcases List.mem_cons.1 h with rfl | h
    · simp
    · have : c.name ≠ B.name := fun e => hF.1 (List.mem_map.2 ⟨B, h, e.symm⟩)
      simp only [this, decide_false]
      exact ih hF.2 h

theorem find_some {F : List Block} {n : Name} {B : Block} (h : find F n = some B) : B ∈ F ∧ B.name = n :=
  ⟨List.mem_of_find?_eq_some h, by simpa using List.find?_some h⟩

theorem find_none {F : List Block} {n : Name} : find F n = none ↔ ∀ B ∈ F, B.name ≠ n := by
  simp [find]

theorem find_eq {F : List Block} (hF : (F.map (·.name)).Nodup) {B : Block} {n : Name} : find F n = some B ↔ B ∈ F ∧ B.name = n := by
  constructor
  · exact find_some
  · rintro ⟨h, rfl⟩
    exact find_mem hF h

/-! ### Splitting -/

/-- What the rest of a block does. -/
inductive Rest (I : Interp S) (F : List Block) (is : List Instr) (t : Term) (s : S) : List (Kind × Bool) → S → Prop
  | ret : next I t (exec I is s) = none → Rest I F is t s (trace I is s) (exec I is s)
  | go {b' tr s'} : next I t (exec I is s) = some b' → Result I F b' (exec I is s) tr s' → Rest I F is t s (trace I is s ++ tr) s'

theorem result_iff_rest {F : List Block} {b : Name} {B : Block} (h : find F b = some B) {s s' : S} {tr : List (Kind × Bool)} :
    Result I F b s tr s' ↔ Rest I F B.instrs B.term s tr s' := by
  constructor
  · intro hr
    cases hr with
    | ret h' hn => rw [h] at h'; cases h'; exact .ret hn
    | go h' hn hr => rw [h] at h'; cases h'; exact .go hn hr
  · intro hr
    cases hr with
    | ret hn => exact .ret h hn
    | go hn hr => exact .go h hn hr

/-- A chain of pieces does what the block does. -/
theorem chain {G : List Block} (hG : (G.map (·.name)).Nodup) (n : Nat) (t : Term) (k : Nat) (is : List Instr) :
    (∀ B ∈ splitBlock n k is t, B ∈ G) → ∀ s tr s', Rest I G is t s tr s' → Result I G (n, k) s tr s' := by
  induction k, is using split_induction with
  | h0 k is h =>
    intro hs s tr s' hr
    rw [splitBlock_none h] at hs
    exact (result_iff_rest (find_mem hG (hs _ (List.mem_singleton.2 rfl)))).2 hr
  | h1 k is a b h ih =>
    intro hs s tr s' hr
    rw [splitBlock_some h] at hs
    obtain ⟨rfl, _⟩ := splitFirst_spec h
    have hf := find_mem hG (hs _ (List.mem_cons_self ..))
    have ih' := ih (fun B hB => hs B (List.mem_cons_of_mem _ hB)) (exec I a s)
    cases hr with
    | ret hn =>
      rw [trace_append, exec_append]
      rw [exec_append] at hn
      exact .go hf rfl (ih' _ _ (.ret hn))
    | go hn hr =>
      rw [trace_append, List.append_assoc]
      rw [exec_append] at hn hr
      exact .go hf rfl (ih' _ _ (.go hn hr))

theorem rest_mono {F G : List Block} {is : List Instr} {t : Term} {s s' : S} {tr : List (Kind × Bool)}
    (h : ∀ b s tr s', Result I F b s tr s' → Result I G b s tr s') (hr : Rest I F is t s tr s') : Rest I G is t s tr s' := by
  cases hr with
  | ret hn => exact .ret hn
  | go hn hr => exact .go hn (h _ _ _ _ hr)

theorem mem_splitFn {F : List Block} {b B : Block} (hb : b ∈ F) (h : B ∈ splitBlock b.name.1 0 b.instrs b.term) : B ∈ splitFn F :=
  List.mem_flatMap.2 ⟨b, hb, h⟩

theorem result_to_split {F : List Block} (hF : Fresh F) {b : Name} {s s' : S} {tr : List (Kind × Bool)} (h : Result I F b s tr s') :
    Result I (splitFn F) b s tr s' := by
  have nd := splitFn_nodup hF
  have hb : ∀ {b : Name} {B : Block}, find F b = some B → b = (B.name.1, 0) := by
    intro b B h
    obtain ⟨h1, h2⟩ := find_some h
    rw [← h2]
    exact Prod.ext rfl (hF.2 B h1)
  induction h with
  | ret hf hn =>
    rw [hb hf]
    exact chain nd _ _ 0 _ (fun B' h' => mem_splitFn (find_some hf).1 h') _ _ _ (.ret hn)
  | go hf hn hr ih =>
    rw [hb hf]
    exact chain nd _ _ 0 _ (fun B' h' => mem_splitFn (find_some hf).1 h') _ _ _ (.go hn ih)

/-- From a piece to the rest of the block. -/
theorem result_from_split {F : List Block} (hF : Fresh F) (hT : ∀ B ∈ F, ∀ s : S, ∀ b, next I B.term s = some b → b.2 = 0) {b : Name} {s s' : S}
    {tr : List (Kind × Bool)} (h : Result I (splitFn F) b s tr s') : ∀ B ∈ F, ∀ k is, b = (B.name.1, k) →
      (∀ C ∈ splitBlock B.name.1 k is B.term, C ∈ splitFn F) → Rest I F is B.term s tr s' := by
  have nd := splitFn_nodup hF
  have key : ∀ {b' : Name} {s' s'' : S} {tr : List (Kind × Bool)}, b'.2 = 0 → Result I (splitFn F) b' s' tr s'' →
      (∀ B ∈ F, ∀ k is, b' = (B.name.1, k) → (∀ C ∈ splitBlock B.name.1 k is B.term, C ∈ splitFn F) → Rest I F is B.term s' tr s'') →
      Result I F b' s' tr s'' := by
    intro b' s' s'' tr h0 hr ih
    have : ∃ C, find (splitFn F) b' = some C := by
      cases hr with
      | ret hf _ => exact ⟨_, hf⟩
      | go hf _ _ => exact ⟨_, hf⟩
    obtain ⟨C, hC⟩ := this
    obtain ⟨h1, h2⟩ := find_some hC
    obtain ⟨B, hB, hCB⟩ := List.mem_flatMap.1 h1
    have e := (splitBlock_names _ _ _ _ C hCB).1
    have hb' : b' = (B.name.1, 0) := by
      rw [← h2] at h0 ⊢
      exact Prod.ext e h0
    have hb'' : b' = B.name := hb'.trans (Prod.ext rfl (hF.2 B hB).symm)
    have hf : find F b' = some B := by rw [hb'']; exact find_mem hF.1 hB
    exact (result_iff_rest hf).2 (ih B hB 0 B.instrs hb' (fun C hC => mem_splitFn hB hC))
  induction h with
  | @ret b C s hf hn =>
    intro B hB k is hb hs
    cases hsp : splitFirst is with
    | none =>
      rw [splitBlock_none hsp] at hs
      have := find_mem nd (hs _ (List.mem_singleton.2 rfl))
      rw [hb] at hf
      rw [show find (splitFn F) (B.name.1, k) = _ from this] at hf
      cases hf
      exact .ret hn
    | some p =>
      obtain ⟨x, y⟩ := p
      rw [splitBlock_some hsp] at hs
      have := find_mem nd (hs _ (List.mem_cons_self ..))
      rw [hb] at hf
      rw [show find (splitFn F) (B.name.1, k) = _ from this] at hf
      cases hf
      cases hn
  | @go b C s b' tr s' hf hn hr ih =>
    intro B hB k is hb hs
    cases hsp : splitFirst is with
    | none =>
      rw [splitBlock_none hsp] at hs
      have := find_mem nd (hs _ (List.mem_singleton.2 rfl))
      rw [hb] at hf
      rw [show find (splitFn F) (B.name.1, k) = _ from this] at hf
      cases hf
      refine .go hn (key (hT B hB _ _ hn) hr ?_)
      intro B' hB' k' is' e hs'
      exact ih B' hB' k' is' e hs'
    | some p =>
      obtain ⟨x, y⟩ := p
      obtain ⟨rfl, _⟩ := splitFirst_spec hsp
      rw [splitBlock_some hsp] at hs
      have := find_mem nd (hs _ (List.mem_cons_self ..))
      rw [hb] at hf
      rw [show find (splitFn F) (B.name.1, k) = _ from this] at hf
      cases hf
      cases hn
      have := ih B hB (k + 1) y rfl (fun C hC => hs C (List.mem_cons_of_mem _ hC))
      dsimp only at this ⊢
      cases this with
      | ret hn' =>
        have := Rest.ret (I := I) (F := F) (is := x ++ y) (t := B.term) (s := s) (by rw [exec_append]; exact hn')
        rw [trace_append, exec_append] at this
        exact this
      | go hn' hr' =>
        have := Rest.go (I := I) (F := F) (is := x ++ y) (t := B.term) (s := s) (by rw [exec_append]; exact hn')
          (by rw [exec_append]; exact hr')
        rw [trace_append, List.append_assoc] at this
        exact this

end Smack.Contracts
