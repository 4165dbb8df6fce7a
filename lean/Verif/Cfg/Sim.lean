/-
Lemmas: simulation between a function in SSA form and its translation.
-/
import Verif.Cfg.Lemmas

namespace Smack.Cfg

set_option linter.unusedSectionVars false

open Spec

variable {V M : Type} [DecidableEq V] {P : Params V M} {fn : Fn V}

/-! ## Edges, predecessors, dominance -/

theorem edge_lt {b t : Nat} (h : Edge fn b t) : b < fn.length := by
  obtain ⟨blk, hb, _⟩ := h
  exact (List.getElem?_eq_some_iff.mp hb).1

theorem mem_preds {b t : Nat} : b ∈ preds fn t ↔ Edge fn b t := by
  unfold preds Edge
  rw [List.mem_flatMap]
  constructor
  · rintro ⟨b', hb', h⟩
    cases hf : fn[b']? with
    | none => rw [hf] at h; cases h
    | some blk =>
      rw [hf] at h
      simp only [List.mem_map, List.mem_filter, decide_eq_true_eq] at h
      obtain ⟨t', ⟨h1, rfl⟩, rfl⟩ := h
      exact ⟨blk, hf, h1⟩
  · rintro ⟨blk, hb, ht⟩
    refine ⟨b, by simpa using (List.getElem?_eq_some_iff.mp hb).1, ?_⟩
    rw [hb]
    exact List.mem_map.mpr ⟨t, List.mem_filter.mpr ⟨ht, by simp⟩, rfl⟩

theorem uniquePred_eq {b p t : Nat} (h : uniquePred fn t = some p) (he : Edge fn b t) : b = p := by
  have hm := mem_preds.mpr he
  unfold uniquePred at h
  cases hp : preds fn t with
  | nil => rw [hp] at hm; cases hm
  | cons q qs =>
    rw [hp] at h hm
    simp only at h
    by_cases ha : qs.all (· = q) = true
    · rw [if_pos ha] at h
      have := Option.some.inj h
      subst this
      rcases List.mem_cons.mp hm with rfl | hm
      · rfl
      · simpa using List.all_eq_true.mp ha b hm
    · rw [if_neg ha] at h; cases h

theorem uniquePred_edge {p t : Nat} (h : uniquePred fn t = some p) : Edge fn p t := by
  rw [← mem_preds]
  unfold uniquePred at h
  cases hp : preds fn t with
  | nil => rw [hp] at h; cases h
  | cons q qs =>
    rw [hp] at h
    simp only at h
    by_cases ha : qs.all (· = q) = true
    · rw [if_pos ha] at h
      rw [Option.some.inj h]; simp
    · rw [if_neg ha] at h; cases h

theorem avoid_ne {d b : Nat} (h : Avoid fn d b) : b ≠ d := by
  cases h with
  | entry h => exact h
  | step _ _ _ _ h => exact h

theorem dom_self (b : Nat) : Dom fn b b := fun h => avoid_ne h rfl

theorem dom_pred {d b t : Nat} (h : Dom fn d t) (hne : d ≠ t) (he : Edge fn b t) : Dom fn d b :=
  fun ha => h (.step b t ha he (Ne.symm hne))

/-! ## Agreement -/

def agree (p : Var → Prop) (ρ σ : Env V) : Prop := ∀ x, p x → ρ x = σ x

theorem eval_agree {p : Var → Prop} {ρ σ : Env V} (h : agree p ρ σ) {o : Opd V} (ho : OpdIs p o) : eval ρ o = eval σ o := by
  cases o with
  | var x => exact h x ho
  | const v => rfl

theorem args_agree {p : Var → Prop} {ρ σ : Env V} (h : agree p ρ σ) {os : List (Opd V)} (ho : ∀ o ∈ os, OpdIs p o) :
    os.map (eval ρ) = os.map (eval σ) :=
  List.map_congr_left fun o hm => eval_agree h (ho o hm)

theorem availEnd_of {b : Nat} {x : Var} {n : Nat} (h : Avail fn b n x) : AvailEnd fn b x := by
  intro d hd
  rcases h d hd with ⟨_, h⟩ | ⟨rfl, _⟩
  · exact h
  · exact dom_self d

theorem avail_of_end {b : Nat} {blk : Block V} (hb : fn[b]? = some blk) {x : Var} (h : AvailEnd fn b x) :
    Avail fn b blk.body.length x := by
  intro d hd
  by_cases hdb : d = b
  · right
    subst hdb
    refine ⟨rfl, blk, hb, ?_⟩
    obtain ⟨blk', hb', hx⟩ := hd
    rw [hb] at hb'
    have := Option.some.inj hb'
    subst this
    rw [List.take_length]
    exact hx
  · exact .inl ⟨hdb, h d hd⟩

theorem dsts_append (a b : List (Instr V)) : dsts (a ++ b) = dsts a ++ dsts b := List.filterMap_append

theorem agree_set {b : Nat} {blk : Block V} (hb : fn[b]? = some blk) {pre is : List (Instr V)} {i : Instr V}
    (hp : blk.body = pre ++ i :: is) {ρ σ : Env V} (h : agree (Avail fn b pre.length) ρ σ) (v : V) :
    agree (Avail fn b (pre ++ [i]).length) (setOpt ρ i.dst v) (setOpt σ i.dst v) := by
  intro x hx
  have old : i.dst ≠ some x → ρ x = σ x := by
    intro hne
    apply h
    intro d hd
    rcases hx d hd with h1 | ⟨rfl, blk', hb', h1⟩
    · exact .inl h1
    · refine .inr ⟨rfl, blk', hb', ?_⟩
      rcases h1 with h1 | h1
      · exact .inl h1
      · right
        rw [hb] at hb'
        have := Option.some.inj hb'
        subst this
        rw [hp] at h1 ⊢
        rw [show pre ++ i :: is = (pre ++ [i]) ++ is by simp, List.take_left, dsts_append] at h1
        rw [List.take_left]
        rcases List.mem_append.mp h1 with h1 | h1
        · exact h1
        · unfold dsts at h1
          simp only [List.mem_filterMap, List.mem_singleton] at h1
          obtain ⟨j, rfl, hj⟩ := h1
          exact absurd hj hne
  unfold setOpt
  cases hd : i.dst with
  | none => exact old (by rw [hd]; simp)
  | some y =>
    simp only
    by_cases hxy : x = y
    · rw [if_pos hxy, if_pos hxy]
    · rw [if_neg hxy, if_neg hxy]
      exact old (by rw [hd]; intro e; exact hxy (Option.some.inj e).symm)

/-! ## The instructions of a block -/

theorem body_uses (hs : Ssa fn) {b : Nat} {blk : Block V} (hb : fn[b]? = some blk) {pre is : List (Instr V)} {i : Instr V}
    (hp : blk.body = pre ++ i :: is) : ∀ o ∈ i.args, OpdIs (Avail fn b pre.length) o := by
  refine hs.body b blk pre.length i hb ?_
  rw [hp]; simp

variable (P) in
theorem body_fwd (hs : Ssa fn) {b : Nat} {blk : Block V} (hb : fn[b]? = some blk) {code : Label → List (Stmt V)} :
    ∀ (is pre : List (Instr V)) (ρ σ : Env V) (m : M) (ρ₁ : Env V) (m₁ : M), blk.body = pre ++ is → Exec P is ρ m ρ₁ m₁ →
      agree (Avail fn b pre.length) ρ σ → ∃ σ₁, agree (AvailEnd fn b) ρ₁ σ₁ ∧ ∀ n tail o r,
        BRun P code n tail ⟨σ₁, m₁, r⟩ o → ∃ n', BRun P code n' (is.map .instr ++ tail) ⟨σ, m, r⟩ o
  | [], pre, ρ, σ, m, ρ₁, m₁, hp, he, ha => by
    cases he
    refine ⟨σ, ?_, fun n tail o r h => ⟨n, h⟩⟩
    intro x hx
    apply ha
    rw [List.append_nil] at hp
    rw [← hp]
    exact avail_of_end hb hx
  | i :: is, pre, ρ, σ, m, ρ₁, m₁, hp, he, ha => by
    cases he with
    | cons _ _ _ _ v m' _ _ hsem hrest =>
      rw [args_agree ha (body_uses hs hb hp)] at hsem
      obtain ⟨σ₁, h1, h2⟩ := body_fwd hs hb is (pre ++ [i]) _ (setOpt σ i.dst v) _ _ _ (by rw [hp]; simp) hrest
        (agree_set hb hp ha v)
      refine ⟨σ₁, h1, fun n tail o r h => ?_⟩
      obtain ⟨n', h3⟩ := h2 n tail o r h
      exact ⟨n' + 1, BRun.instr n' i _ _ v m' o hsem h3⟩

variable (P) in
theorem body_fail_fwd (hs : Ssa fn) {b : Nat} {blk : Block V} (hb : fn[b]? = some blk) {code : Label → List (Stmt V)} :
    ∀ (is pre : List (Instr V)) (ρ σ : Env V) (m : M) (o : Outcome V M), blk.body = pre ++ is → ExecFail P is ρ m o →
      agree (Avail fn b pre.length) ρ σ → ∀ tail r, ∃ n, BRun P code n (is.map .instr ++ tail) ⟨σ, m, r⟩ o
  | [], pre, ρ, σ, m, o, hp, he, ha => by cases he
  | i :: is, pre, ρ, σ, m, o, hp, he, ha => by
    intro tail r
    cases he with
    | here _ _ _ _ hsem =>
      rw [args_agree ha (body_uses hs hb hp)] at hsem ⊢
      exact ⟨0, BRun.fail 0 i _ _ hsem⟩
    | there _ _ _ _ v m' _ hsem hrest =>
      rw [args_agree ha (body_uses hs hb hp)] at hsem
      obtain ⟨n, h⟩ := body_fail_fwd hs hb is (pre ++ [i]) _ (setOpt σ i.dst v) _ _ (by rw [hp]; simp) hrest
        (agree_set hb hp ha v) tail r
      exact ⟨n + 1, BRun.instr n i _ _ v m' o hsem h⟩

variable (P) in
theorem body_bwd (hs : Ssa fn) {b : Nat} {blk : Block V} (hb : fn[b]? = some blk) {code : Label → List (Stmt V)} {tail : List (Stmt V)} :
    ∀ (is pre : List (Instr V)) (ρ σ : Env V) (m : M) (n : Nat) (o : Outcome V M) (r : Option V), blk.body = pre ++ is →
      BRun P code n (is.map .instr ++ tail) ⟨σ, m, r⟩ o → agree (Avail fn b pre.length) ρ σ →
      ExecFail P is ρ m o ∨ ∃ ρ₁ m₁ σ₁ n', n' ≤ n ∧ Exec P is ρ m ρ₁ m₁ ∧ agree (AvailEnd fn b) ρ₁ σ₁ ∧
        BRun P code n' tail ⟨σ₁, m₁, r⟩ o
  | [], pre, ρ, σ, m, n, o, r, hp, h, ha => by
    right
    refine ⟨ρ, m, σ, n, Nat.le_refl n, .nil ρ m, ?_, h⟩
    intro x hx
    apply ha
    rw [List.append_nil] at hp
    rw [← hp]
    exact avail_of_end hb hx
  | i :: is, pre, ρ, σ, m, n, o, r, hp, h, ha => by
    rw [List.map_cons, List.cons_append] at h
    cases h with
    | instr n _ _ _ v m' _ hsem hrest =>
      rw [← args_agree ha (body_uses hs hb hp)] at hsem
      rcases body_bwd hs hb is (pre ++ [i]) (setOpt ρ i.dst v) _ _ _ _ _ (by rw [hp]; simp) hrest (agree_set hb hp ha v) with
        hf | ⟨ρ₁, m₁, σ₁, n', hn, he, h1, h2⟩
      · exact .inl (.there i is ρ m v m' o hsem hf)
      · exact .inr ⟨ρ₁, m₁, σ₁, n', by omega, .cons i is ρ m v m' ρ₁ m₁ hsem he, h1, h2⟩
    | fail _ _ _ _ hsem =>
      left
      simp only at hsem ⊢
      rw [← args_agree ha (body_uses hs hb hp)] at hsem ⊢
      exact .here i is ρ m hsem

/-! ## Phi nodes -/

theorem phiPairs_vars (b : Nat) (phis : List (Phi V)) : ((phiPairs b phis).map Prod.fst).Sublist (phis.map (·.var)) := by
  induction phis with
  | nil => exact List.Sublist.slnil
  | cons p ps ih =>
    unfold phiPairs at ih ⊢
    rw [List.filterMap_cons]
    cases p.inc.lookup b with
    | none => simp only [Option.map_none, List.map_cons]; exact ih.cons _
    | some o => simp only [Option.map_some, List.map_cons]; exact ih.cons_cons _

theorem mem_phiPairs {b : Nat} {phis : List (Phi V)} {q : Var × Opd V} :
    q ∈ phiPairs b phis ↔ ∃ p ∈ phis, p.var = q.1 ∧ p.inc.lookup b = some q.2 := by
  unfold phiPairs
  rw [List.mem_filterMap]
  constructor
  · rintro ⟨p, hp, h⟩
    rw [Option.map_eq_some_iff] at h
    obtain ⟨o, ho, rfl⟩ := h
    exact ⟨p, hp, rfl, ho⟩
  · rintro ⟨p, hp, h1, h2⟩
    exact ⟨p, hp, by rw [h2]; simp [h1]⟩

theorem mem_phiCode {b : Nat} {term : Term V} {q : Var × Opd V} : q ∈ phiCode fn b term ↔
    ∃ s ∈ term.succs, ∃ blk, fn[s]? = some blk ∧ ∃ p ∈ blk.phis, p.var = q.1 ∧ p.inc.lookup b = some q.2 := by
  unfold phiCode
  rw [List.mem_flatMap]
  constructor
  · rintro ⟨s, hs, h⟩
    cases hf : fn[s]? with
    | none => rw [hf] at h; cases h
    | some blk =>
      rw [hf] at h
      exact ⟨s, hs, blk, hf, mem_phiPairs.mp h⟩
  · rintro ⟨s, hs, blk, hb, h⟩
    refine ⟨s, hs, ?_⟩
    rw [hb]
    exact mem_phiPairs.mpr h

theorem nodup_flatMap_of {α β : Type} (L : List α) (f : α → List β) (hL : L.Nodup) (h1 : ∀ a ∈ L, (f a).Nodup)
    (h2 : ∀ a ∈ L, ∀ a' ∈ L, ∀ x, x ∈ f a → x ∈ f a' → a = a') : (L.flatMap f).Nodup := by
  induction L with
  | nil => exact List.nodup_nil
  | cons a L ih =>
    rw [List.nodup_cons] at hL
    rw [List.flatMap_cons, List.nodup_append]
    refine ⟨h1 a (by simp), ih hL.2 (fun b hb => h1 b (by simp [hb]))
      (fun b hb b' hb' x hx hx' => h2 b (by simp [hb]) b' (by simp [hb']) x hx hx'), ?_⟩
    intro x hx y hy e
    subst e
    rw [List.mem_flatMap] at hy
    obtain ⟨b, hb, hy⟩ := hy
    have := h2 a (by simp) b (by simp [hb]) x hx hy
    subst this
    exact hL.1 hb

theorem nodup_of_append_left {α : Type} {a b : List α} (h : (a ++ b).Nodup) : a.Nodup := (List.nodup_append.mp h).1

theorem phiCode_nodup (hs : Ssa fn) {b : Nat} {term : Term V} (hd : term.succs.Nodup) :
    ((phiCode fn b term).map Prod.fst).Nodup := by
  unfold phiCode
  rw [List.map_flatMap]
  refine nodup_flatMap_of _ _ hd ?_ ?_
  · intro s _
    cases hf : fn[s]? with
    | none => exact List.nodup_nil
    | some blk =>
      exact List.Nodup.sublist (phiPairs_vars b blk.phis) (nodup_of_append_left (hs.nodup s blk hf))
  · intro s _ s' _ x hx hx'
    cases hf : fn[s]? with
    | none => rw [hf] at hx; cases hx
    | some blk =>
      cases hf' : fn[s']? with
      | none => rw [hf'] at hx'; cases hx'
      | some blk' =>
        rw [hf] at hx; rw [hf'] at hx'
        exact hs.unique x s s' ⟨blk, hf, .inl ((phiPairs_vars b _).subset hx)⟩ ⟨blk', hf', .inl ((phiPairs_vars b _).subset hx')⟩

theorem lookup_of_mem {α β : Type} [BEq α] [LawfulBEq α] {l : List (α × β)} (hn : (l.map Prod.fst).Nodup) {q : α × β}
    (hq : q ∈ l) : l.lookup q.1 = some q.2 := by
  induction l with
  | nil => cases hq
  | cons p l ih =>
    rw [List.map_cons, List.nodup_cons] at hn
    rw [List.lookup_cons]
    rcases List.mem_cons.mp hq with rfl | hq
    · simp
    · have : q.1 ≠ p.1 := fun e => hn.1 (e ▸ List.mem_map_of_mem (f := Prod.fst) hq)
      have : (q.1 == p.1) = false := by simpa using this
      rw [this]
      exact ih hn.2 hq

theorem mem_of_lookup {α β : Type} [BEq α] [LawfulBEq α] {l : List (α × β)} {a : α} {v : β} (h : l.lookup a = some v) :
    (a, v) ∈ l := by
  induction l with
  | nil => cases h
  | cons p l ih =>
    rw [List.lookup_cons] at h
    by_cases he : a = p.1
    · subst he
      simp at h
      subst h
      simp
    · have : (a == p.1) = false := by simpa using he
      rw [this] at h
      exact List.mem_cons_of_mem _ (ih h)

theorem find_phi {phis : List (Phi V)} (hn : (phis.map (·.var)).Nodup) {p : Phi V} (hp : p ∈ phis) :
    phis.find? (fun q => q.var = p.var) = some p := by
  induction phis with
  | nil => cases hp
  | cons q qs ih =>
    rw [List.map_cons, List.nodup_cons] at hn
    rw [List.find?_cons]
    rcases List.mem_cons.mp hp with rfl | hp
    · simp
    · have : q.var ≠ p.var := fun e => hn.1 (e ▸ List.mem_map_of_mem (f := (·.var)) hp)
      simp only [this, decide_false]
      exact ih hn.2 hp

theorem two_succs {l : List Nat} {s t : Nat} (hs : s ∈ l) (ht : t ∈ l) (hne : s ≠ t) : 1 < l.length := by
  cases l with
  | nil => cases hs
  | cons a l =>
    cases l with
    | nil =>
      simp only [List.mem_singleton] at hs ht
      exact absurd (hs.trans ht.symm) hne
    | cons b l => simp

/-- A phi node of a successor of a block with several successors is not available at the end of that block. -/
theorem phi_not_avail (hn : Normalised fn) {b : Nat} {blk : Block V} (hr : Reach fn b) (hb : fn[b]? = some blk)
    (h2 : 1 < blk.term.succs.length) {s : Nat} (hsu : s ∈ blk.term.succs) {blk' : Block V} (hf : fn[s]? = some blk') {p : Phi V}
    (hp : p ∈ blk'.phis) : ¬ AvailEnd fn b p.var := fun h =>
  hn b blk s blk' hr hb h2 hsu hf (fun e => by rw [e] at hp; cases hp)
    (h s ⟨blk', hf, .inl (List.mem_map_of_mem (f := (·.var)) hp)⟩)

/-- After the assignments, the variables that are available at the end of a block with several successors are unchanged. -/
theorem parallel_keeps (hn : Normalised fn) {b : Nat} {blk : Block V} (hr : Reach fn b) (hb : fn[b]? = some blk)
    (h2 : 1 < blk.term.succs.length) (σ : Env V) {x : Var} (hx : AvailEnd fn b x) :
    parallel σ (phiCode fn b blk.term) x = σ x := by
  unfold parallel
  cases hl : (phiCode fn b blk.term).lookup x with
  | none => rfl
  | some o =>
    obtain ⟨s, hsu, blk', hf, p, hp, hv, _⟩ := mem_phiCode.mp (mem_of_lookup hl)
    have : ¬ AvailEnd fn b p.var := phi_not_avail hn hr hb h2 hsu hf hp
    rw [hv] at this
    exact absurd hx this

/-- After the assignments, the state agrees with the one in which the successor is entered. -/
theorem parallel_agree (hs : Ssa fn) (hn : Normalised fn) {b : Nat} {blk : Block V} (hr : Reach fn b) (hb : fn[b]? = some blk)
    (hd : blk.term.succs.Nodup) {t : Nat} (ht : t ∈ blk.term.succs) {blk' : Block V} (hb' : fn[t]? = some blk')
    {ρ σ : Env V} (ha : agree (AvailEnd fn b) ρ σ) :
    agree (Avail fn t 0) (enter ρ b blk'.phis) (parallel σ (phiCode fn b blk.term)) := by
  have hedge : Edge fn b t := ⟨blk, hb, ht⟩
  intro x hx
  by_cases hp : x ∈ blk'.phis.map (·.var)
  · rw [List.mem_map] at hp
    obtain ⟨p, hp, rfl⟩ := hp
    obtain ⟨o, ho, hav⟩ := hs.phi b t blk' hedge hb' p hp
    unfold enter parallel
    rw [find_phi (nodup_of_append_left (hs.nodup t blk' hb')) hp]
    have hm : (p.var, o) ∈ phiCode fn b blk.term := mem_phiCode.mpr ⟨t, ht, blk', hb', p, hp, rfl, ho⟩
    have hl := lookup_of_mem (phiCode_nodup hs hd) hm
    simp only at hl
    simp only [ho, hl]
    exact eval_agree ha hav
  · have hfind : blk'.phis.find? (fun q => q.var = x) = none := by
      rw [List.find?_eq_none]
      intro q hq
      simp only [decide_eq_true_eq]
      intro e
      exact hp (e ▸ List.mem_map_of_mem (f := (·.var)) hq)
    have hend : AvailEnd fn b x := by
      intro d hdx
      rcases hx d hdx with ⟨hne, hdom⟩ | ⟨rfl, blk'', hb'', h⟩
      · exact dom_pred hdom hne hedge
      · rw [hb'] at hb''
        have := Option.some.inj hb''
        subst this
        rcases h with h | h
        · exact absurd h hp
        · simp [dsts] at h
    have hpar : parallel σ (phiCode fn b blk.term) x = σ x := by
      unfold parallel
      cases hl : (phiCode fn b blk.term).lookup x with
      | none => rfl
      | some o =>
        obtain ⟨s, hsu, blk'', hf, p, hpp, hv, _⟩ := mem_phiCode.mp (mem_of_lookup hl)
        simp only at hv
        have hst : s ≠ t := by
          rintro rfl
          rw [hb'] at hf
          have := Option.some.inj hf
          subst this
          exact hp (hv ▸ List.mem_map_of_mem (f := (·.var)) hpp)
        have := phi_not_avail hn hr hb (two_succs hsu ht hst) hsu hf hpp
        rw [hv] at this
        exact absurd hend this
    rw [hpar]
    unfold enter
    rw [hfind]
    exact ha x hend

theorem parallel_nil (σ : Env V) : parallel σ [] = σ := rfl

/-- Running the statement for the phi nodes. -/
theorem phiStmt_run {b : Nat} {term : Term V} (hnd : ((phiCode fn b term).map Prod.fst).Nodup) {code : Label → List (Stmt V)}
    {rest : List (Stmt V)} {st : St V M} {o : Outcome V M} :
    (∀ n, BRun P code n rest { st with env := parallel st.env (phiCode fn b term) } o →
      ∃ n', BRun P code n' (phiStmt fn b term ++ rest) st o) ∧
    (∀ n, BRun P code n (phiStmt fn b term ++ rest) st o →
      ∃ n', n' ≤ n ∧ BRun P code n' rest { st with env := parallel st.env (phiCode fn b term) } o) := by
  unfold phiStmt
  by_cases he : (phiCode fn b term).isEmpty = true
  · rw [if_pos he]
    rw [List.isEmpty_iff] at he
    rw [he]
    exact ⟨fun n h => ⟨n, h⟩, fun n h => ⟨n, Nat.le_refl n, h⟩⟩
  · rw [if_neg he]
    refine ⟨fun n h => ⟨n + 1, BRun.assign n _ _ _ _ hnd h⟩, fun n h => ?_⟩
    cases h with
    | assign n _ _ _ _ _ h => exact ⟨n, by omega, h⟩

/-! ## Dispatch -/

theorem filter_target (ts : List (Cond V × Nat)) (hn : (ts.map Prod.snd).Nodup) {c : Cond V} {t : Nat} (h : (c, t) ∈ ts) :
    (ts.filter fun p => p.2 = t) = [(c, t)] := by
  induction ts with
  | nil => cases h
  | cons p ts ih =>
    rw [List.map_cons, List.nodup_cons] at hn
    rcases List.mem_cons.mp h with rfl | h
    · rw [List.filter_cons, if_pos (by simp)]
      congr 1
      rw [List.filter_eq_nil_iff]
      intro q hq
      simp only [decide_eq_true_eq]
      intro e
      have hm := List.mem_map_of_mem (f := Prod.snd) hq
      rw [e] at hm
      exact hn.1 hm
    · have : p.2 ≠ t := fun e => hn.1 (by rw [e]; exact List.mem_map_of_mem (f := Prod.snd) h)
      rw [List.filter_cons, if_neg (by simpa using this)]
      exact ih hn.2 h

theorem dispCode_lt (b : Nat) : ∀ (ts : List (Cond V × Nat)) (i j : Nat), j < i → dispCode fn b ts i j = []
  | [], _, _, _ => rfl
  | (c, t) :: ts, i, j, h => by
    rw [dispCode, if_neg (by omega), dispCode_lt b ts (i + 1) j (by omega)]
    rfl

/-- The labels of a terminator: for each of them a target, and the code under it. -/
theorem dispLabels_spec (b : Nat) : ∀ (ts : List (Cond V × Nat)) (i : Nat) (l : Label), l ∈ dispLabels fn b ts i →
    ∃ c t, (c, t) ∈ ts ∧ ((uniquePred fn t = some b ∧ l = .real t) ∨
      (uniquePred fn t ≠ some b ∧ ∃ j, i ≤ j ∧ l = .disp b j ∧ dispCode fn b ts i j = [.assume c, .goto [.real t]]))
  | [], _, _, h => by cases h
  | (c, t) :: ts, i, l, h => by
    rw [dispLabels, List.mem_cons] at h
    rcases h with rfl | h
    · refine ⟨c, t, by simp, ?_⟩
      by_cases hu : uniquePred fn t = some b
      · rw [if_pos hu]; exact .inl ⟨hu, rfl⟩
      · rw [if_neg hu]
        refine .inr ⟨hu, i, Nat.le_refl i, rfl, ?_⟩
        rw [dispCode, if_pos ⟨rfl, hu⟩, dispCode_lt b ts (i + 1) i (by omega)]
        rfl
    · obtain ⟨c', t', hm, h'⟩ := dispLabels_spec b ts (i + 1) l h
      refine ⟨c', t', List.mem_cons_of_mem _ hm, ?_⟩
      rcases h' with h' | ⟨hu, j, hj, rfl, hd⟩
      · exact .inl h'
      · refine .inr ⟨hu, j, by omega, rfl, ?_⟩
        rw [dispCode, if_neg (by omega), hd]
        rfl

theorem dispLabels_mem (b : Nat) : ∀ (ts : List (Cond V × Nat)) (i : Nat) (c : Cond V) (t : Nat), (c, t) ∈ ts →
    ∃ l ∈ dispLabels fn b ts i, (uniquePred fn t = some b ∧ l = .real t) ∨
      (uniquePred fn t ≠ some b ∧ ∃ j, i ≤ j ∧ l = .disp b j ∧ dispCode fn b ts i j = [.assume c, .goto [.real t]])
  | [], _, _, _, h => by cases h
  | (c', t') :: ts, i, c, t, h => by
    rcases List.mem_cons.mp h with e | h
    · obtain ⟨rfl, rfl⟩ := Prod.mk.inj e
      refine ⟨_, by rw [dispLabels]; exact List.mem_cons_self, ?_⟩
      by_cases hu : uniquePred fn t = some b
      · rw [if_pos hu]; exact .inl ⟨hu, rfl⟩
      · rw [if_neg hu]
        refine .inr ⟨hu, i, Nat.le_refl i, rfl, ?_⟩
        rw [dispCode, if_pos ⟨rfl, hu⟩, dispCode_lt b ts (i + 1) i (by omega)]
        rfl
    · obtain ⟨l, hl, h'⟩ := dispLabels_mem b ts (i + 1) c t h
      refine ⟨l, by rw [dispLabels]; exact List.mem_cons_of_mem _ hl, ?_⟩
      rcases h' with h' | ⟨hu, j, hj, rfl, hd⟩
      · exact .inl h'
      · refine .inr ⟨hu, j, by omega, rfl, ?_⟩
        rw [dispCode, if_neg (by omega), hd]
        rfl

/-- The Boogie block of a block that is not the only successor-with-condition of its unique predecessor. -/
theorem real_plain {b t : Nat} (ht : t < fn.length) (he : Edge fn b t) (hu : uniquePred fn t ≠ some b) :
    translate fn (.real t) = own fn t := by
  rw [translate_real fn t ht]
  cases h : uniquePred fn t with
  | none => rfl
  | some p => exact absurd (by rw [h, uniquePred_eq h he]) hu

theorem real_unique {b t : Nat} {blk : Block V} (hb : fn[b]? = some blk) (ht : t < fn.length) (hu : uniquePred fn t = some b)
    (h2 : (targets blk.term).length > 1) (hd : ((targets blk.term).map Prod.snd).Nodup) {c : Cond V}
    (hc : (c, t) ∈ targets blk.term) : translate fn (.real t) = .assume c :: own fn t := by
  have hbl : b < fn.length := (List.getElem?_eq_some_iff.mp hb).1
  rw [translate_real fn t ht, hu]
  simp only [if_pos hbl]
  unfold ins
  rw [hb]
  simp only [if_pos h2]
  unfold insOf
  rw [if_pos hu, filter_target _ hd hc]
  rfl

theorem real_single {b t : Nat} {blk : Block V} (hb : fn[b]? = some blk) (ht : t < fn.length) (he : Edge fn b t)
    (h2 : ¬ (targets blk.term).length > 1) : translate fn (.real t) = own fn t := by
  by_cases hu : uniquePred fn t = some b
  · have hbl : b < fn.length := (List.getElem?_eq_some_iff.mp hb).1
    rw [translate_real fn t ht, hu]
    simp only [if_pos hbl]
    unfold ins
    rw [hb]
    simp only [if_neg h2, List.nil_append]
  · exact real_plain ht he hu

/-- Running the goto of a terminator with several targets. -/
theorem dispatch_run {b : Nat} {blk : Block V} (hb : fn[b]? = some blk) (hsu : ∀ t, Edge fn b t → t < fn.length)
    (h2 : (targets blk.term).length > 1) (hts : (targets blk.term).map Prod.snd = blk.term.succs) (hd : blk.term.succs.Nodup)
    {rest : List (Stmt V)} {st : St V M} {o : Outcome V M} :
    (∀ c t n, (c, t) ∈ targets blk.term → holds P st.env st.mem c = true → BRun P (translate fn) n (own fn t) st o →
      ∃ n', BRun P (translate fn) n' (gotoCode fn b (targets blk.term) ++ rest) st o) ∧
    (∀ n, BRun P (translate fn) n (gotoCode fn b (targets blk.term) ++ rest) st o →
      ∃ c t n', (c, t) ∈ targets blk.term ∧ n' < n ∧ holds P st.env st.mem c = true ∧ BRun P (translate fn) n' (own fn t) st o) := by
  have hbl : b < fn.length := (List.getElem?_eq_some_iff.mp hb).1
  have hedge : ∀ c t, (c, t) ∈ targets blk.term → Edge fn b t := fun c t h =>
    ⟨blk, hb, by rw [← hts]; exact List.mem_map_of_mem (f := Prod.snd) h⟩
  have hdisp : ∀ j, translate fn (.disp b j) = dispCode fn b (targets blk.term) 0 j := by
    intro j
    rw [translate_disp fn b j hbl]
    unfold disp
    rw [hb]
    simp only [if_pos h2]
  unfold gotoCode
  rw [if_pos h2]
  constructor
  · intro c t n hc hh hr
    have ht := hsu t (hedge c t hc)
    obtain ⟨l, hl, h⟩ := dispLabels_mem (fn := fn) b (targets blk.term) 0 c t hc
    rcases h with ⟨hu, rfl⟩ | ⟨hu, j, _, rfl, hj⟩
    · refine ⟨n + 1 + 1, BRun.goto (n + 1) _ _ _ _ _ hl ?_⟩
      rw [real_unique hb ht hu h2 (by rw [hts]; exact hd) hc]
      exact BRun.assume n c _ _ _ hh hr
    · refine ⟨n + 1 + 1 + 1, BRun.goto (n + 1 + 1) _ _ _ _ _ hl ?_⟩
      rw [hdisp, hj]
      refine BRun.assume (n + 1) c _ _ _ hh (BRun.goto n _ _ _ (.real t) _ (by simp) ?_)
      rw [real_plain ht (hedge c t hc) hu]
      exact hr
  · intro n h
    cases h with
    | goto n _ _ _ l _ hl h =>
      obtain ⟨c, t, hc, h'⟩ := dispLabels_spec b (targets blk.term) 0 l hl
      have ht := hsu t (hedge c t hc)
      rcases h' with ⟨hu, rfl⟩ | ⟨hu, j, _, rfl, hj⟩
      · rw [real_unique hb ht hu h2 (by rw [hts]; exact hd) hc] at h
        cases h with
        | assume n _ _ _ _ hh h => exact ⟨c, t, n, hc, by omega, hh, h⟩
      · rw [hdisp, hj] at h
        cases h with
        | assume n _ _ _ _ hh h =>
          cases h with
          | goto n _ _ _ l' _ hl' h =>
            simp only [List.mem_singleton] at hl'
            subst hl'
            rw [real_plain ht (hedge c t hc) hu] at h
            exact ⟨c, t, n, hc, by omega, hh, h⟩

/-! ## The simulation -/

/-- The code of a terminator that passes control to another block. -/
theorem term_jump (hs : Ssa fn) (hpl : Plain fn) (hn : Normalised fn) {b : Nat} {blk : Block V} (hr : Reach fn b)
    (hb : fn[b]? = some blk) {ρ σ : Env V} {m : M} (ha : agree (AvailEnd fn b) ρ σ) (hj : blk.term.succs ≠ [])
    {r : Option V} {o : Outcome V M} :
    (∀ t blk' n, next P ρ m blk.term = some t → fn[t]? = some blk' →
      BRun P (translate fn) n (own fn t) ⟨parallel σ (phiCode fn b blk.term), m, r⟩ o →
      ∃ n', BRun P (translate fn) n' (termCode fn b blk.term) ⟨σ, m, r⟩ o) ∧
    (∀ n, BRun P (translate fn) n (termCode fn b blk.term) ⟨σ, m, r⟩ o →
      ∃ t n', next P ρ m blk.term = some t ∧ n' < n ∧
        BRun P (translate fn) n' (own fn t) ⟨parallel σ (phiCode fn b blk.term), m, r⟩ o) := by
  have hd := hpl.distinct b blk hb
  have hnd := phiCode_nodup (b := b) hs hd
  have hsu : ∀ t, Edge fn b t → t < fn.length := hs.succs b
  have hinv : ∀ n u, blk.term = .invoke n u → phiCode fn b blk.term = [] := by
    intro n u he
    apply List.eq_nil_iff_forall_not_mem.mpr
    intro q hq
    obtain ⟨s, hsm, blk', hf, p, hp, _⟩ := mem_phiCode.mp hq
    rw [he] at hsm
    rw [hpl.invoke b blk n u hb he s hsm blk' hf] at hp
    cases hp
  cases ht : blk.term with
  | ret v => rw [ht] at hj; exact absurd rfl hj
  | resume v => rw [ht] at hj; exact absurd rfl hj
  | unreachable => rw [ht] at hj; exact absurd rfl hj
  | switch c cs d => exact absurd ht (hpl.noSwitch b blk c cs d hb)
  | br t =>
    rw [ht] at hnd
    have hedge : Edge fn b t := ⟨blk, hb, by rw [ht]; simp [Term.succs]⟩
    have hreal : translate fn (.real t) = own fn t := real_single hb (hsu t hedge) hedge (by rw [ht]; simp [targets])
    have hps := phiStmt_run (P := P) (fn := fn) (b := b) (term := .br t) hnd (code := translate fn) (rest := gotoCode fn b (targets (.br t)))
      (st := ⟨σ, m, r⟩) (o := o)
    have hgc : gotoCode fn b (targets (.br t) : List (Cond V × Nat)) = [.goto [.real t]] := rfl
    rw [hgc] at hps
    show (∀ t' blk' n, some t = some t' → _ → _ → ∃ n', BRun P (translate fn) n' (phiStmt fn b (.br t) ++ gotoCode fn b (targets (.br t))) _ o) ∧
      ∀ n, BRun P (translate fn) n (phiStmt fn b (.br t) ++ gotoCode fn b (targets (.br t))) _ o → ∃ t' n', some t = some t' ∧ _
    rw [hgc]
    constructor
    · intro t' blk' n e _ h
      have := Option.some.inj e
      subst this
      refine hps.1 (n + 1) (BRun.goto n _ _ _ (.real t) _ (by simp) ?_)
      rw [hreal]; exact h
    · intro n h
      obtain ⟨n', hn', h⟩ := hps.2 n h
      cases h with
      | goto n _ _ _ l _ hl h =>
        simp only [List.mem_singleton] at hl
        subst hl
        rw [hreal] at h
        exact ⟨t, n, rfl, by omega, h⟩
  | cbr c t f =>
    have htm := hs.term b blk hb
    have hav : OpdIs (AvailEnd fn b) c := htm c (by rw [ht]; simp [Term.uses])
    have h2 : 1 < blk.term.succs.length := by rw [ht]; simp [Term.succs]
    have hkeep : eval (parallel σ (phiCode fn b blk.term)) c = eval ρ c := by
      rw [eval_agree ha hav]
      cases c with
      | const v => rfl
      | var x => exact parallel_keeps hn hr hb h2 σ hav
    have hdr := dispatch_run (P := P) (rest := []) (st := ⟨parallel σ (phiCode fn b blk.term), m, r⟩) (o := o) hb hsu
      (by rw [ht]; simp [targets]) (by rw [ht]; simp [targets, Term.succs]) hd
    rw [ht] at hnd hkeep hdr
    rw [List.append_nil] at hdr
    have hps := phiStmt_run (P := P) (fn := fn) (b := b) (term := .cbr c t f) hnd (code := translate fn)
      (rest := [.annot (some c)] ++ gotoCode fn b (targets (.cbr c t f))) (st := ⟨σ, m, r⟩) (o := o)
    rw [← List.append_assoc] at hps
    constructor
    · intro t' blk' n e _ h
      have e : (if eval ρ c = P.one then t else f) = t' := Option.some.inj e
      have key : ∃ cd, (cd, t') ∈ targets (.cbr c t f) ∧ holds P (parallel σ (phiCode fn b (.cbr c t f))) m cd = true := by
        by_cases hc : eval ρ c = P.one
        · rw [if_pos hc] at e
          subst e
          exact ⟨.isOne c, by simp [targets], by simp [holds, hkeep, hc]⟩
        · rw [if_neg hc] at e
          subst e
          exact ⟨.notOne c, by simp [targets], by simp [holds, hkeep, hc]⟩
      obtain ⟨cd, hm, hh⟩ := key
      obtain ⟨n', h'⟩ := hdr.1 cd t' n hm hh h
      exact hps.1 (n' + 1) (BRun.annot n' _ _ _ _ h')
    · intro n h
      obtain ⟨n', hn', h⟩ := hps.2 n h
      cases h with
      | annot n _ _ _ _ h =>
        obtain ⟨cd, t', n', hm, hlt, hh, h'⟩ := hdr.2 n h
        refine ⟨t', n', ?_, by omega, h'⟩
        simp only [targets, List.mem_cons, List.not_mem_nil, or_false, Prod.mk.injEq] at hm
        rcases hm with ⟨rfl, rfl⟩ | ⟨rfl, rfl⟩
        · simp only [holds, hkeep, decide_eq_true_eq] at hh
          simp [next, hh]
        · simp [holds, hkeep] at hh
          simp [next, hh]
  | invoke nn u =>
    have hph := hinv nn u ht
    have hdr := dispatch_run (P := P) (rest := []) (st := ⟨parallel σ (phiCode fn b blk.term), m, r⟩) (o := o) hb hsu
      (by rw [ht]; simp [targets]) (by rw [ht]; simp [targets, Term.succs]) hd
    rw [ht] at hdr hph
    rw [List.append_nil] at hdr
    rw [hph, parallel_nil] at hdr ⊢
    constructor
    · intro t' blk' n e _ h
      have e : (if P.exn m = true then u else nn) = t' := Option.some.inj e
      have key : ∃ cd, (cd, t') ∈ targets (.invoke nn u : Term V) ∧ holds P σ m cd = true := by
        by_cases hc : P.exn m = true
        · rw [if_pos hc] at e
          subst e
          exact ⟨.exn, by simp [targets], by simp [holds, hc]⟩
        · rw [if_neg hc] at e
          subst e
          exact ⟨.notExn, by simp [targets], by simp [holds, hc]⟩
      obtain ⟨cd, hm, hh⟩ := key
      obtain ⟨n', h'⟩ := hdr.1 cd t' n hm hh h
      exact ⟨n' + 1, BRun.annot n' _ _ _ _ h'⟩
    · intro n h
      cases h with
      | annot n _ _ _ _ h =>
        obtain ⟨cd, t', n', hm, hlt, hh, h'⟩ := hdr.2 n h
        refine ⟨t', n', ?_, by omega, h'⟩
        simp only [targets, List.mem_cons, List.not_mem_nil, or_false, Prod.mk.injEq] at hm
        rcases hm with ⟨rfl, rfl⟩ | ⟨rfl, rfl⟩
        · simp [holds] at hh
          simp [next, hh]
        · simp [holds] at hh
          simp [next, hh]

theorem next_mem {ρ : Env V} {m : M} {t : Term V} {s : Nat} (h : next P ρ m t = some s) : s ∈ t.succs := by
  cases t with
  | ret v => cases h
  | resume v => cases h
  | unreachable => cases h
  | br t => have := Option.some.inj h; subst this; simp [Term.succs]
  | cbr c t f =>
    have h := Option.some.inj h
    subst h
    by_cases hc : eval ρ c = P.one <;> simp [hc, Term.succs]
  | invoke n u =>
    have h := Option.some.inj h
    subst h
    by_cases hc : P.exn m = true <;> simp [hc, Term.succs]
  | switch c cs d =>
    have h := Option.some.inj h
    cases hf : cs.find? (fun p => p.1 = eval ρ c) with
    | none => rw [hf] at h; simp only at h; subst h; simp [Term.succs]
    | some p =>
      rw [hf] at h
      simp only at h
      subst h
      exact List.mem_cons_of_mem _ (List.mem_map_of_mem (f := Prod.snd) (List.mem_of_find?_eq_some hf))

/-- The code of a terminator that leaves the function. -/
theorem term_leave (hs : Ssa fn) {b : Nat} {blk : Block V} (hb : fn[b]? = some blk) {ρ σ : Env V} {m : M}
    (ha : agree (AvailEnd fn b) ρ σ) (hj : blk.term.succs = []) (hsw : ∀ c cs d, blk.term ≠ .switch c cs d) {o : Outcome V M} :
    (leave P ρ m blk.term = some o → ∃ n', BRun P (translate fn) n' (termCode fn b blk.term) ⟨σ, m, none⟩ o) ∧
    (∀ n, BRun P (translate fn) n (termCode fn b blk.term) ⟨σ, m, none⟩ o → leave P ρ m blk.term = some o) := by
  have htm := hs.term b blk hb
  cases ht : blk.term with
  | br t => rw [ht] at hj; cases hj
  | cbr c t f => rw [ht] at hj; cases hj
  | switch c cs d => exact absurd ht (hsw c cs d)
  | invoke n u => rw [ht] at hj; cases hj
  | unreachable =>
    constructor
    · intro h; cases h
    · intro n h
      cases h with
      | assume _ _ _ _ _ hh _ => cases hh
  | resume v =>
    have hv : eval ρ v = eval σ v := eval_agree ha (htm v (by rw [ht]; simp [Term.uses]))
    constructor
    · intro h
      have h := Option.some.inj h
      subst h
      rw [hv]
      exact ⟨_, BRun.setExn _ _ _ _ _ (BRun.setExnVal _ _ _ _ _ (BRun.return_ 0 _ _))⟩
    · intro n h
      cases h with
      | setExn _ _ _ _ _ h =>
        cases h with
        | setExnVal _ _ _ _ _ h =>
          cases h with
          | return_ => simp [leave, hv]
  | ret v =>
    cases v with
    | none =>
      constructor
      · intro h
        have h := Option.some.inj h
        subst h
        exact ⟨_, BRun.setExn _ _ _ _ _ (BRun.return_ 0 _ _)⟩
      · intro n h
        cases h with
        | setExn _ _ _ _ _ h =>
          cases h with
          | return_ => simp [leave]
    | some v =>
      have hv : eval ρ v = eval σ v := eval_agree ha (htm v (by rw [ht]; simp [Term.uses]))
      constructor
      · intro h
        have h := Option.some.inj h
        subst h
        simp only [Option.map_some, hv]
        exact ⟨_, BRun.setRet _ _ _ _ _ (BRun.setExn _ _ _ _ _ (BRun.return_ 0 _ _))⟩
      · intro n h
        cases h with
        | setRet _ _ _ _ _ h =>
          cases h with
          | setExn _ _ _ _ _ h =>
            cases h with
            | return_ => simp [leave, hv]

theorem own_eq {b : Nat} {blk : Block V} (hb : fn[b]? = some blk) : own fn b = blk.body.map .instr ++ termCode fn b blk.term := by
  unfold own
  rw [hb]

theorem sim_fwd (hs : Ssa fn) (hpl : Plain fn) (hn : Normalised fn) {b : Nat} {ρ : Env V} {m : M} {o : Outcome V M}
    (h : Run P fn b ρ m o) : Reach fn b → ∀ σ, agree (Avail fn b 0) ρ σ → ∃ n, BRun P (translate fn) n (own fn b) ⟨σ, m, none⟩ o := by
  induction h with
  | fail b blk ρ m o hb hf =>
    intro _ σ ha
    rw [own_eq hb]
    exact body_fail_fwd P hs hb blk.body [] ρ σ m o rfl hf ha _ _
  | leave b blk ρ m ρ₁ m₁ o hb he hl =>
    intro _ σ ha
    rw [own_eq hb]
    obtain ⟨σ₁, ha₁, hc⟩ := body_fwd P hs hb (code := translate fn) blk.body [] ρ σ m ρ₁ m₁ rfl he ha
    have hj : blk.term.succs = [] := by
      cases ht : blk.term <;> rw [ht] at hl <;> first | rfl | cases hl
    obtain ⟨n, h⟩ := (term_leave hs hb ha₁ hj (hpl.noSwitch b blk · · · hb)).1 hl
    exact hc n _ o none h
  | step b blk ρ m ρ₁ m₁ t blk' o hb he hnx hb' _ ih =>
    intro hr σ ha
    rw [own_eq hb]
    obtain ⟨σ₁, ha₁, hc⟩ := body_fwd P hs hb (code := translate fn) blk.body [] ρ σ m ρ₁ m₁ rfl he ha
    have ht := next_mem hnx
    have hedge : Edge fn b t := ⟨blk, hb, ht⟩
    obtain ⟨n, h⟩ := ih (.step b t hr hedge) _ (parallel_agree hs hn hr hb (hpl.distinct b blk hb) ht hb' ha₁)
    obtain ⟨n', h'⟩ := (term_jump (P := P) (m := m₁) (r := none) (o := o) hs hpl hn hr hb ha₁ (List.ne_nil_of_mem ht)).1 t blk' n hnx hb' h
    exact hc n' _ o none h'

theorem sim_bwd (hs : Ssa fn) (hpl : Plain fn) (hn : Normalised fn) (n : Nat) : ∀ (b : Nat) (ρ σ : Env V) (m : M) (o : Outcome V M),
    b < fn.length → Reach fn b → agree (Avail fn b 0) ρ σ → BRun P (translate fn) n (own fn b) ⟨σ, m, none⟩ o → Run P fn b ρ m o := by
  induction n using Nat.strongRecOn with
  | _ n ih =>
    intro b ρ σ m o hbl hr ha h
    have hb : fn[b]? = some fn[b] := List.getElem?_eq_getElem hbl
    generalize fn[b] = blk at hb
    rw [own_eq hb] at h
    rcases body_bwd P hs hb blk.body [] ρ σ m n o none rfl h ha with hf | ⟨ρ₁, m₁, σ₁, n₁, hn₁, he, ha₁, h₁⟩
    · exact .fail b blk ρ m o hb hf
    · by_cases hj : blk.term.succs = []
      · exact .leave b blk ρ m ρ₁ m₁ o hb he ((term_leave hs hb ha₁ hj (hpl.noSwitch b blk · · · hb)).2 n₁ h₁)
      · obtain ⟨t, n₂, hnx, hlt, h₂⟩ := (term_jump (P := P) (m := m₁) (r := none) (o := o) hs hpl hn hr hb ha₁ hj).2 n₁ h₁
        have ht := next_mem hnx
        have hedge : Edge fn b t := ⟨blk, hb, ht⟩
        have htl := hs.succs b t hedge
        have hb' : fn[t]? = some fn[t] := List.getElem?_eq_getElem htl
        refine .step b blk ρ m ρ₁ m₁ t fn[t] o hb he hnx hb' ?_
        exact ih n₂ (by omega) t _ _ m₁ o htl (.step b t hr hedge)
          (parallel_agree hs hn hr hb (hpl.distinct b blk hb) ht hb' ha₁) h₂

/-- The Boogie block of the entry block. -/
theorem real_entry (hs : Ssa fn) : translate fn (.real 0) = own fn 0 := by
  rw [translate_real fn 0 hs.nonempty]
  cases h : uniquePred fn 0 with
  | none => rfl
  | some p => exact absurd (uniquePred_edge h) (hs.entry p)

end Smack.Cfg
