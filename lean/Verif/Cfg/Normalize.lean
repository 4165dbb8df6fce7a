/-
Lemmas: what NormalizeLoops does to a function.
-/
import Verif.Cfg.Sim

namespace Smack.Cfg

set_option linter.unusedSectionVars false

open Spec

variable {V M : Type} [DecidableEq V] {P : Params V M} {fn fn' : Fn V}

/-! ## Splitting, described block by block -/

/-- `fn'` comes from `fn` by redirecting, for each pair (b, f) of `m`, the edges from `b` to `h` to a new block `f`; the phi nodes of
`h` are renamed with `m'`. -/
structure Split (h : Nat) (m m' : List (Nat × Nat)) (fn fn' : Fn V) : Prop where
  len : fn'.length = fn.length + m.length
  old : ∀ (b : Nat) blk, fn[b]? = some blk → fn'[b]? = some
    { phis := if b = h then blk.phis.map (renamePhi m') else blk.phis
      body := blk.body
      term := match m.lookup b with | some f => blk.term.redirect h f | none => blk.term }
  new : ∀ q ∈ m, fn.length ≤ q.2 ∧ q.2 < fn'.length ∧ fn'[q.2]? = some ⟨[], [], .br h⟩ ∧
    ∃ blk, fn[q.1]? = some blk ∧ 1 < blk.term.succs.length ∧ h ∈ blk.term.succs
  inj : ∀ b f b', m.lookup b = some f → m.lookup b' = some f → b = b'
  keys : (m.map Prod.fst).Nodup
  all : ∀ f, fn.length ≤ f → f < fn'.length → ∃ b, m.lookup b = some f

theorem renamePhi_nil (p : Phi V) : renamePhi [] p = p := by
  unfold renamePhi
  have : (renameInc [] : Nat × Opd V → Nat × Opd V) = id := by funext q; rfl
  rw [this, List.map_id]

theorem renamePhi_nil_map (ps : List (Phi V)) : ps.map (renamePhi []) = ps := by
  have : (renamePhi [] : Phi V → Phi V) = id := funext renamePhi_nil
  rw [this, List.map_id]

theorem Split.refl (h : Nat) (fn : Fn V) : Split h [] [] fn fn where
  len := rfl
  old := by
    intro b blk hb
    rw [hb, renamePhi_nil_map]
    simp
  new := by intro q hq; cases hq
  inj := by intro b f b' h; cases h
  keys := List.nodup_nil
  all := by intro f h1 h2; omega

theorem splitBlock_split {h b : Nat} {s : Fn V × List (Nat × Nat)} (hs : Split h s.2 [] fn s.1) (hb : s.2.lookup b = none)
    (hbl : b < fn.length) : Split h (splitBlock h b s).2 [] fn (splitBlock h b s).1 := by
  obtain ⟨g, m⟩ := s
  unfold splitBlock
  simp only at hs hb ⊢
  have hb0 : fn[b]? = some fn[b] := List.getElem?_eq_getElem hbl
  generalize fn[b] = blk at hb0
  have hg := hs.old b blk hb0
  rw [hb, renamePhi_nil_map] at hg
  simp only [ite_self] at hg
  have hg : g[b]? = some blk := hg
  rw [hg]
  simp only
  by_cases h1 : blk.term.succs.length ≤ 1
  · rw [if_pos h1]; exact hs
  rw [if_neg h1]
  by_cases h2 : h ∈ blk.term.succs
  · rw [if_pos h2]
    have hlen := hs.len
    have hfr : ∀ q ∈ m, q.2 ≠ g.length := fun q hq => by have := (hs.new q hq).2.1; omega
    have hlk : ∀ x, m.lookup x ≠ some g.length := fun x hx => hfr _ (mem_of_lookup hx) rfl
    refine ⟨?_, ?_, ?_, ?_, ?_, ?_⟩
    · simp; omega
    · intro x blk' hx
      have hxl : x < fn.length := (List.getElem?_eq_some_iff.mp hx).1
      rw [List.getElem?_append_left (by simp; omega)]
      rw [List.lookup_cons]
      by_cases hxb : x = b
      · subst hxb
        rw [hx] at hb0
        have := Option.some.inj hb0
        subst this
        rw [List.getElem?_set_self (by omega), renamePhi_nil_map]
        simp
      · have : (x == b) = false := by simpa using hxb
        rw [this, List.getElem?_set_ne (by omega)]
        exact hs.old x blk' hx
    · intro q hq
      rcases List.mem_cons.mp hq with rfl | hq
      · refine ⟨by omega, by simp, ?_, blk, hb0, by omega, h2⟩
        simp only
        rw [List.getElem?_append_right (by simp)]
        simp
      · obtain ⟨n1, n2, n3, n4⟩ := hs.new q hq
        refine ⟨n1, by simp; omega, ?_, n4⟩
        rw [List.getElem?_append_left (by simp; omega), List.getElem?_set_ne (by omega)]
        exact n3
    · intro x f y hx hy
      rw [List.lookup_cons] at hx hy
      by_cases hxb : x = b
      · by_cases hyb : y = b
        · rw [hxb, hyb]
        · have e1 : (x == b) = true := by simpa using hxb
          have e2 : (y == b) = false := by simpa using hyb
          rw [e1] at hx; rw [e2] at hy
          have := Option.some.inj hx
          subst this
          exact absurd hy (hlk y)
      · have e1 : (x == b) = false := by simpa using hxb
        rw [e1] at hx
        by_cases hyb : y = b
        · have e2 : (y == b) = true := by simpa using hyb
          rw [e2] at hy
          have := Option.some.inj hy
          subst this
          exact absurd hx (hlk x)
        · have e2 : (y == b) = false := by simpa using hyb
          rw [e2] at hy
          exact hs.inj x f y hx hy
    · rw [List.map_cons, List.nodup_cons]
      refine ⟨?_, hs.keys⟩
      intro hm
      rw [List.mem_map] at hm
      obtain ⟨q, hq, e⟩ := hm
      have := lookup_of_mem hs.keys hq
      rw [e, hb] at this
      cases this
    · intro f hf1 hf2
      simp at hf2
      by_cases hfe : f = g.length
      · exact ⟨b, by rw [hfe]; simp⟩
      · obtain ⟨x, hx⟩ := hs.all f hf1 (by omega)
        refine ⟨x, ?_⟩
        rw [List.lookup_cons]
        have : (x == b) = false := by
          simp only [beq_eq_false_iff_ne]
          rintro rfl
          rw [hb] at hx; cases hx
        rw [this]
        exact hx
  · rw [if_neg h2]; exact hs

theorem splitBlock_lookup {h b x : Nat} {s : Fn V × List (Nat × Nat)} (hx : x ≠ b) :
    (splitBlock h b s).2.lookup x = s.2.lookup x := by
  unfold splitBlock
  cases s.1[b]? with
  | none => rfl
  | some blk =>
    simp only
    by_cases h1 : blk.term.succs.length ≤ 1
    · rw [if_pos h1]
    rw [if_neg h1]
    by_cases h2 : h ∈ blk.term.succs
    · rw [if_pos h2, List.lookup_cons]
      have : (x == b) = false := by simpa using hx
      rw [this]
    · rw [if_neg h2]

theorem foldl_split {h : Nat} : ∀ (bs : List Nat) (s : Fn V × List (Nat × Nat)), bs.Nodup → (∀ b ∈ bs, b < fn.length) →
    (∀ b ∈ bs, s.2.lookup b = none) → Split h s.2 [] fn s.1 →
    Split h (bs.foldl (fun s b => splitBlock h b s) s).2 [] fn (bs.foldl (fun s b => splitBlock h b s) s).1 ∧
    (∀ x, x ∉ bs → (bs.foldl (fun s b => splitBlock h b s) s).2.lookup x = s.2.lookup x) ∧
    (∀ x ∈ bs, ∀ blk, fn[x]? = some blk → 1 < blk.term.succs.length → h ∈ blk.term.succs →
      (bs.foldl (fun s b => splitBlock h b s) s).2.lookup x ≠ none)
  | [], s, _, _, _, hs => ⟨hs, fun _ _ => rfl, by intro x hx; cases hx⟩
  | b :: bs, s, hnd, hlt, hno, hs => by
    rw [List.nodup_cons] at hnd
    have hne : ∀ x ∈ bs, x ≠ b := fun x hx e => hnd.1 (e ▸ hx)
    have hb := hno b (by simp)
    have ih := foldl_split bs (splitBlock h b s) hnd.2 (fun x hx => hlt x (by simp [hx]))
      (fun x hx => by rw [splitBlock_lookup (hne x hx)]; exact hno x (by simp [hx]))
      (splitBlock_split hs hb (hlt b (by simp)))
    rw [List.foldl_cons]
    refine ⟨ih.1, ?_, ?_⟩
    · intro x hx
      rw [List.mem_cons, not_or] at hx
      rw [ih.2.1 x hx.2, splitBlock_lookup hx.1]
    · intro x hx blk hblk h1 h2
      rcases List.mem_cons.mp hx with rfl | hx
      · rw [ih.2.1 x hnd.1]
        have hg := hs.old x blk hblk
        rw [hb, renamePhi_nil_map] at hg
        simp only [ite_self] at hg
        have hg : s.1[x]? = some blk := hg
        unfold splitBlock
        rw [hg]
        simp only
        rw [if_neg (by omega), if_pos h2]
        simp
      · exact ih.2.2 x hx blk hblk h1 h2

theorem processPhis_split {h : Nat} {g : Fn V} {m : List (Nat × Nat)} (hh : h < fn.length) (hs : Split h m [] fn g) :
    Split h m m fn (processPhis h m g) := by
  unfold processPhis
  have hh0 : fn[h]? = some fn[h] := List.getElem?_eq_getElem hh
  generalize fn[h] = blk at hh0
  have hg := hs.old h blk hh0
  rw [renamePhi_nil_map] at hg
  simp only [ite_self] at hg
  rw [hg]
  simp only
  have hlen := hs.len
  refine ⟨by simp [hs.len], ?_, ?_, hs.inj, hs.keys, ?_⟩
  · intro b blk' hb
    by_cases hbh : b = h
    · subst hbh
      rw [hb] at hh0
      have := Option.some.inj hh0
      subst this
      rw [List.getElem?_set_self (by omega)]
      simp
    · rw [List.getElem?_set_ne (by omega), hs.old b blk' hb, if_neg hbh, if_neg hbh]
  · intro q hq
    obtain ⟨n1, n2, n3, n4⟩ := hs.new q hq
    refine ⟨n1, by simpa using n2, ?_, n4⟩
    rw [List.getElem?_set_ne (by omega)]
    exact n3
  · intro f h1 h2
    exact hs.all f h1 (by simpa using h2)

theorem mem_eraseDups' {l : List Nat} {x : Nat} : x ∈ l.eraseDups ↔ x ∈ l := List.mem_eraseDups

theorem nodup_eraseDups' (l : List Nat) : l.eraseDups.Nodup := by
  generalize hn : l.length = n
  induction n using Nat.strongRecOn generalizing l with
  | _ n ih =>
    cases l with
    | nil => exact List.nodup_nil
    | cons a l =>
      rw [List.eraseDups_cons, List.nodup_cons]
      have hle : (l.filter fun b => !b == a).length ≤ l.length := List.length_filter_le _ _
      refine ⟨?_, ih _ (by rw [← hn, List.length_cons]; omega) _ rfl⟩
      rw [mem_eraseDups', List.mem_filter]
      simp

/-- processLoop, block by block. -/
theorem processLoop_split (hs : Ssa fn) (l : Loop) (hh : l.header < fn.length) :
    ∃ m, Split l.header m m fn (processLoop l fn) ∧
      ∀ b blk hb, fn[b]? = some blk → fn[l.header]? = some hb → hb.phis ≠ [] → 1 < blk.term.succs.length →
        l.header ∈ blk.term.succs → b ∈ l.blocks → m.lookup b ≠ none := by
  have hh0 : fn[l.header]? = some fn[l.header] := List.getElem?_eq_getElem hh
  unfold processLoop
  generalize fn[l.header] = hb at hh0
  rw [hh0]
  simp only
  generalize hbs : ((hb.phis.flatMap fun p => p.inc.map Prod.fst).eraseDups.filter fun b => l.blocks.contains b) = bs
  have hnd : bs.Nodup := by rw [← hbs]; exact List.Nodup.sublist List.filter_sublist (nodup_eraseDups' _)
  have hmem : ∀ b ∈ bs, b < fn.length := by
    intro b hm
    rw [← hbs, List.mem_filter, mem_eraseDups', List.mem_flatMap] at hm
    obtain ⟨⟨p, hp, hm⟩, _⟩ := hm
    rw [List.mem_map] at hm
    obtain ⟨q, hq, rfl⟩ := hm
    exact edge_lt (hs.phiPreds _ hb hh0 p hp q hq)
  obtain ⟨h1, h2, h3⟩ := foldl_split (h := l.header) bs (fn, []) hnd hmem (fun _ _ => rfl) (Split.refl _ fn)
  refine ⟨_, processPhis_split hh h1, ?_⟩
  intro b blk hb' hblk hhb hne hlen hsu hbl
  have := Option.some.inj hhb
  subst this
  refine h3 b ?_ blk hblk hlen hsu
  rw [← hbs, List.mem_filter, mem_eraseDups', List.mem_flatMap]
  refine ⟨?_, by simpa using hbl⟩
  cases hp : hb.phis with
  | nil => exact absurd hp hne
  | cons p ps =>
    obtain ⟨o, ho, _⟩ := hs.phi b l.header hb ⟨blk, hblk, hsu⟩ hh0 p (by rw [hp]; simp)
    exact ⟨p, by simp, List.mem_map_of_mem (f := Prod.fst) (mem_of_lookup ho)⟩

theorem processLoop_none (l : Loop) (hh : ¬ l.header < fn.length) : processLoop l fn = fn := by
  unfold processLoop
  rw [List.getElem?_eq_none (by omega)]

/-! ## Redirected terminators -/

def sub (h f t : Nat) : Nat := if t = h then f else t

theorem redirect_succs (h f : Nat) (t : Term V) : (t.redirect h f).succs = t.succs.map (sub h f) := by
  cases t with
  | switch c cs d => simp only [Term.redirect, Term.succs, List.map_cons, List.map_map]; rfl
  | _ => rfl

theorem redirect_leave (h f : Nat) (t : Term V) (ρ : Env V) (m : M) : leave P ρ m (t.redirect h f) = leave P ρ m t := by
  cases t <;> rfl

theorem redirect_uses (h f : Nat) (t : Term V) : Term.uses (t.redirect h f) = Term.uses t := by
  cases t <;> rfl

theorem redirect_next (h f : Nat) (t : Term V) (ρ : Env V) (m : M) : next P ρ m (t.redirect h f) = (next P ρ m t).map (sub h f) := by
  cases t with
  | cbr c t e => simp only [Term.redirect, next, Option.map_some, sub]; congr 1; split <;> rfl
  | invoke n u => simp only [Term.redirect, next, Option.map_some, sub]; congr 1; split <;> rfl
  | switch c cs d =>
    simp only [Term.redirect, next, Option.map_some, Option.some.injEq]
    induction cs with
    | nil => rfl
    | cons p ps ih =>
      rw [List.map_cons, List.find?_cons, List.find?_cons]
      by_cases hp : p.1 = eval ρ c
      · simp only [hp, decide_true]; rfl
      · simp only [hp, decide_false]; exact ih
  | _ => rfl

/-! ## Paths -/

section
variable {h : Nat} {m : List (Nat × Nat)}

theorem Split.new_lookup (sp : Split h m m fn fn') {b f : Nat} (hl : m.lookup b = some f) :
    fn.length ≤ f ∧ fn'[f]? = some ⟨[], [], .br h⟩ ∧ ∃ blk, fn[b]? = some blk ∧ 1 < blk.term.succs.length ∧ h ∈ blk.term.succs := by
  obtain ⟨n1, _, n3, n4⟩ := sp.new _ (mem_of_lookup hl)
  exact ⟨n1, n3, n4⟩

theorem Split.edge_of_lookup (sp : Split h m m fn fn') {b f : Nat} (hl : m.lookup b = some f) : Edge fn b h := by
  obtain ⟨_, _, blk, hb, _, hm⟩ := sp.new_lookup hl
  exact ⟨blk, hb, hm⟩

/-- The edges of the new function. -/
theorem Split.edge_iff (sp : Split h m m fn fn') {b t : Nat} (hbl : b < fn.length) : Edge fn' b t ↔
    ∃ t', Edge fn b t' ∧ t = (match m.lookup b with | some f => sub h f t' | none => t') := by
  have hb : fn[b]? = some fn[b] := List.getElem?_eq_getElem hbl
  generalize fn[b] = blk at hb
  have hb' := sp.old b blk hb
  unfold Edge
  rw [hb', hb]
  cases m.lookup b with
  | none =>
    constructor
    · rintro ⟨blk', e, ht⟩
      have := Option.some.inj e; subst this
      exact ⟨t, ⟨blk, rfl, ht⟩, rfl⟩
    · rintro ⟨t', ⟨blk', e, ht⟩, rfl⟩
      have := Option.some.inj e; subst this
      exact ⟨_, rfl, ht⟩
  | some f =>
    constructor
    · rintro ⟨blk', e, ht⟩
      have := Option.some.inj e; subst this
      simp only [redirect_succs, List.mem_map] at ht
      obtain ⟨t', ht', rfl⟩ := ht
      exact ⟨t', ⟨blk, rfl, ht'⟩, rfl⟩
    · rintro ⟨t', ⟨blk', e, ht⟩, rfl⟩
      have := Option.some.inj e; subst this
      refine ⟨_, rfl, ?_⟩
      simp only [redirect_succs, List.mem_map]
      exact ⟨t', ht, rfl⟩

theorem Split.edge_new (sp : Split h m m fn fn') {b f t : Nat} (hl : m.lookup b = some f) : Edge fn' f t ↔ t = h := by
  obtain ⟨_, hf, _⟩ := sp.new_lookup hl
  unfold Edge
  rw [hf]
  constructor
  · rintro ⟨blk, e, ht⟩
    have := Option.some.inj e; subst this
    simpa [Term.succs] using ht
  · rintro rfl
    exact ⟨_, rfl, by simp [Term.succs]⟩

/-- Where a block of the new function lies in the old one. -/
def home (m : List (Nat × Nat)) (n x b : Nat) : Prop := (x < n ∧ b = x) ∨ m.lookup b = some x

theorem Split.home_exists (sp : Split h m m fn fn') {x : Nat} (hx : x < fn'.length) : ∃ b, home m fn.length x b := by
  by_cases h : x < fn.length
  · exact ⟨x, .inl ⟨h, rfl⟩⟩
  · obtain ⟨b, hb⟩ := sp.all x (by omega) hx
    exact ⟨b, .inr hb⟩

theorem Split.avoid_fwd (sp : Split h m m fn fn') {d b : Nat} (hd : d < fn.length) (ha : Avoid fn d b) : Avoid fn' d b := by
  induction ha with
  | entry h0 => exact .entry h0
  | step b t _ he hne ih =>
    have hbl := edge_lt he
    cases hl : m.lookup b with
    | none => exact .step b t ih ((sp.edge_iff hbl).mpr ⟨t, he, by rw [hl]⟩) hne
    | some f =>
      by_cases hth : t = h
      · have hf := sp.new_lookup hl
        have h1 : Avoid fn' d f := .step b f ih ((sp.edge_iff hbl).mpr ⟨t, he, by rw [hl]; simp [sub, hth]⟩) (by omega)
        exact .step f t h1 ((sp.edge_new hl).mpr hth) hne
      · exact .step b t ih ((sp.edge_iff hbl).mpr ⟨t, he, by rw [hl]; simp [sub, hth]⟩) hne

theorem Split.edge_back (sp : Split h m m fn fn') (hs : Ssa fn) {x t b : Nat} (hx : home m fn.length x b) (he : Edge fn' x t) :
    (t < fn.length ∧ Edge fn b t) ∨ (x = b ∧ m.lookup b = some t) := by
  rcases hx with ⟨hxl, rfl⟩ | hl
  · obtain ⟨t', he', ht⟩ := (sp.edge_iff hxl).mp he
    cases hl : m.lookup b with
    | none =>
      rw [hl] at ht
      subst ht
      exact .inl ⟨hs.succs _ _ he', he'⟩
    | some f =>
      rw [hl] at ht
      simp only [sub] at ht
      by_cases hth : t' = h
      · rw [if_pos hth] at ht
        subst ht
        exact .inr ⟨rfl, rfl⟩
      · rw [if_neg hth] at ht
        subst ht
        exact .inl ⟨hs.succs _ _ he', he'⟩
  · have := (sp.edge_new hl).mp he
    subst this
    have he' := sp.edge_of_lookup hl
    exact .inl ⟨hs.succs _ _ he', he'⟩

theorem Split.avoid_bwd (sp : Split h m m fn fn') (hs : Ssa fn) {d x : Nat} (ha : Avoid fn' d x) :
    ∃ b, home m fn.length x b ∧ (Avoid fn d b) := by
  induction ha with
  | entry h0 => exact ⟨0, .inl ⟨hs.nonempty, rfl⟩, .entry h0⟩
  | step x t _ he hne ih =>
    obtain ⟨b, hb, hav⟩ := ih
    rcases sp.edge_back hs hb he with ⟨htl, he'⟩ | ⟨rfl, hl⟩
    · exact ⟨t, .inl ⟨htl, rfl⟩, .step b t hav he' hne⟩
    · exact ⟨x, .inr hl, hav⟩

theorem Split.home_unique (sp : Split h m m fn fn') {x b b' : Nat} (h1 : home m fn.length x b) (h2 : home m fn.length x b') : b = b' := by
  rcases h1 with ⟨h1, rfl⟩ | h1 <;> rcases h2 with ⟨h2, rfl⟩ | h2
  · rfl
  · have := (sp.new_lookup h2).1; omega
  · have := (sp.new_lookup h1).1; omega
  · exact sp.inj _ _ _ h1 h2

theorem Split.reach_bwd (sp : Split h m m fn fn') (hs : Ssa fn) {x : Nat} (ha : Reach fn' x) :
    ∃ b, home m fn.length x b ∧ Reach fn b := by
  induction ha with
  | entry => exact ⟨0, .inl ⟨hs.nonempty, rfl⟩, .entry⟩
  | step x t _ he ih =>
    obtain ⟨b, hb, hr⟩ := ih
    rcases sp.edge_back hs hb he with ⟨htl, he'⟩ | ⟨rfl, hl⟩
    · exact ⟨t, .inl ⟨htl, rfl⟩, .step b t hr he'⟩
    · exact ⟨x, .inr hl, hr⟩

/-- Dominance by an old block is unchanged. -/
theorem Split.dom_iff (sp : Split h m m fn fn') (hs : Ssa fn) {d x b : Nat} (hd : d < fn.length) (hx : home m fn.length x b) :
    Dom fn' d x ↔ Dom fn d b := by
  apply not_congr
  constructor
  · intro ha
    obtain ⟨b', hb', h'⟩ := sp.avoid_bwd hs ha
    rw [sp.home_unique hx hb']
    exact h'
  · intro ha
    have h' := sp.avoid_fwd hd ha
    rcases hx with ⟨_, rfl⟩ | hl
    · exact h'
    · have he := sp.edge_of_lookup hl
      have := (sp.new_lookup hl).1
      exact .step b x h' ((sp.edge_iff (edge_lt he)).mpr ⟨h, he, by rw [hl]; simp [sub]⟩) (by omega)

theorem renamed_vars (ps : List (Phi V)) : (ps.map (renamePhi m)).map (·.var) = ps.map (·.var) := by
  rw [List.map_map]; rfl

theorem Split.block (sp : Split h m m fn fn') {x : Nat} {blk' : Block V} (hb' : fn'[x]? = some blk') :
    (∃ blk, fn[x]? = some blk ∧ blk'.phis = (if x = h then blk.phis.map (renamePhi m) else blk.phis) ∧ blk'.body = blk.body ∧
      blk'.term = (match m.lookup x with | some f => blk.term.redirect h f | none => blk.term)) ∨
    ((∃ b, m.lookup b = some x) ∧ blk' = ⟨[], [], .br h⟩) := by
  have hxl := (List.getElem?_eq_some_iff.mp hb').1
  by_cases hx : x < fn.length
  · left
    have hb : fn[x]? = some fn[x] := List.getElem?_eq_getElem hx
    generalize fn[x] = blk at hb
    have := sp.old x blk hb
    rw [this] at hb'
    have := Option.some.inj hb'
    subst this
    exact ⟨blk, hb, rfl, rfl, rfl⟩
  · right
    obtain ⟨b, hb⟩ := sp.all x (by omega) hxl
    refine ⟨⟨b, hb⟩, ?_⟩
    rw [(sp.new_lookup hb).2.1] at hb'
    exact (Option.some.inj hb').symm

theorem Split.defIn_iff (sp : Split h m m fn fn') {x : Var} {d : Nat} : DefIn fn' x d ↔ DefIn fn x d := by
  constructor
  · rintro ⟨blk', hb', hx⟩
    rcases sp.block hb' with ⟨blk, hb, h1, h2, _⟩ | ⟨_, rfl⟩
    · refine ⟨blk, hb, ?_⟩
      rw [h1, h2] at hx
      by_cases hd : d = h
      · rw [if_pos hd, renamed_vars] at hx; exact hx
      · rw [if_neg hd] at hx; exact hx
    · simp [dsts] at hx
  · rintro ⟨blk, hb, hx⟩
    refine ⟨_, sp.old d blk hb, ?_⟩
    simp only
    by_cases hd : d = h
    · rw [if_pos hd, renamed_vars]; exact hx
    · rw [if_neg hd]; exact hx

theorem defIn_lt {x : Var} {d : Nat} (hd : DefIn fn x d) : d < fn.length := by
  obtain ⟨blk, hb, _⟩ := hd
  exact (List.getElem?_eq_some_iff.mp hb).1

theorem Split.availEnd_iff (sp : Split h m m fn fn') (hs : Ssa fn) {x b : Nat} (hx : home m fn.length x b) {v : Var} :
    AvailEnd fn' x v ↔ AvailEnd fn b v := by
  constructor
  · intro ha d hd
    exact (sp.dom_iff hs (defIn_lt hd) hx).mp (ha d (sp.defIn_iff.mpr hd))
  · intro ha d hd
    have hd := sp.defIn_iff.mp hd
    exact (sp.dom_iff hs (defIn_lt hd) hx).mpr (ha d hd)

theorem Split.avail_of (sp : Split h m m fn fn') (hs : Ssa fn) {b i : Nat} (hb : b < fn.length) {v : Var} (ha : Avail fn b i v) :
    Avail fn' b i v := by
  intro d hd
  have hd := sp.defIn_iff.mp hd
  rcases ha d hd with ⟨hne, hdom⟩ | ⟨rfl, blk, hblk, hx⟩
  · exact .inl ⟨hne, (sp.dom_iff hs (defIn_lt hd) (.inl ⟨hb, rfl⟩)).mpr hdom⟩
  · refine .inr ⟨rfl, _, sp.old d blk hblk, ?_⟩
    simp only
    by_cases hdh : d = h
    · rw [if_pos hdh, renamed_vars]; exact hx
    · rw [if_neg hdh]; exact hx

theorem opdIs_mono {p q : Var → Prop} (hpq : ∀ x, p x → q x) {o : Opd V} (ho : OpdIs p o) : OpdIs q o := by
  cases o with
  | var x => exact hpq x ho
  | const v => trivial

/-! ## Renamed phi nodes -/

theorem lookup_renamed_fw (sp : Split h m m fn fn') {b f : Nat} (hl : m.lookup b = some f) :
    ∀ (inc : List (Nat × Opd V)), (∀ q ∈ inc, q.1 < fn.length) → (inc.map (renameInc m)).lookup f = inc.lookup b
  | [], _ => rfl
  | q :: inc, hq => by
    have ih := lookup_renamed_fw sp hl inc (fun q' h' => hq q' (by simp [h']))
    rw [List.map_cons, List.lookup_cons, List.lookup_cons]
    unfold renameInc
    cases hq' : m.lookup q.1 with
    | none =>
      simp only
      have h1 := (sp.new_lookup hl).1
      have h2 := hq q (by simp)
      have e1 : (f == q.1) = false := by simp; omega
      have e2 : (b == q.1) = false := by
        simp only [beq_eq_false_iff_ne]
        rintro rfl
        rw [hl] at hq'; cases hq'
      rw [e1, e2]
      exact ih
    | some f' =>
      simp only
      by_cases hbq : b = q.1
      · have e1 : (b == q.1) = true := by simpa using hbq
        rw [← hbq, hl] at hq'
        have := Option.some.inj hq'
        subst this
        rw [e1]
        simp
      · have e1 : (b == q.1) = false := by simpa using hbq
        have e2 : (f == f') = false := by
          simp only [beq_eq_false_iff_ne]
          rintro rfl
          exact hbq (sp.inj _ _ _ hl hq')
        rw [e1, e2]
        exact ih

theorem lookup_renamed_old (sp : Split h m m fn fn') {b : Nat} (hb : b < fn.length) (hl : m.lookup b = none) :
    ∀ (inc : List (Nat × Opd V)), (inc.map (renameInc m)).lookup b = inc.lookup b
  | [] => rfl
  | q :: inc => by
    have ih := lookup_renamed_old sp hb hl inc
    rw [List.map_cons, List.lookup_cons, List.lookup_cons, ih]
    unfold renameInc
    cases hq' : m.lookup q.1 with
    | none => rfl
    | some f' =>
      simp only
      have h1 := (sp.new_lookup hq').1
      have e1 : (b == f') = false := by simp; omega
      have e2 : (b == q.1) = false := by
        simp only [beq_eq_false_iff_ne]
        rintro rfl
        rw [hl] at hq'; cases hq'
      rw [e1, e2]

theorem enter_congr {ρ : Env V} {b b' : Nat} {f : Phi V → Phi V} (hv : ∀ p, (f p).var = p.var) : ∀ (ps : List (Phi V)),
    (∀ p ∈ ps, (f p).inc.lookup b' = p.inc.lookup b) → enter ρ b' (ps.map f) = enter ρ b ps
  | [], _ => rfl
  | p :: ps, h => by
    have ih := enter_congr (ρ := ρ) (b := b) (b' := b') hv ps (fun q hq => h q (by simp [hq]))
    funext x
    have ihx := congrFun ih x
    unfold enter at ihx ⊢
    rw [List.map_cons, List.find?_cons, List.find?_cons]
    rw [hv p]
    by_cases hx : p.var = x
    · simp only [hx, decide_true]
      rw [h p (by simp)]
    · simp only [hx, decide_false]
      exact ihx

/-! ## Runs -/

theorem Split.run_fwd (sp : Split h m m fn fn') (hs : Ssa fn) {b : Nat} {ρ : Env V} {mem : M} {o : Outcome V M}
    (hr : Run P fn b ρ mem o) : Run P fn' b ρ mem o := by
  induction hr with
  | fail b blk ρ mem o hb hf => exact .fail b _ ρ mem o (sp.old b blk hb) hf
  | leave b blk ρ mem ρ₁ m₁ o hb he hl =>
    refine .leave b _ ρ mem ρ₁ m₁ o (sp.old b blk hb) he ?_
    simp only
    cases m.lookup b with
    | none => exact hl
    | some f => simp only [redirect_leave]; exact hl
  | step b blk ρ mem ρ₁ m₁ t blk' o hb he hnx hb' _ ih =>
    have hbl := (List.getElem?_eq_some_iff.mp hb).1
    have hinc : ∀ p ∈ blk'.phis, ∀ q ∈ p.inc, q.1 < fn.length := fun p hp q hq => edge_lt (hs.phiPreds t blk' hb' p hp q hq)
    cases hl : m.lookup b with
    | none =>
      refine .step b _ ρ mem ρ₁ m₁ t _ o (sp.old b blk hb) he ?_ (sp.old t blk' hb') ?_
      · simp only [hl]; exact hnx
      · simp only
        by_cases hth : t = h
        · rw [if_pos hth, enter_congr (b := b) (f := renamePhi m) (fun _ => rfl) blk'.phis (fun p hp => lookup_renamed_old sp hbl hl p.inc)]
          exact ih
        · rw [if_neg hth]; exact ih
    | some f =>
      obtain ⟨hfl, hf, _⟩ := sp.new_lookup hl
      by_cases hth : t = h
      · refine .step b _ ρ mem ρ₁ m₁ f _ o (sp.old b blk hb) he ?_ hf ?_
        · simp only [hl, redirect_next, hnx, Option.map_some, sub, hth, if_pos]
        · refine .step f _ _ m₁ _ m₁ t _ o hf (.nil _ _) ?_ (sp.old t blk' hb') ?_
          · simp only [next, hth]
          · simp only
            rw [if_pos hth]
            have : (enter ρ₁ b ([] : List (Phi V))) = ρ₁ := rfl
            rw [this, enter_congr (b := b) (f := renamePhi m) (fun _ => rfl) blk'.phis
              (fun p hp => lookup_renamed_fw sp hl p.inc (hinc p hp))]
            exact ih
      · refine .step b _ ρ mem ρ₁ m₁ t _ o (sp.old b blk hb) he ?_ (sp.old t blk' hb') ?_
        · simp only [hl, redirect_next, hnx, Option.map_some, sub, hth, if_false]
        · simp only
          rw [if_neg hth]; exact ih

theorem Split.run_bwd (sp : Split h m m fn fn') (hs : Ssa fn) {x : Nat} {ρ : Env V} {mem : M} {o : Outcome V M}
    (hr : Run P fn' x ρ mem o) : (x < fn.length → Run P fn x ρ mem o) ∧
      (∀ b hb, m.lookup b = some x → fn[h]? = some hb → Run P fn h (enter ρ b hb.phis) mem o) := by
  induction hr with
  | fail x blk' ρ mem o hb' hf =>
    rcases sp.block hb' with ⟨blk, hb, _, h2, _⟩ | ⟨⟨b, hl⟩, rfl⟩
    · have hxl := (List.getElem?_eq_some_iff.mp hb).1
      refine ⟨fun _ => .fail x blk ρ mem o hb (h2 ▸ hf), fun b hb hl => ?_⟩
      have := (sp.new_lookup hl).1; omega
    · cases hf
  | leave x blk' ρ mem ρ₁ m₁ o hb' he hlv =>
    rcases sp.block hb' with ⟨blk, hb, _, h2, h3⟩ | ⟨⟨b, hl⟩, rfl⟩
    · have hxl := (List.getElem?_eq_some_iff.mp hb).1
      refine ⟨fun _ => .leave x blk ρ mem ρ₁ m₁ o hb (h2 ▸ he) ?_, fun b hb hl => ?_⟩
      · rw [h3] at hlv
        cases hl : m.lookup x with
        | none => rw [hl] at hlv; exact hlv
        | some f => rw [hl] at hlv; simp only [redirect_leave] at hlv; exact hlv
      · have := (sp.new_lookup hl).1; omega
    · cases hlv
  | step x blk' ρ mem ρ₁ m₁ t blkt o hb' he hnx ht' _ ih =>
    have hphis : ∀ (t b : Nat) blkt, t < fn.length → fn'[t]? = some blkt → (t = h → ∀ bt, fn[t]? = some bt → ∀ p ∈ bt.phis,
        (renamePhi m p).inc.lookup x = p.inc.lookup b) → (t ≠ h → b = x) →
        ∃ bt, fn[t]? = some bt ∧ enter ρ₁ x blkt.phis = enter ρ₁ b bt.phis := by
      intro t b blkt htl ht' h1 h2
      rcases sp.block ht' with ⟨bt, hbt, hp, _, _⟩ | ⟨⟨b', hl⟩, _⟩
      · refine ⟨bt, hbt, ?_⟩
        rw [hp]
        by_cases hth : t = h
        · rw [if_pos hth]
          exact enter_congr (f := renamePhi m) (fun _ => rfl) bt.phis (h1 hth bt hbt)
        · rw [if_neg hth, h2 hth]
      · have := (sp.new_lookup hl).1; omega
    rcases sp.block hb' with ⟨blk, hb, _, h2, h3⟩ | ⟨⟨b0, hl⟩, rfl⟩
    · have hxl := (List.getElem?_eq_some_iff.mp hb).1
      constructor
      · intro _
        have he : Exec P blk.body ρ mem ρ₁ m₁ := h2 ▸ he
        rw [h3] at hnx
        cases hl : m.lookup x with
        | none =>
          rw [hl] at hnx
          simp only at hnx
          have htl : t < fn.length := hs.succs x t ⟨blk, hb, next_mem hnx⟩
          obtain ⟨bt, hbt, hen⟩ := hphis t x blkt htl ht' (fun _ bt _ p _ => lookup_renamed_old sp hxl hl p.inc) (fun _ => rfl)
          refine .step x blk ρ mem ρ₁ m₁ t bt o hb he hnx hbt ?_
          rw [← hen]
          exact ih.1 htl
        | some f =>
          rw [hl] at hnx
          simp only [redirect_next] at hnx
          rw [Option.map_eq_some_iff] at hnx
          obtain ⟨t', hnx', hsub⟩ := hnx
          have htl : t' < fn.length := hs.succs x t' ⟨blk, hb, next_mem hnx'⟩
          by_cases hth : t' = h
          · have htf : t = f := by rw [← hsub]; simp [sub, hth]
            subst htf
            subst hth
            have hhb : fn[t']? = some fn[t'] := List.getElem?_eq_getElem htl
            generalize fn[t'] = hblk at hhb
            have hfb := (sp.new_lookup hl).2.1
            rw [hfb] at ht'
            have := Option.some.inj ht'
            subst this
            refine .step x blk ρ mem ρ₁ m₁ t' hblk o hb he hnx' hhb ?_
            exact ih.2 x hblk hl hhb
          · have : t = t' := by rw [← hsub]; simp [sub, hth]
            subst this
            obtain ⟨bt, hbt, hen⟩ := hphis t x blkt htl ht' (fun e => absurd e hth) (fun _ => rfl)
            refine .step x blk ρ mem ρ₁ m₁ t bt o hb he hnx' hbt ?_
            rw [← hen]
            exact ih.1 htl
      · intro b hb hl
        have := (sp.new_lookup hl).1; omega
    · have hfl := (sp.new_lookup hl).1
      refine ⟨fun hx => by omega, ?_⟩
      intro b hb hl' hhb
      have hhl := (List.getElem?_eq_some_iff.mp hhb).1
      have hnx : h = t := Option.some.inj hnx
      subst hnx
      cases he
      obtain ⟨bt, hbt, hen⟩ := hphis h b blkt hhl ht'
        (fun _ bt hbt p hp => lookup_renamed_fw sp hl' p.inc (fun q hq => edge_lt (hs.phiPreds h bt hbt p hp q hq)))
        (fun e => absurd rfl e)
      rw [hhb] at hbt
      have := Option.some.inj hbt
      subst this
      rw [← hen]
      exact ih.1 hhl

theorem Split.run_iff (sp : Split h m m fn fn') (hs : Ssa fn) {b : Nat} (hb : b < fn.length) {ρ : Env V} {mem : M} {o : Outcome V M} :
    Run P fn' b ρ mem o ↔ Run P fn b ρ mem o := ⟨fun hr => (sp.run_bwd hs hr).1 hb, sp.run_fwd hs⟩

/-! ## SSA form -/

theorem Split.ssa (sp : Split h m m fn fn') (hs : Ssa fn) : Ssa fn' where
  nonempty := by have := sp.len; have := hs.nonempty; omega
  unique := fun x d d' h1 h2 => hs.unique x d d' (sp.defIn_iff.mp h1) (sp.defIn_iff.mp h2)
  nodup := by
    intro b blk' hb'
    rcases sp.block hb' with ⟨blk, hb, h1, h2, _⟩ | ⟨_, rfl⟩
    · have := hs.nodup b blk hb
      rw [h1, h2]
      by_cases hbh : b = h
      · rw [if_pos hbh, renamed_vars]; exact this
      · rw [if_neg hbh]; exact this
    · simp [dsts]
  body := by
    intro b blk' i ins hb' hi o ho
    rcases sp.block hb' with ⟨blk, hb, _, h2, _⟩ | ⟨_, rfl⟩
    · rw [h2] at hi
      exact opdIs_mono (fun v => sp.avail_of hs (List.getElem?_eq_some_iff.mp hb).1) (hs.body b blk i ins hb hi o ho)
    · simp at hi
  term := by
    intro b blk' hb' o ho
    rcases sp.block hb' with ⟨blk, hb, _, _, h3⟩ | ⟨_, rfl⟩
    · have : o ∈ Term.uses blk.term := by
        rw [h3] at ho
        cases hl : m.lookup b with
        | none => rw [hl] at ho; exact ho
        | some f => rw [hl] at ho; simpa only [redirect_uses] using ho
      exact opdIs_mono (fun v => (sp.availEnd_iff hs (.inl ⟨(List.getElem?_eq_some_iff.mp hb).1, rfl⟩)).mpr) (hs.term b blk hb o this)
    · simp [Term.uses] at ho
  phi := by
    intro x t blk' he hb' p hp
    obtain ⟨b, hx⟩ := sp.home_exists (edge_lt he)
    have hlift : ∀ o : Opd V, OpdIs (AvailEnd fn b) o → OpdIs (AvailEnd fn' x) o :=
      fun o => opdIs_mono (fun v => (sp.availEnd_iff hs hx).mpr)
    rcases sp.block hb' with ⟨blk, hb, h1, _, _⟩ | ⟨_, rfl⟩
    · have htl := (List.getElem?_eq_some_iff.mp hb).1
      rcases sp.edge_back hs hx he with ⟨_, he'⟩ | ⟨rfl, hl⟩
      · rw [h1] at hp
        by_cases hth : t = h
        · rw [if_pos hth, List.mem_map] at hp
          obtain ⟨p0, hp0, rfl⟩ := hp
          obtain ⟨o, ho, hav⟩ := hs.phi b t blk he' hb p0 hp0
          refine ⟨o, ?_, hlift o hav⟩
          rcases hx with ⟨hxl, rfl⟩ | hl
          · cases hl : m.lookup b with
            | none => exact (lookup_renamed_old sp hxl hl p0.inc).trans ho
            | some f =>
              obtain ⟨t', he2, e⟩ := (sp.edge_iff hxl).mp he
              rw [hl] at e
              simp only [sub] at e
              have := (sp.new_lookup hl).1
              by_cases h' : t' = h
              · rw [if_pos h'] at e; omega
              · rw [if_neg h'] at e; omega
          · exact (lookup_renamed_fw sp hl p0.inc (fun q hq => edge_lt (hs.phiPreds t blk hb p0 hp0 q hq))).trans ho
        · rw [if_neg hth] at hp
          obtain ⟨o, ho, hav⟩ := hs.phi b t blk he' hb p hp
          rcases hx with ⟨hxl, rfl⟩ | hl
          · exact ⟨o, ho, hlift o hav⟩
          · exact absurd ((sp.edge_new hl).mp he) hth
      · have := (sp.new_lookup hl).1; omega
    · simp at hp
  phiPreds := by
    intro t blk' hb' p hp q hq
    rcases sp.block hb' with ⟨blk, hb, h1, _, _⟩ | ⟨_, rfl⟩
    · rw [h1] at hp
      by_cases hth : t = h
      · rw [if_pos hth, List.mem_map] at hp
        obtain ⟨p0, hp0, rfl⟩ := hp
        unfold renamePhi at hq
        simp only [List.mem_map] at hq
        obtain ⟨q0, hq0, rfl⟩ := hq
        have he := hs.phiPreds t blk hb p0 hp0 q0 hq0
        unfold renameInc
        cases hl : m.lookup q0.1 with
        | none => exact (sp.edge_iff (edge_lt he)).mpr ⟨t, he, by rw [hl]⟩
        | some f => exact (sp.edge_new hl).mpr hth
      · rw [if_neg hth] at hp
        have he := hs.phiPreds t blk hb p hp q hq
        refine (sp.edge_iff (edge_lt he)).mpr ⟨t, he, ?_⟩
        cases m.lookup q.1 with
        | none => rfl
        | some f => simp [sub, hth]
    · simp at hp
  succs := by
    intro x t he
    have hlen := sp.len
    obtain ⟨b, hx⟩ := sp.home_exists (edge_lt he)
    rcases sp.edge_back hs hx he with ⟨h1, _⟩ | ⟨_, hl⟩
    · omega
    · exact (sp.new _ (mem_of_lookup hl)).2.1
  entry := by
    intro x he
    obtain ⟨b, hx⟩ := sp.home_exists (edge_lt he)
    rcases sp.edge_back hs hx he with ⟨_, h1⟩ | ⟨_, hl⟩
    · exact hs.entry b h1
    · have := (sp.new_lookup hl).1
      have := hs.nonempty
      omega

theorem nodup_map_sub {h f : Nat} : ∀ (l : List Nat), l.Nodup → f ∉ l → (l.map (sub h f)).Nodup
  | [], _, _ => List.nodup_nil
  | a :: l, hn, hf => by
    rw [List.nodup_cons] at hn
    rw [List.mem_cons, not_or] at hf
    rw [List.map_cons, List.nodup_cons]
    refine ⟨?_, nodup_map_sub l hn.2 hf.2⟩
    intro hm
    rw [List.mem_map] at hm
    obtain ⟨c, hc, e⟩ := hm
    unfold sub at e
    by_cases h1 : c = h
    · by_cases h2 : a = h
      · exact hn.1 (by rw [h2, ← h1]; exact hc)
      · rw [if_pos h1, if_neg h2] at e
        exact hf.1 e
    · by_cases h2 : a = h
      · rw [if_neg h1, if_pos h2] at e
        exact hf.2 (e ▸ hc)
      · rw [if_neg h1, if_neg h2] at e
        exact hn.1 (e ▸ hc)

theorem Split.plain (sp : Split h m m fn fn') (hs : Ssa fn) (hp : Plain fn) : Plain fn' where
  noSwitch := by
    intro b blk' c cs d hb' ht
    rcases sp.block hb' with ⟨blk, hb, _, _, h3⟩ | ⟨_, rfl⟩
    · have hno := hp.noSwitch b blk
      rw [h3] at ht
      cases hl : m.lookup b with
      | none => rw [hl] at ht; exact hno _ _ _ hb ht
      | some f =>
        rw [hl] at ht
        simp only at ht
        cases hbt : blk.term with
        | switch c' cs' d' => exact hno _ _ _ hb hbt
        | _ => rw [hbt] at ht; cases ht
    · cases ht
  distinct := by
    intro b blk' hb'
    rcases sp.block hb' with ⟨blk, hb, _, _, h3⟩ | ⟨_, rfl⟩
    · have hd := hp.distinct b blk hb
      rw [h3]
      cases hl : m.lookup b with
      | none => exact hd
      | some f =>
        simp only [redirect_succs]
        refine nodup_map_sub _ hd ?_
        intro hm
        have := hs.succs b f ⟨blk, hb, hm⟩
        have := (sp.new_lookup hl).1
        omega
    · simp [Term.succs]
  invoke := by
    intro b blk' n u hb' ht t htm blkt hbt
    rcases sp.block hb' with ⟨blk, hb, _, _, h3⟩ | ⟨_, rfl⟩
    · rcases sp.block hbt with ⟨bt, hbt0, h1, _, _⟩ | ⟨_, rfl⟩
      · have htl := (List.getElem?_eq_some_iff.mp hbt0).1
        have key : bt.phis = [] := by
          rw [ht] at h3
          cases hl : m.lookup b with
          | none =>
            rw [hl] at h3
            exact hp.invoke b blk n u hb h3.symm t htm bt hbt0
          | some f =>
            rw [hl] at h3
            simp only at h3
            have hfl := (sp.new_lookup hl).1
            cases hbt : blk.term with
            | invoke n' u' =>
              rw [hbt] at h3
              simp only [Term.redirect, Term.invoke.injEq] at h3
              obtain ⟨e1, e2⟩ := h3
              refine hp.invoke b blk n' u' hb hbt t ?_ bt hbt0
              simp only [List.mem_cons, List.not_mem_nil, or_false] at htm ⊢
              rcases htm with rfl | rfl
              · left
                by_cases hc : n' = h
                · rw [if_pos hc] at e1; omega
                · rw [if_neg hc] at e1; exact e1
              · right
                by_cases hc : u' = h
                · rw [if_pos hc] at e2; omega
                · rw [if_neg hc] at e2; exact e2
            | _ => rw [hbt] at h3; cases h3
        rw [h1, key]
        simp
      · rfl
    · cases ht

/-! ## Edges back -/

theorem Split.multi (sp : Split h m m fn fn') {b t : Nat} (hm : Multi fn' b t) :
    Multi fn b t ∧ (t = h → m.lookup b = none) := by
  obtain ⟨blk', blkt', hb', hlen, hsu, hbt', hph⟩ := hm
  rcases sp.block hb' with ⟨blk, hb, _, _, h3⟩ | ⟨_, rfl⟩
  · rcases sp.block hbt' with ⟨bt, hbt, h1, _, _⟩ | ⟨_, rfl⟩
    · have hbl := (List.getElem?_eq_some_iff.mp hb).1
      have htl := (List.getElem?_eq_some_iff.mp hbt).1
      have hlen' : blk'.term.succs.length = blk.term.succs.length := by
        rw [h3]
        cases m.lookup b with
        | none => rfl
        | some f => simp only [redirect_succs, List.length_map]
      have hsu' : t ∈ blk.term.succs ∧ (t = h → m.lookup b = none) := by
        rw [h3] at hsu
        cases hl : m.lookup b with
        | none => rw [hl] at hsu; exact ⟨hsu, fun _ => rfl⟩
        | some f =>
          rw [hl] at hsu
          have hfl := (sp.new_lookup hl).1
          simp only [redirect_succs, List.mem_map] at hsu
          obtain ⟨t', ht', e⟩ := hsu
          unfold sub at e
          by_cases hth : t' = h
          · rw [if_pos hth] at e; omega
          · rw [if_neg hth] at e
            subst e
            exact ⟨ht', fun e => absurd e hth⟩
      refine ⟨⟨blk, bt, hb, by omega, hsu'.1, hbt, ?_⟩, hsu'.2⟩
      intro e
      rw [h1, e] at hph
      simp at hph
    · exact absurd rfl hph
  · simp [Term.succs] at hlen

/-- An edge from a reachable block with several successors to a dominating block with phi nodes. -/
def Bad (fn : Fn V) (b t : Nat) : Prop := Multi fn b t ∧ Reach fn b ∧ Dom fn t b

theorem Split.bad (sp : Split h m m fn fn') (hs : Ssa fn) {b t : Nat} (hbad : Bad fn' b t) : Bad fn b t := by
  obtain ⟨hm, hr, hdom⟩ := hbad
  have hm' := (sp.multi hm).1
  refine ⟨hm', ?_⟩
  obtain ⟨blk, bt, hb, _, _, hbt, _⟩ := hm'
  have hbl := (List.getElem?_eq_some_iff.mp hb).1
  have htl := (List.getElem?_eq_some_iff.mp hbt).1
  have hx : home m fn.length b b := .inl ⟨hbl, rfl⟩
  obtain ⟨b', hb'', hr'⟩ := sp.reach_bwd hs hr
  have := sp.home_unique hx hb''
  subst this
  exact ⟨hr', (sp.dom_iff hs htl hx).mp hdom⟩

end

/-! ## All loops -/

theorem processLoop_spec (l : Loop) (hs : Ssa fn) : Ssa (processLoop l fn) ∧ (Plain fn → Plain (processLoop l fn)) ∧
    fn.length ≤ (processLoop l fn).length ∧ (∀ b t, Bad (processLoop l fn) b t → Bad fn b t) ∧
    (∀ b t, Multi (processLoop l fn) b t → Multi fn b t ∧ (l.header = t → b ∉ l.blocks)) := by
  by_cases hh : l.header < fn.length
  · obtain ⟨m, sp, hall⟩ := processLoop_split hs l hh
    refine ⟨sp.ssa hs, sp.plain hs, by rw [sp.len]; omega, fun b t => sp.bad hs, ?_⟩
    intro b t hbad
    obtain ⟨h1, h2⟩ := sp.multi hbad
    refine ⟨h1, ?_⟩
    rintro rfl hbl
    obtain ⟨blk, blk', hb, hlen, hsu, hbt, hph⟩ := h1
    exact hall b blk blk' hb hbt hph hlen hsu hbl (h2 rfl)
  · rw [processLoop_none l hh]
    refine ⟨hs, fun h => h, Nat.le_refl _, fun b t hb => hb, fun b t hb => ⟨hb, ?_⟩⟩
    rintro rfl
    obtain ⟨blk, blk', hb, hlen, hsu, hbt, _⟩ := hb
    exact absurd (List.getElem?_eq_some_iff.mp hbt).1 hh

theorem processLoop_run (P : Params V M) (l : Loop) (hs : Ssa fn) {b : Nat} {ρ : Env V} {m : M} {o : Outcome V M} (hb : b < fn.length) :
    Run P (processLoop l fn) b ρ m o ↔ Run P fn b ρ m o := by
  by_cases hh : l.header < fn.length
  · obtain ⟨m, sp, hall⟩ := processLoop_split hs l hh
    exact sp.run_iff hs hb
  · rw [processLoop_none l hh]

theorem normalize_spec (ls : List Loop) : ∀ (fn : Fn V), Ssa fn →
    Ssa (normalize ls fn) ∧ (Plain fn → Plain (normalize ls fn)) ∧ fn.length ≤ (normalize ls fn).length ∧
    (∀ b t, Bad (normalize ls fn) b t → Bad fn b t) ∧
    (∀ b t, Multi (normalize ls fn) b t → Multi fn b t ∧ ∀ l ∈ ls, l.header = t → b ∉ l.blocks) := by
  induction ls with
  | nil =>
    intro fn hs
    exact ⟨hs, fun h => h, Nat.le_refl _, fun b t hb => hb, fun b t hb => ⟨hb, by intro l hl; cases hl⟩⟩
  | cons l ls ih =>
    intro fn hs
    obtain ⟨hs', hp', hlen, hbad, hmul⟩ := processLoop_spec l hs
    obtain ⟨i1, i2, i3, i5, i6⟩ := ih _ hs'
    refine ⟨i1, fun h => i2 (hp' h), Nat.le_trans hlen i3, fun b t hb => hbad b t (i5 b t hb), ?_⟩
    intro b t hb
    obtain ⟨j1, j2⟩ := i6 b t hb
    obtain ⟨k1, k2⟩ := hmul b t j1
    refine ⟨k1, fun l' hl' e => ?_⟩
    rcases List.mem_cons.mp hl' with rfl | hl'
    · exact k2 e
    · exact j2 l' hl' e

theorem normalize_run (P : Params V M) (ls : List Loop) : ∀ (fn : Fn V), Ssa fn → ∀ b ρ m o, b < fn.length →
    (Run P (normalize ls fn) b ρ m o ↔ Run P fn b ρ m o) := by
  induction ls with
  | nil => intro fn _ b ρ m o _; exact Iff.rfl
  | cons l ls ih =>
    intro fn hs b ρ m o hb
    obtain ⟨hs', _, hlen, _⟩ := processLoop_spec l hs
    exact (ih _ hs' b ρ m o (by omega)).trans (processLoop_run P l hs hb)

theorem normalize_normalised {ls : List Loop} (hs : Ssa fn) (hl : LoopsComplete fn ls) : Normalised (normalize ls fn) := by
  obtain ⟨_, _, _, h5, h6⟩ := normalize_spec ls fn hs
  intro b blk t blk' hr hb hlen ht hbt hp hd
  have hm : Multi (normalize ls fn) b t := ⟨blk, blk', hb, hlen, ht, hbt, hp⟩
  have hbad := h5 b t ⟨hm, hr, hd⟩
  obtain ⟨⟨blk0, _, hb0, _, ht0, _, _⟩, hr0, hd0⟩ := hbad
  obtain ⟨l, hlm, he, hbl⟩ := hl b t hr0 ⟨blk0, hb0, ht0⟩ hd0
  exact (h6 b t hm).2 l hlm he hbl

end Smack.Cfg
