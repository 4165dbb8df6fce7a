import Verif.Aggr.Tree

namespace Smack.Aggr

variable {B : Type}

theorem cmpPaths_spec (p q : Path) :
    match cmpPaths p q with
    | .differ => ∃ c a b p' q', a ≠ b ∧ p = c ++ a :: p' ∧ q = c ++ b :: q'
    | .same => p = q
    | .extShort r => q = p ++ r
    | .insShort r => p = q ++ r := by
  induction p generalizing q with
  | nil => cases q <;> simp [cmpPaths]
  | cons a p ih =>
    cases q with
    | nil => simp [cmpPaths]
    | cons b q =>
      simp only [cmpPaths]
      by_cases hab : b = a
      · subst hab
        rw [if_neg (by simp)]
        have := ih q
        revert this
        cases cmpPaths p q with
        | differ =>
          rintro ⟨c, x, y, p', q', h1, rfl, rfl⟩
          exact ⟨b :: c, x, y, p', q', h1, rfl, rfl⟩
        | same => intro h; simp only at h ⊢; rw [h]
        | extShort r => intro h; simp only at h ⊢; rw [h]; rfl
        | insShort r => intro h; simp only at h ⊢; rw [h]; rfl
      · rw [if_pos hab]
        exact ⟨[], a, b, p, q, fun e => hab e.symm, rfl, rfl⟩

/-- Values of a typed expression have its type, and there is at least one. -/
theorem eval_typed (ρ : EvEnv B) {e : Ex (List B)} {t : Ty} (h : ExTy ρ e t) :
    (∀ v, Eval ρ e v → HasTy v t) ∧ ∃ v, Eval ρ e v := by
  induction h with
  | other n =>
    refine ⟨?_, _, .other n⟩
    intro v hv
    cases hv
    exact ρ.ok n
  | undef t =>
    refine ⟨?_, ?_⟩
    · intro v hv; cases hv; assumption
    · obtain ⟨v, hv⟩ := exists_loaded ρ.mem 0 t
      exact ⟨v, .undef t v hv.1⟩
  | zero t =>
    refine ⟨?_, ?_⟩
    · intro v hv; cases hv; assumption
    · obtain ⟨v, hv⟩ := exists_loaded (fun _ => ρ.zero : Mem B) 0 t
      refine ⟨v, .zero t v hv.1 ?_⟩
      intro p o n k hp
      rw [hv.2 p o n k hp]
      simp [Mem.read, List.map_const']
  | const ops t ha hl he ih =>
    refine ⟨?_, ?_⟩
    · intro v hv
      cases hv with
      | const _ vs hl' he' =>
        refine .agg vs t ha (by omega) ?_
        intro i o t' x h1 h2
        have hlt : i < ops.length := by rw [hl']; exact lt_of_getElem? h2
        have hx : ops[i]? = some ops[i] := List.getElem?_eq_getElem hlt
        exact (ih i o t' _ h1 hx).1 x (he' i _ x hx h2)
    · have hex : ∀ i, i < ops.length → ∃ v, ∀ e, ops[i]? = some e → Eval ρ e v := by
        intro i hi
        obtain ⟨o, t', hel⟩ := Ty.elem?_of_lt (t := t) (i := i) (by omega)
        have hx : ops[i]? = some ops[i] := List.getElem?_eq_getElem hi
        obtain ⟨v, hv⟩ := (ih i o t' _ hel hx).2
        refine ⟨v, ?_⟩
        intro e he
        rw [hx] at he
        cases he
        exact hv
      refine ⟨.node ((List.range ops.length).map fun i =>
        if hi : i < ops.length then Classical.choose (hex i hi) else .node []), .const _ _ (by simp) ?_⟩
      intro i e v h1 h2
      have hi := lt_of_getElem? h1
      rw [List.getElem?_map, List.getElem?_range hi] at h2
      simp only [Option.map_some, hi, dite_true, Option.some.injEq] at h2
      subst h2
      exact Classical.choose_spec (hex i hi) e h1
  | insert agg val p t t' o ha hp hv iha ihv =>
    refine ⟨?_, ?_⟩
    · intro v h
      cases h with
      | insert _ _ _ a w _ h1 h2 h3 =>
        obtain ⟨v', hv', ht⟩ := (iha.1 a h1).set hp (ihv.1 w h2)
        rw [h3] at hv'
        cases hv'
        exact ht
    · obtain ⟨a, ha'⟩ := iha.2
      obtain ⟨w, hw'⟩ := ihv.2
      obtain ⟨v', hv', _⟩ := (iha.1 a ha').set hp (ihv.1 w hw')
      exact ⟨v', .insert _ _ _ _ _ _ ha' hw' hv'⟩
  | extract agg p t t' o ha hp iha =>
    refine ⟨?_, ?_⟩
    · intro v h
      cases h with
      | extract _ _ a _ h1 h2 =>
        obtain ⟨w, hw, ht⟩ := (iha.1 a h1).get hp
        rw [h2] at hw
        cases hw
        exact ht
    · obtain ⟨a, ha'⟩ := iha.2
      obtain ⟨w, hw, _⟩ := (iha.1 a ha').get hp
      exact ⟨w, .extract _ _ _ _ ha' hw⟩
  | loaded t ptr =>
    refine ⟨?_, ?_⟩
    · intro v h; cases h with | loaded _ _ _ h => exact h.1
    · obtain ⟨v, hv⟩ := exists_loaded ρ.mem (ρ.ptr ptr) t
      exact ⟨v, .loaded _ _ _ hv⟩
  | loadedAt t ptr p o t' hp =>
    refine ⟨?_, ?_⟩
    · intro v h
      cases h with
      | loadedAt _ _ _ o2 t2 _ hp2 h =>
        rw [gepOff_zero, hp] at hp2
        cases hp2
        exact h.1
    · obtain ⟨v, hv⟩ := exists_loaded ρ.mem (ρ.ptr ptr + o) t'
      exact ⟨v, .loadedAt _ _ _ o t' _ (by rw [gepOff_zero]; exact hp) hv⟩

/-- One rule: the replacement is typed and takes exactly the same values. -/
theorem rule_sound (ρ : EvEnv B) {agg e : Ex (List B)} {p : Path} {t' : Ty} (ht : ExTy ρ (.extract agg p) t')
    (h : simplifyEV agg p = some e) : ExTy ρ e t' ∧ ∀ v, Eval ρ e v ↔ Eval ρ (.extract agg p) v := by
  cases ht with
  | extract _ _ t _ o ha hp =>
  cases p with
  | nil =>
    simp only [simplifyEV, Option.some.injEq] at h
    subst h
    simp only [Ty.at?, Option.some.injEq, Prod.mk.injEq] at hp
    obtain ⟨_, rfl⟩ := hp
    refine ⟨ha, ?_⟩
    intro v
    constructor
    · intro hv; exact .extract _ _ v v hv rfl
    · intro hv
      cases hv with
      | extract _ _ a _ h1 h2 => simp only [V.get, Option.some.injEq] at h2; rw [← h2]; exact h1
  | cons i rest =>
  simp only [simplifyEV] at h
  cases ha with
  | other n => cases h
  | undef t =>
    simp only [hp, Option.map_some, Option.some.injEq] at h
    subst h
    refine ⟨.undef _, ?_⟩
    intro v
    constructor
    · intro hv
      cases hv with
      | undef _ _ hty =>
        obtain ⟨u, hu⟩ := exists_loaded ρ.mem 0 t
        obtain ⟨u', hu', ht'⟩ := hu.1.set hp hty
        exact .extract _ _ u' v (.undef t u' ht') (set_get_same hu')
    · intro hv
      cases hv with
      | extract _ _ a _ h1 h2 =>
        cases h1 with
        | undef _ _ hty =>
          obtain ⟨w, hw, hwt⟩ := hty.get hp
          rw [h2] at hw
          cases hw
          exact .undef _ _ hwt
  | zero t =>
    simp only [hp, Option.map_some, Option.some.injEq] at h
    subst h
    refine ⟨.zero _, ?_⟩
    have huniq : ∀ (t : Ty) (v v' : V (List B)), Eval ρ (.zero t) v → Eval ρ (.zero t) v' → v = v' := by
      intro t v v' h1 h2
      cases h1 with
      | zero _ _ a1 a2 =>
        cases h2 with
        | zero _ _ b1 b2 => exact a1.ext b1 fun p o n k hp => by rw [a2 p o n k hp, b2 p o n k hp]
    have hfwd : ∀ v, Eval ρ (.extract (.zero t) (i :: rest)) v → Eval ρ (.zero t') v := by
      intro v hv
      cases hv with
      | extract _ _ a _ h1 h2 =>
        cases h1 with
        | zero _ _ hty hz =>
          obtain ⟨w, hw, hwt⟩ := hty.get hp
          rw [h2] at hw
          cases hw
          refine .zero _ _ hwt ?_
          intro q o' n k hq
          have := hz (i :: rest ++ q) (o + o') n k (Ty.at?_append.2 ⟨o, t', o', hp, hq, rfl⟩)
          obtain ⟨x, hx, hx'⟩ := V.get_append.1 this
          rw [h2] at hx
          cases hx
          exact hx'
    intro v
    refine ⟨?_, hfwd v⟩
    intro hv
    obtain ⟨v', hv'⟩ := (eval_typed ρ (.extract _ _ _ _ _ (.zero t) hp)).2
    rw [huniq t' v v' hv (hfwd v' hv')]
    exact hv'
  | const ops t hagg hl he =>
    obtain ⟨o1, t1, o2, h1, h2, rfl⟩ := Ty.at?_cons.1 hp
    have hlt : i < ops.length := by rw [hl]; exact Ty.lt_of_elem? h1
    have hx : ops[i]? = some ops[i] := List.getElem?_eq_getElem hlt
    simp only [hx] at h
    have hty : ExTy ρ ops[i] t1 := he i o1 t1 _ h1 hx
    have hconst : ∀ w, Eval ρ ops[i] w → ∃ vs, Eval ρ (.const ops) (.node vs) ∧ vs[i]? = some w := by
      intro w hw
      obtain ⟨v, hv⟩ := (eval_typed ρ (.const ops t hagg hl he)).2
      cases hv with
      | const _ vs hl' he' =>
        refine ⟨vs.set i w, .const _ _ (by simp [hl']) ?_, ?_⟩
        · intro j e x hj hxj
          by_cases hij : i = j
          · subst hij
            rw [hx] at hj
            cases hj
            have hi' : i < vs.length := by omega
            rw [List.getElem?_set_self hi'] at hxj
            cases hxj
            exact hw
          · rw [getElem?_set_other hij] at hxj
            exact he' j e x hj hxj
        · exact List.getElem?_set_self (by omega)
    split at h
    · cases h
      refine ⟨.extract _ _ t1 _ o2 hty h2, ?_⟩
      intro v
      constructor
      · intro hv
        cases hv with
        | extract _ _ a _ g1 g2 =>
          obtain ⟨vs, hvs, hi⟩ := hconst a g1
          exact .extract _ _ _ _ hvs (V.get_cons.2 ⟨vs, a, rfl, hi, g2⟩)
      · intro hv
        cases hv with
        | extract _ _ a _ g1 g2 =>
          obtain ⟨vs, x, rfl, g3, g4⟩ := V.get_cons.1 g2
          cases g1 with
          | const _ _ hl' he' => exact .extract _ _ x _ (he' i _ x hx g3) g4
    · rename_i hlen
      cases h
      have hr : rest = [] := by
        cases rest with
        | nil => rfl
        | cons _ _ => simp at hlen
      subst hr
      simp only [Ty.at?, Option.some.injEq, Prod.mk.injEq] at h2
      obtain ⟨_, rfl⟩ := h2
      refine ⟨hty, ?_⟩
      intro v
      constructor
      · intro hv
        obtain ⟨vs, hvs, hi⟩ := hconst v hv
        exact .extract _ _ _ _ hvs (V.get_cons.2 ⟨vs, v, rfl, hi, rfl⟩)
      · intro hv
        cases hv with
        | extract _ _ a _ g1 g2 =>
          obtain ⟨vs, x, rfl, g3, g4⟩ := V.get_cons.1 g2
          simp only [V.get, Option.some.injEq] at g4
          subst g4
          cases g1 with
          | const _ _ hl' he' => exact he' i _ _ hx g3
  | insert a val q _ tv oq ha hq hv =>
    have hspec := cmpPaths_spec (i :: rest) q
    dsimp only at h
    cases hc : cmpPaths (i :: rest) q with
    | differ =>
      rw [hc] at h hspec
      simp only [Option.some.injEq] at h
      subst h
      obtain ⟨c, x, y, p', q', hxy, hpe, rfl⟩ := hspec
      rw [hpe] at hp ⊢
      refine ⟨.extract _ _ t _ o ha hp, ?_⟩
      intro v
      constructor
      · intro hev
        cases hev with
        | extract _ _ av _ g1 g2 =>
          obtain ⟨w, hw⟩ := (eval_typed ρ hv).2
          obtain ⟨av', hav', _⟩ := ((eval_typed ρ ha).1 av g1).set hq ((eval_typed ρ hv).1 w hw)
          refine .extract _ _ av' _ (.insert _ _ _ _ _ _ g1 hw hav') ?_
          rw [set_get_diff hxy hav']
          exact g2
      · intro hev
        cases hev with
        | extract _ _ av' _ g1 g2 =>
          cases g1 with
          | insert _ _ _ av w _ g3 g4 g5 =>
            rw [set_get_diff hxy g5] at g2
            exact .extract _ _ av _ g3 g2
    | same =>
      rw [hc] at h hspec
      simp only [Option.some.injEq] at h
      subst h
      have hspec : i :: rest = q := hspec
      rw [← hspec, hp] at hq
      cases hq
      rw [hspec]
      rw [hspec] at hp
      refine ⟨hv, ?_⟩
      intro v
      constructor
      · intro hev
        obtain ⟨av, hav⟩ := (eval_typed ρ ha).2
        obtain ⟨av', hav', _⟩ := ((eval_typed ρ ha).1 av hav).set hp ((eval_typed ρ hv).1 v hev)
        exact .extract _ _ av' _ (.insert _ _ _ _ _ _ hav hev hav') (set_get_same hav')
      · intro hev
        cases hev with
        | extract _ _ av' _ g1 g2 =>
          cases g1 with
          | insert _ _ _ av w _ g3 g4 g5 =>
            rw [set_get_same g5] at g2
            cases g2
            exact g4
    | extShort r =>
      rw [hc] at h hspec
      simp only [Option.some.injEq] at h
      subst h
      have hspec : q = (i :: rest) ++ r := hspec
      rw [hspec] at hq
      obtain ⟨o1, t1, o2, h1, h2, rfl⟩ := Ty.at?_append.1 hq
      rw [hp] at h1
      cases h1
      refine ⟨.insert _ _ _ _ tv o2 (.extract _ _ _ _ _ ha hp) h2 hv, ?_⟩
      intro v
      constructor
      · intro hev
        cases hev with
        | insert _ _ _ x w _ g1 g2 g3 =>
          cases g1 with
          | extract _ _ av _ g4 g5 =>
            obtain ⟨av', hav', _⟩ := ((eval_typed ρ ha).1 av g4).set hq ((eval_typed ρ hv).1 w g2)
            obtain ⟨y, y', e1, e2, e3⟩ := set_prefix hav'
            rw [g5] at e1
            cases e1
            rw [g3] at e2
            cases e2
            rw [hspec]
            exact .extract _ _ av' _ (.insert _ _ _ _ _ _ g4 g2 hav') e3
      · intro hev
        cases hev with
        | extract _ _ av' _ g1 g2 =>
          cases g1 with
          | insert _ _ _ av w _ g3 g4 g5 =>
            rw [hspec] at g5
            obtain ⟨y, y', e1, e2, e3⟩ := set_prefix g5
            rw [g2] at e3
            cases e3
            exact .insert _ _ _ _ _ _ (.extract _ _ _ _ g3 e1) g4 e2
    | insShort r =>
      rw [hc] at h hspec
      simp only [Option.some.injEq] at h
      subst h
      have hspec : i :: rest = q ++ r := hspec
      rw [hspec] at hp ⊢
      obtain ⟨o1, t1, o2, h1, h2, rfl⟩ := Ty.at?_append.1 hp
      rw [hq] at h1
      cases h1
      refine ⟨.extract _ _ _ _ o2 hv h2, ?_⟩
      intro v
      constructor
      · intro hev
        cases hev with
        | extract _ _ w _ g1 g2 =>
          obtain ⟨av, hav⟩ := (eval_typed ρ ha).2
          obtain ⟨av', hav', _⟩ := ((eval_typed ρ ha).1 av hav).set hq ((eval_typed ρ hv).1 w g1)
          refine .extract _ _ av' _ (.insert _ _ _ _ _ _ hav g1 hav') ?_
          rw [set_get_ext hav']
          exact g2
      · intro hev
        cases hev with
        | extract _ _ av' _ g1 g2 =>
          cases g1 with
          | insert _ _ _ av w _ g3 g4 g5 =>
            rw [set_get_ext g5] at g2
            exact .extract _ _ w _ g4 g2
  | extract a q _ _ oq ha hq => cases h
  | loaded t ptr =>
    simp only [Option.some.injEq] at h
    subst h
    refine ⟨.loadedAt _ _ _ o _ hp, ?_⟩
    intro v
    constructor
    · intro hev
      cases hev with
      | loadedAt _ _ _ o2 t2 _ hp2 hl =>
        rw [gepOff_zero, hp] at hp2
        cases hp2
        obtain ⟨u, hu⟩ := exists_loaded ρ.mem (ρ.ptr ptr) t
        obtain ⟨w, hw, _⟩ := hu.1.get hp
        have : v = w := hl.unique (hu.sub hp hw)
        subst this
        exact .extract _ _ u _ (.loaded _ _ _ hu) hw
    · intro hev
      cases hev with
      | extract _ _ a _ g1 g2 =>
        cases g1 with
        | loaded _ _ _ hl => exact .loadedAt _ _ _ o t' _ (by rw [gepOff_zero]; exact hp) (hl.sub hp g2)
  | loadedAt t ptr q oq _ hq => cases h

theorem rw_sound (ρ : EvEnv B) {e f : Ex (List B)} (h : Rw e f) :
    ∀ {t : Ty}, ExTy ρ e t → ExTy ρ f t ∧ ∀ v, Eval ρ f v ↔ Eval ρ e v := by
  induction h with
  | refl e => intro t ht; exact ⟨ht, fun v => Iff.rfl⟩
  | trans e f g _ _ ih1 ih2 =>
    intro t ht
    have h1 := ih1 ht
    have h2 := ih2 h1.1
    exact ⟨h2.1, fun v => (h2.2 v).trans (h1.2 v)⟩
  | rule agg p e h => intro t ht; exact rule_sound ρ ht h
  | insert a a' v v' p _ _ ih1 ih2 =>
    intro t ht
    cases ht with
    | insert _ _ _ _ t' o ha hp hv =>
      have h1 := ih1 ha
      have h2 := ih2 hv
      refine ⟨.insert _ _ _ _ _ _ h1.1 hp h2.1, ?_⟩
      intro w
      constructor
      · intro hw
        cases hw with
        | insert _ _ _ x y _ g1 g2 g3 => exact .insert _ _ _ _ _ _ ((h1.2 x).1 g1) ((h2.2 y).1 g2) g3
      · intro hw
        cases hw with
        | insert _ _ _ x y _ g1 g2 g3 => exact .insert _ _ _ _ _ _ ((h1.2 x).2 g1) ((h2.2 y).2 g2) g3
  | extract a a' p _ ih =>
    intro t ht
    cases ht with
    | extract _ _ t1 _ o ha hp =>
      have h1 := ih ha
      refine ⟨.extract _ _ _ _ _ h1.1 hp, ?_⟩
      intro w
      constructor
      · intro hw
        cases hw with
        | extract _ _ x _ g1 g2 => exact .extract _ _ _ _ ((h1.2 x).1 g1) g2
      · intro hw
        cases hw with
        | extract _ _ x _ g1 g2 => exact .extract _ _ _ _ ((h1.2 x).2 g1) g2
  | const ops ops' hl h ih =>
    intro t ht
    cases ht with
    | const _ _ ha hlen he =>
      have hi : ∀ (i : Nat) e', ops'[i]? = some e' → ∃ e, ops[i]? = some e := by
        intro i e' hh
        have := lt_of_getElem? hh
        exact ⟨_, List.getElem?_eq_getElem (by omega)⟩
      have hi' : ∀ (i : Nat) e', ops[i]? = some e' → ∃ e, ops'[i]? = some e := by
        intro i e' hh
        have := lt_of_getElem? hh
        exact ⟨_, List.getElem?_eq_getElem (by omega)⟩
      refine ⟨.const _ _ ha (by omega) ?_, ?_⟩
      · intro i o t' e' h1 h2
        obtain ⟨e, hee⟩ := hi i e' h2
        exact (ih i e e' hee h2 (he i o t' e h1 hee)).1
      · intro w
        constructor
        · intro hw
          cases hw with
          | const _ vs g1 g2 =>
            refine .const _ _ (by omega) ?_
            intro i e v h1 h2
            obtain ⟨e', hee⟩ := hi' i e h1
            obtain ⟨o, t', hel⟩ := Ty.elem?_of_lt (t := t) (i := i) (by have := lt_of_getElem? h1; omega)
            exact ((ih i e e' h1 hee (he i o t' e hel h1)).2 v).1 (g2 i e' v hee h2)
        · intro hw
          cases hw with
          | const _ vs g1 g2 =>
            refine .const _ _ (by omega) ?_
            intro i e' v h1 h2
            obtain ⟨e, hee⟩ := hi i e' h1
            obtain ⟨o, t', hel⟩ := Ty.elem?_of_lt (t := t) (i := i) (by have := lt_of_getElem? hee; omega)
            exact ((ih i e e' hee h1 (he i o t' e hel hee)).2 v).2 (g2 i e v hee h2)

end Smack.Aggr
