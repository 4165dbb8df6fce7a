import Verif.E2E.Lemmas

/-
The operations of the two semantics correspond.
-/

namespace Smack.E2E

open Smack.IntOps Smack.Cfg Smack.Cfg.Spec

/-! ## Operands -/

/-- Corresponding values of type `w`, the second one reduced if `N`. -/
structure ValRel (enc : Enc) (w : Nat) (N : Prop) (v : Word) (i : Int) : Prop where
  width : v.1 = w
  rep : Represents enc v i
  red : enc = .wrapped → N → v.2 = 0 → i = 0

theorem envRel_iff {enc : Enc} {Γ : Ctx} {ρ : Env Word} {σ : Env Int} :
    EnvRel enc Γ ρ σ ↔ ∀ x, ValRel enc (Γ.width x) (Γ.reduced x) (ρ x) (σ x) :=
  ⟨fun h x => ⟨(h x).1, (h x).2.1, (h x).2.2⟩, fun h x => ⟨(h x).width, (h x).rep, (h x).red⟩⟩

theorem litInt_default {w : Nat} (c : BitVec w) : litInt false false c = some (konst ⟨w, c⟩) := by
  have : ∃ i, litInt false false c = some i := by
    unfold litInt litNeg
    by_cases h : w > 1 <;> simp [h]
  obtain ⟨i, hi⟩ := this
  simp [konst, hi]

theorem konst_rel (enc : Enc) (c : Word) : ValRel enc c.1 True c (konst c) := by
  obtain ⟨w, c⟩ := c
  have h := litInt_default c
  refine ⟨rfl, ?_, fun _ _ h0 => ?_⟩
  · cases enc with
    | unbounded => exact litInt_reading h (.inr rfl)
    | wrapped =>
      refine ⟨litInt_ofInt h, fun hw => ?_⟩
      simp only at hw
      subst hw
      simp only [litInt, litNeg] at h
      have := c.isLt
      simp at h
      omega
  · obtain ⟨q1, q2⟩ := litInt_small h
    simp only at h0
    exact zero_of_small ((litInt_ofInt h).trans h0) q1 q2

theorem opd_rel {enc : Enc} {Γ : Ctx} {ρ : Env Word} {σ : Env Int} (h : EnvRel enc Γ ρ σ) (o : Opd Word) :
    ValRel enc (Γ.opdWidth o) (Γ.opdReduced o) (eval ρ o) (eval σ (mapOpd konst o)) := by
  cases o with
  | var x => exact envRel_iff.1 h x
  | const c => exact konst_rel enc c

theorem setOpt_rel {enc : Enc} {Γ : Ctx} {ρ : Env Word} {σ : Env Int} (h : EnvRel enc Γ ρ σ) (d : Option Var) (v : Word) (i : Int)
    (hd : ∀ x, d = some x → ValRel enc (Γ.width x) (Γ.reduced x) v i) : EnvRel enc Γ (setOpt ρ d v) (setOpt σ d i) := by
  cases d with
  | none => exact h
  | some x =>
    rw [envRel_iff] at h ⊢
    intro y
    simp only [setOpt]
    by_cases hy : y = x
    · subst hy; simp only [if_true]; exact hd y rfl
    · simp only [hy, if_false]; exact h y

theorem enter_rel {enc : Enc} {Γ : Ctx} {ρ : Env Word} {σ : Env Int} (h : EnvRel enc Γ ρ σ) (b : Nat) (phis : List (Phi Word))
    (hp : ∀ p ∈ phis, ∀ q ∈ p.inc, Γ.opdWidth q.2 = Γ.width p.var ∧ (enc = .wrapped → Γ.reduced p.var → Γ.opdReduced q.2)) :
    EnvRel enc Γ (enter ρ b phis) (enter σ b (phis.map (mapPhi konst))) := by
  have h' := h
  rw [envRel_iff] at h ⊢
  intro x
  simp only [enter, List.find?_map]
  have e : ((fun p : Phi Int => decide (p.var = x)) ∘ mapPhi konst) = fun p : Phi Word => decide (p.var = x) := rfl
  rw [e]
  cases hf : phis.find? (fun p => decide (p.var = x)) with
  | none => exact h x
  | some p =>
    have hx : p.var = x := by simpa using List.find?_some hf
    simp only [Option.map_some, mapPhi]
    rw [lookup_map]
    cases hl : p.inc.lookup b with
    | none => exact h x
    | some o =>
      simp only [Option.map_some]
      have hm : ∃ a, (a, o) ∈ p.inc := by
        have := List.lookup_eq_some_iff.1 hl
        obtain ⟨l1, l2, he, _⟩ := this
        exact ⟨b, by rw [he]; simp⟩
      obtain ⟨a, hm⟩ := hm
      obtain ⟨q1, q2⟩ := hp p (List.mem_of_find?_eq_some hf) (a, o) hm
      have r := opd_rel h' o
      rw [hx] at q1 q2
      exact ⟨r.width.trans q1, r.rep, fun e1 e2 => r.red e1 (q2 e1 e2)⟩

/-! ## Operations -/

theorem zero_iff {enc : Enc} {w : Nat} {N : Prop} {v : Word} {i : Int} (h : ValRel enc w N v i) (hN : enc = .wrapped → N) :
    v.2 = 0 ↔ i = 0 := by
  obtain ⟨w', v⟩ := v
  cases enc with
  | wrapped =>
    refine ⟨fun h0 => h.red rfl (hN rfl) h0, fun h0 => ?_⟩
    have := h.rep.1
    rw [h0] at this
    rw [← this]; simp
  | unbounded =>
    have hr : i = reading v := h.rep
    have hz : reading (0 : BitVec w') = 0 := by simp [reading]
    constructor
    · intro h0
      simp only at h0
      rw [hr, h0, hz]
    · intro h0
      rw [h0] at hr
      exact reading_inj (hr.symm.trans hz.symm)

theorem args_get {ρ : Env Word} {σ : Env Int} (args : List (Opd Word)) (n : Nat) (o : Opd Word)
    (ho : args[n]? = some o) : (args.map (eval ρ))[n]? = some (eval ρ o) ∧
    ((args.map (mapOpd konst)).map (eval σ)).getD n 0 = eval σ (mapOpd konst o) := by
  constructor
  · simp [ho]
  · simp [List.getD, ho]

theorem expr_sim (S : Smt) {enc : Enc} {Γ : Ctx} {ρ : Env Word} {σ : Env Int} (h : EnvRel enc Γ ρ σ) (args : List (Opd Word)) {w : Nat}
    (e : Expr w) (ht : e.WellTyped) (hl : e.NarrowLits)
    (hv : VarsIn (fun n w' => ∃ o, args[n]? = some o ∧ Γ.opdWidth o = w') e) (ha : enc = .wrapped → NoArith1 e)
    (hs : ¬ Stops enc e (args.map (eval ρ))) :
    ∃ v i, e.evalBv (argBits (args.map (eval ρ))) = some v ∧
      e.evalInt S enc (fun n => ((args.map (mapOpd konst)).map (eval σ)).getD n 0) = some i ∧
      ∀ N : Prop, (enc = .wrapped → N → Reduced (fun n => ∃ o, args[n]? = some o ∧ Γ.opdReduced o) e) → ValRel enc w N ⟨w, v⟩ i := by
  obtain ⟨i, hi⟩ := evalInt_total S enc (fun n => ((args.map (mapOpd konst)).map (eval σ)).getD n 0) e hl
  cases hb : e.evalBv (argBits (args.map (eval ρ))) with
  | none => exact absurd (.inl hb) hs
  | some v =>
    refine ⟨v, i, rfl, hi, fun N hN => ?_⟩
    have bits : ∀ n w' o, args[n]? = some o → Γ.opdWidth o = w' →
        ∃ b : BitVec w', eval ρ o = ⟨w', b⟩ ∧ argBits (args.map (eval ρ)) n w' = b := by
      intro n w' o h1 h2
      have hr := (opd_rel h o).width
      rw [h2] at hr
      subst hr
      refine ⟨(eval ρ o).2, rfl, ?_⟩
      simp [argBits, h1]
    cases enc with
    | unbounded =>
      have hx : ∃ x, e.exact (argBits (args.map (eval ρ))) = some x := by
        cases hx : e.exact (argBits (args.map (eval ρ))) with
        | none => exact absurd (.inr hx) hs
        | some x => exact ⟨x, rfl⟩
      obtain ⟨x, hx⟩ := hx
      have hr : e.Reads (argBits (args.map (eval ρ))) (fun n => ((args.map (mapOpd konst)).map (eval σ)).getD n 0) := by
        apply reads_of
        apply VarsIn.mono _ e hv
        rintro n w' ⟨o, h1, h2⟩
        obtain ⟨b, h3, h4⟩ := bits n w' o h1 h2
        have hr := (opd_rel h o).rep
        rw [(args_get (ρ := ρ) (σ := σ) args n o h1).2, h4]
        rw [h3] at hr
        exact hr
      obtain ⟨⟨v', hv1, hv2⟩, hi'⟩ := exact_main S _ _ e ht hr x hx
      rw [hb] at hv1
      cases hv1
      exact ⟨rfl, by show i = reading v; rw [hi' i hi, hv2], fun h => by cases h⟩
    | wrapped =>
      have hm : VarsIn (fun n w => argBits (args.map (eval ρ)) n w =
          BitVec.ofInt w (((args.map (mapOpd konst)).map (eval σ)).getD n 0)) e := by
        apply VarsIn.mono _ e hv
        rintro n w' ⟨o, h1, h2⟩
        obtain ⟨b, h3, h4⟩ := bits n w' o h1 h2
        have hr := (opd_rel h o).rep.1
        rw [(args_get (ρ := ρ) (σ := σ) args n o h1).2, h4]
        rw [h3] at hr
        exact hr.symm
      have hn := normal_of (ρ := fun n => ((args.map (mapOpd konst)).map (eval σ)).getD n 0) e ht (ha rfl) (by
        apply VarsIn.mono _ e hv
        rintro n w' ⟨o, h1, h2⟩ hw
        have hr := (opd_rel h o).rep.2
        rw [(args_get (ρ := ρ) (σ := σ) args n o h1).2]
        exact hr ((opd_rel h o).width.trans (h2.trans hw)))
      have hT := truth_of (ρ := fun n => ((args.map (mapOpd konst)).map (eval σ)).getD n 0) e ht (ha rfl) (by
        apply VarsIn.mono _ e hv
        rintro n w' ⟨o, h1, h2⟩ hw
        have hr := (opd_rel h o).rep.2
        rw [(args_get (ρ := ρ) (σ := σ) args n o h1).2]
        exact hr ((opd_rel h o).width.trans (h2.trans hw)))
      have hse : e.SdivExact (argBits (args.map (eval ρ))) := Classical.byContradiction fun hc => hs (.inr hc)
      rw [sdivExact_congr e hm] at hse
      have hb' := hb
      rw [evalBv_congr e hm] at hb'
      have main := wrapped_main S _ _ (fun _ _ => rfl) e ht hn hse v i hb' hi
      refine ⟨rfl, ⟨main.1, fun hw => main.2 (hT hw)⟩, fun _ hNN h0 => ?_⟩
      refine reduced_of S (fun _ _ => rfl) (N := fun n => ∃ o, args[n]? = some o ∧ Γ.opdReduced o) e ht hn hse ?_ (hN rfl hNN) v i hb' hi h0
      apply VarsIn.mono _ e hv
      rintro n w' ⟨o, h1, h2⟩ ⟨o', h1', h2'⟩ hz
      rw [h1] at h1'
      cases h1'
      have hz' : BitVec.ofInt w' (((args.map (mapOpd konst)).map (eval σ)).getD n 0) = 0 := hz
      show ((args.map (mapOpd konst)).map (eval σ)).getD n 0 = 0
      rw [(args_get (ρ := ρ) (σ := σ) args n o h1).2] at hz' ⊢
      have r := opd_rel h o
      have hr := r.rep.1
      obtain ⟨b, h3, h4⟩ := bits n w' o h1 h2
      refine r.red rfl h2' ?_
      rw [h3] at hr ⊢
      simp only at hr ⊢
      rw [← hr, hz']

theorem shape_wf {s : Nondet.Shape} (h2 : 2 ≤ s.width) (hu : ∀ w, s ≠ .undefined w) (hs : ∀ w, s = .sPromoted w → w < 32)
    (hp : ∀ w, s = .uPromoted w → w < 32) : s.wf := by
  cases s with
  | sPromoted w => exact ⟨by simp only [Nondet.Shape.width] at h2; omega, hs w rfl⟩
  | uPromoted w => exact ⟨by simp only [Nondet.Shape.width] at h2; omega, hp w rfl⟩
  | sDirect w => simp only [Nondet.Shape.width] at h2; show 0 < w; omega
  | uDirect w => simp only [Nondet.Shape.width] at h2; show 0 < w; omega
  | undefined w => exact absurd rfl (hu w)

theorem unsigned_iff (s : Nondet.Shape) : (∃ w', s = .uPromoted w' ∨ s = .uDirect w') ↔ s.unsigned = true := by
  cases s <;> simp [Nondet.Shape.unsigned]

/-- A value that is not lost is returned by the Boogie procedure. -/
theorem nondet_fwd (S : Smt) (enc : Enc) {s : Nondet.Shape} (hw : 2 ≤ s.width) (hs : s.wf) (v : BitVec s.width) (hl : ¬ Lost enc s v) :
    ∃ i, Nondet.returnsInt S enc s i ∧ Represents enc ⟨s.width, v⟩ i := by
  have hr := toInt_small (by omega) v
  refine ⟨v.toInt, ?_, ?_⟩
  · cases enc with
    | wrapped => exact Nondet.wrapped_shape S s hs _
    | unbounded =>
      rw [Nondet.unbounded_shape S s hs]
      by_cases hu : s.unsigned = true
      · simp only [Nondet.Representable, hu, if_true]
        have h0 : ¬ v.toInt < 0 := fun h => hl ⟨rfl, (unsigned_iff s).2 hu, h⟩
        have := two_pow_mono (show s.width - 1 ≤ s.width by omega)
        omega
      · simp only [Nondet.Representable, hu, Bool.false_eq_true, if_false]
        omega
  · cases enc with
    | wrapped => exact ⟨BitVec.ofInt_toInt, fun h => by simp only at h; omega⟩
    | unbounded =>
      show _ = reading v
      unfold reading
      rw [if_neg (by omega)]

/-- A value returned by the Boogie procedure represents a value that may be lost. -/
theorem nondet_bwd (S : Smt) (enc : Enc) {s : Nondet.Shape} (hw : 2 ≤ s.width) (hs : s.wf) (i : Int) (hi : Nondet.returnsInt S enc s i) :
    ∃ v : BitVec s.width, Lost enc s v ∨ (¬ Lost enc s v ∧ Represents enc ⟨s.width, v⟩ i) := by
  refine ⟨BitVec.ofInt s.width i, ?_⟩
  cases enc with
  | wrapped => exact .inr ⟨fun h => (by cases h.1), rfl, fun h => by simp only at h; omega⟩
  | unbounded =>
    rw [Nondet.unbounded_shape S s hs] at hi
    by_cases hl : Lost .unbounded s (BitVec.ofInt s.width i)
    · exact .inl hl
    · refine .inr ⟨hl, ?_⟩
      show i = reading _
      have hrd : reading (BitVec.ofInt s.width i) = (BitVec.ofInt s.width i).toInt := by
        unfold reading; rw [if_neg (by omega)]
      rw [hrd]
      by_cases hu : s.unsigned = true
      · simp only [Nondet.Representable, hu, if_true] at hi
        have h0 : ¬ (BitVec.ofInt s.width i).toInt < 0 := fun h => hl ⟨rfl, (unsigned_iff s).2 hu, h⟩
        have h1 := toNat_ofInt_lt hi.1 hi.2
        have h2 := BitVec.toInt_eq_toNat_cond (BitVec.ofInt s.width i)
        have := (BitVec.ofInt s.width i).isLt
        split at h2 <;> omega
      · simp only [Nondet.Representable, hu, Bool.false_eq_true, if_false] at hi
        exact (toInt_ofInt_range (by omega) hi.1 hi.2).symm

/-! ## The simulation -/

/-- Corresponding lists of operands. -/
def ArgsRel (enc : Enc) (l : List Word) (l' : List Int) : Prop :=
  l.length = l'.length ∧ ∀ (n : Nat) v i, l[n]? = some v → l'[n]? = some i → Represents enc v i

theorem argsRel_one {enc : Enc} {v : Word} {i : Int} (h : Represents enc v i) : ArgsRel enc [v] [i] := by
  refine ⟨rfl, fun n v' i' h1 h2 => ?_⟩
  cases n with
  | zero => simp at h1 h2; subst h1 h2; exact h
  | succ n => simp at h1

theorem eq_one {v : Word} {i : Int} {enc : Enc} (h : Represents enc v i) (hw : v.1 = 1) : v = ⟨1, 1⟩ ↔ i = 1 := by
  obtain ⟨w, v⟩ := v
  simp only at hw
  subst hw
  have hv : v = 0 ∨ v = 1 := by
    have := v.isLt
    rcases (show v.toNat = 0 ∨ v.toNat = 1 by omega) with h | h
    · exact .inl (BitVec.eq_of_toNat_eq h)
    · exact .inr (BitVec.eq_of_toNat_eq h)
  have h1 : ((⟨1, v⟩ : Word) = ⟨1, 1⟩) ↔ v = 1 := by
    constructor
    · intro h; cases h; rfl
    · rintro rfl; rfl
  rw [h1]
  cases enc with
  | wrapped =>
    obtain ⟨h2, h3⟩ := h
    simp only at h2 h3
    rcases h3 trivial with rfl | rfl
    · subst h2; decide
    · subst h2; decide
  | unbounded =>
    have h2 : i = reading v := h
    rcases hv with rfl | rfl
    · rw [h2]; decide
    · rw [h2]; decide

theorem simulates (S : Smt) {enc : Enc} {Γ : Ctx} {ops : List Op} {fn : Fn Word} (hf : FnOk enc Γ ops fn) :
    Simulates (llvm enc ops) (boogie S enc ops) konst fn (EnvRel enc Γ) (fun _ _ => True) (Represents enc) (ArgsRel enc) (IsCheck ops) where
  fwd := by
    intro b blk hb i hi ρ σ m m' hE _ v m₁ hsem
    have hok := hf.instr b blk hb i hi
    simp only [llvm, boogie, InstrOk, mapInstr] at hsem hok ⊢
    cases hop : ops[i.op]? with
    | none => simp only [hop] at hok
    | some op =>
      cases op with
      | expr w e =>
        simp only [hop] at hsem hok ⊢
        obtain ⟨q1, q2, q3, q4, q5⟩ := hok
        rcases hsem with ⟨_, h⟩ | ⟨hns, v', hv', he⟩
        · cases h
        · cases he
          obtain ⟨v'', j, r1, r2, r3⟩ := expr_sim S hE i.args e q1 q2 q3 q4 hns
          rw [hv'] at r1
          cases r1
          refine ⟨j, (), ⟨j, r2, rfl⟩, trivial, setOpt_rel hE _ _ _ fun d hd => ?_⟩
          rw [(q5 d hd).1]
          exact r3 _ (q5 d hd).2
      | check w =>
        simp only [hop] at hsem hok ⊢
        obtain ⟨hd, o, ho, hw, hr⟩ := hok
        simp only [ho, List.map_cons, List.map_nil] at hsem ⊢
        obtain ⟨v', hv', h⟩ := hsem
        have r := opd_rel hE o
        rcases h with ⟨_, h⟩ | ⟨hnz, h⟩
        · cases h
        · cases h
          simp only [List.cons.injEq, and_true] at hv'
          subst hv'
          exact ⟨eval σ (mapOpd konst o), (), ⟨eval σ (mapOpd konst o), rfl, (if_pos fun h0 => hnz ((zero_iff r hr).2 h0)).symm⟩, trivial,
            setOpt_rel hE _ _ _ fun d hd' => (by rw [hd] at hd'; cases hd')⟩
      | assume w =>
        simp only [hop] at hsem hok ⊢
        obtain ⟨hd, o, ho, hw, hr⟩ := hok
        simp only [ho, List.map_cons, List.map_nil] at hsem ⊢
        obtain ⟨v', hv', hnz, h⟩ := hsem
        have r := opd_rel hE o
        cases h
        simp only [List.cons.injEq, and_true] at hv'
        subst hv'
        exact ⟨_, (), ⟨_, rfl, fun h0 => hnz ((zero_iff r hr).2 h0), rfl⟩, trivial,
          setOpt_rel hE _ _ _ fun d hd' => by rw [hd] at hd'; cases hd'⟩
      | nondet s =>
        simp only [hop] at hsem hok ⊢
        obtain ⟨_, hw, hu, hp1, hp2, hd⟩ := hok
        obtain ⟨v', h⟩ := hsem
        rcases h with ⟨_, h⟩ | ⟨hnl, h⟩
        · cases h
        · cases h
          obtain ⟨j, h1, h2⟩ := nondet_fwd S enc hw (shape_wf hw hu hp1 hp2) v' hnl
          exact ⟨j, (), ⟨j, h1, rfl⟩, trivial, setOpt_rel hE _ _ _ fun d hd' =>
            ⟨(hd d hd').1.symm, h2, fun e1 e2 => absurd e2 ((hd d hd').2 e1)⟩⟩
  fwdFail := by
    intro b blk hb i hi ρ σ m m' hE _ hobs hsem
    have hok := hf.instr b blk hb i hi
    obtain ⟨w, hop⟩ := hobs
    simp only [llvm, boogie, InstrOk, mapInstr, hop] at hsem hok ⊢
    obtain ⟨hd, o, ho, hw, hr⟩ := hok
    simp only [ho, List.map_cons, List.map_nil] at hsem ⊢
    obtain ⟨v', hv', h⟩ := hsem
    have r := opd_rel hE o
    rcases h with ⟨hz, _⟩ | ⟨_, h⟩
    · simp only [List.cons.injEq, and_true] at hv'
      subst hv'
      refine ⟨⟨_, rfl, ?_⟩, argsRel_one r.rep⟩
      rw [if_neg]
      exact fun h => h ((zero_iff r hr).1 hz)
    · cases h
  bwd := by
    intro b blk hb i hi ρ σ m m' hE _ v m₁ hsem
    have hok := hf.instr b blk hb i hi
    simp only [llvm, boogie, InstrOk, mapInstr] at hsem hok ⊢
    cases hop : ops[i.op]? with
    | none => simp only [hop] at hok
    | some op =>
      cases op with
      | expr w e =>
        simp only [hop] at hsem hok ⊢
        obtain ⟨q1, q2, q3, q4, q5⟩ := hok
        obtain ⟨j, hj, he⟩ := hsem
        cases he
        by_cases hst : Stops enc e (i.args.map (eval ρ))
        · exact .inl ⟨(by rintro ⟨w', h⟩; rw [hop] at h; cases h), .inl ⟨hst, trivial⟩⟩
        · obtain ⟨v'', j', r1, r2, r3⟩ := expr_sim S hE i.args e q1 q2 q3 q4 hst
          rw [hj] at r2
          cases r2
          refine .inr ⟨⟨w, v''⟩, (), .inr ⟨hst, v'', r1, rfl⟩, trivial, setOpt_rel hE _ _ _ fun d hd => ?_⟩
          rw [(q5 d hd).1]
          exact r3 _ (q5 d hd).2
      | check w =>
        simp only [hop] at hsem hok ⊢
        obtain ⟨hd, o, ho, hw, hr⟩ := hok
        simp only [ho, List.map_cons, List.map_nil] at hsem ⊢
        obtain ⟨j, hj, h⟩ := hsem
        have r := opd_rel hE o
        simp only [List.cons.injEq, and_true] at hj
        subst hj
        split at h
        · rename_i hnz
          cases h
          exact .inr ⟨_, (), ⟨_, rfl, .inr ⟨fun h0 => hnz ((zero_iff r hr).1 h0), rfl⟩⟩, trivial,
            setOpt_rel hE _ _ _ fun d hd' => by rw [hd] at hd'; cases hd'⟩
        · cases h
      | assume w =>
        simp only [hop] at hsem hok ⊢
        obtain ⟨hd, o, ho, hw, hr⟩ := hok
        simp only [ho, List.map_cons, List.map_nil] at hsem ⊢
        obtain ⟨j, hj, hnz, h⟩ := hsem
        have r := opd_rel hE o
        cases h
        simp only [List.cons.injEq, and_true] at hj
        subst hj
        exact .inr ⟨_, (), ⟨_, rfl, fun h0 => hnz ((zero_iff r hr).1 h0), rfl⟩, trivial,
          setOpt_rel hE _ _ _ fun d hd' => by rw [hd] at hd'; cases hd'⟩
      | nondet s =>
        simp only [hop] at hsem hok ⊢
        obtain ⟨_, hw, hu, hp1, hp2, hd⟩ := hok
        obtain ⟨j, hj, h⟩ := hsem
        cases h
        obtain ⟨v', h⟩ := nondet_bwd S enc hw (shape_wf hw hu hp1 hp2) v hj
        rcases h with h | ⟨h1, h2⟩
        · exact .inl ⟨(by rintro ⟨w', h⟩; rw [hop] at h; cases h), v', .inl ⟨h, trivial⟩⟩
        · exact .inr ⟨_, (), ⟨v', .inr ⟨h1, rfl⟩⟩, trivial, setOpt_rel hE _ _ _ fun d hd' =>
            ⟨(hd d hd').1.symm, h2, fun e1 e2 => absurd e2 ((hd d hd').2 e1)⟩⟩
  bwdFail := by
    intro b blk hb i hi ρ σ m m' hE _ hsem
    have hok := hf.instr b blk hb i hi
    simp only [llvm, boogie, InstrOk, mapInstr] at hsem hok ⊢
    cases hop : ops[i.op]? with
    | none => simp only [hop] at hok
    | some op =>
      cases op with
      | expr w e => simp only [hop] at hsem; obtain ⟨_, _, h⟩ := hsem; cases h
      | assume w => simp only [hop] at hsem; obtain ⟨_, _, _, h⟩ := hsem; cases h
      | nondet s => simp only [hop] at hsem; obtain ⟨_, _, h⟩ := hsem; cases h
      | check w =>
        simp only [hop] at hsem hok ⊢
        obtain ⟨hd, o, ho, hw, hr⟩ := hok
        simp only [ho, List.map_cons, List.map_nil] at hsem ⊢
        obtain ⟨j, hj, h⟩ := hsem
        have r := opd_rel hE o
        simp only [List.cons.injEq, and_true] at hj
        subst hj
        split at h
        · cases h
        · rename_i hz
          exact ⟨⟨_, rfl, .inl ⟨(zero_iff r hr).2 (Classical.not_not.1 hz), trivial⟩⟩, argsRel_one r.rep⟩
  enter := fun b blk hb a ρ σ hE => enter_rel hE a blk.phis (hf.phi b blk hb)
  cond := by
    intro b blk c t f hb ht ρ σ hE
    have r := opd_rel hE c
    exact eq_one r.rep (r.width.trans (hf.cond b blk c t f hb ht))
  ret := fun b blk o hb ht ρ σ hE => (opd_rel hE o).rep
  exn := fun _ _ _ => trivial
  term := hf.term

end Smack.E2E
