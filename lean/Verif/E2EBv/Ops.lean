/-
The simulation of the operations.
-/
import Verif.E2EBv.Sim

namespace Smack.E2EBv

open Smack.IntOps (Smt)
open Smack.Cfg Smack.Cfg.Spec
open Smack.E2E (Word mapFn mapOpd mapInstr mapPhi Simulates)
open Smack.MemSplit (Static Event Content flatRead flatWrite Sound Typed HasTy bty bitsOf Ev Layout Agree declFor)

variable {md : Module}

theorem not_check {op : Nat} {o : Op} (h : md.ops[op]? = some o) (ho : o ≠ .check) : ¬ IsCheck md op := by
  intro h'
  rw [IsCheck, h] at h'
  exact ho (Option.some.inj h')

theorem bv_zero {v : BitVec 32} : v ≠ 0#32 ↔ v.toNat ≠ 0 := not_congr (toNat_zero_iff.symm)

theorem nondet_all (sh : Nondet.Shape) (h1 : 1 ≤ sh.width) (h2 : ∀ w, sh = .sPromoted w → w < 32) (h3 : ∀ w, sh = .uPromoted w → w < 32)
    (v : BitVec sh.width) : Nondet.returnsBv sh v := by
  cases sh with
  | sPromoted w => exact Nondet.bv_sPromoted h1 (h2 w rfl) v
  | uPromoted w => exact Nondet.bv_uPromoted (h3 w rfl) v
  | sDirect w => exact Nondet.bv_sDirect h1 v
  | uDirect w => exact Nondet.bv_uDirect v
  | undefined w => trivial

theorem mem_of_snoc_prefix {α : Type} {l T : List α} {e : α} (h : l ++ [e] <+: T) : e ∈ T := h.subset (by simp)

/-- A block for the allocator of the generated code that LLVM has allocated. -/
theorem alloc_fwd {T : List (Event Ptr)} {H : List HEv} {s : LState} {s' : BState} (hM : MR md T H s s') {st : Bool} {p n : BitVec 64}
    (hpre : s.heap ++ [.alloc st p n] <+: H) : ∃ c, allocBv n p s'.curr c ∧
      MR md T H { s with heap := s.heap ++ [.alloc st p n] } { s' with curr := c, heap := s'.heap ++ [.alloc st p n] } := by
  obtain ⟨htr, hp, hA, hh, hr, hst⟩ := hM
  have hlow : s'.curr.toNat < 2 ^ 63 := by have := hst.2.1; omega
  rcases rest_alloc hr hpre with ⟨h0, h1⟩ | ⟨h0, rfl, c, h1, h2, h3⟩
  · exact ⟨s'.curr, (allocBv_iff hlow).2 (.inl ⟨h0, rfl⟩), htr, hp, hA, congrArg (· ++ _) hh, h1, hst.1, hst.2.1, below_zero hst.2.2 _ _ _ h0⟩
  · exact ⟨c, (allocBv_iff hlow).2 (.inr ⟨h0, rfl, h1, h2⟩), htr, hp, hA, congrArg (· ++ _) hh, h3,
      by show 0 < c.toNat; have := hst.1; omega, h2, below_alloc hst.2.2 _ _ h1⟩

/-- A block for LLVM that the allocator of the generated code has allocated. -/
theorem alloc_bwd {T T' : List (Event Ptr)} {H : List HEv} {s : LState} {s' : BState} (hM : MR md T H s s') {st : Bool} {p n c : BitVec 64}
    (ha : allocBv n p s'.curr c) (hpre : RB T' H { s' with curr := c, heap := s'.heap ++ [.alloc st p n] }) :
    MR md T H { s with heap := s.heap ++ [.alloc st p n] } { s' with curr := c, heap := s'.heap ++ [.alloc st p n] } ∧
      (n.toNat ≠ 0 → NewBlock s.heap p n.toNat) := by
  obtain ⟨htr, hp, hA, hh, hr, hst⟩ := hM
  have hlow : s'.curr.toNat < 2 ^ 63 := by have := hst.2.1; omega
  have hre := hpre.2
  rw [← hh] at hre
  rcases (allocBv_iff hlow).1 ha with ⟨h0, rfl⟩ | ⟨h0, rfl, h1, h2⟩
  · exact ⟨⟨htr, hp, hA, congrArg (· ++ _) hh, hre hlow, hst.1, hst.2.1, below_zero hst.2.2 _ _ _ h0⟩, fun h => absurd h0 h⟩
  · exact ⟨⟨htr, hp, hA, congrArg (· ++ _) hh, hre (by show c.toNat < _; omega), by show 0 < c.toNat; have := hst.1; omega, h2,
      below_alloc hst.2.2 _ _ h1⟩, fun _ => new_block hst _ h1 h2⟩

theorem free_rel {T : List (Event Ptr)} {H : List HEv} {s : LState} {s' : BState} (hM : MR md T H s s') {p : BitVec 64}
    (hre : Rest H s'.curr (s.heap ++ [.free p])) :
    MR md T H { s with heap := s.heap ++ [.free p] } { s' with heap := s'.heap ++ [.free p] } := by
  obtain ⟨htr, hp, hA, hh, hr, hst⟩ := hM
  exact ⟨htr, hp, hA, congrArg (· ++ _) hh, hre, hst.1, hst.2.1, below_free hst.2.2 _⟩

theorem MR.rb {T T' : List (Event Ptr)} (hT : T <+: T') {H : List HEv} {s : LState} {s' : BState} (h : MR md T H s s') : RB T' H s' :=
  ⟨by rw [← h.1]; exact h.2.1.trans hT, fun _ => by rw [← h.2.2.2.1]; exact h.2.2.2.2.1⟩

theorem MR.rl {T : List (Event Ptr)} {H : List HEv} {s : LState} {s' : BState} (h : MR md T H s s') : RL T H s :=
  ⟨h.2.1, h.2.2.2.2.1.pre⟩

theorem simulates (S : Smt) {Γ : Ctx} {fn : Fn Word} (hf : FnOk Γ md fn) {T T' : List (Event Ptr)} (hT : T <+: T') (hS : Sound md.D md.prog T)
    (hmax : ∀ e, T ++ [e] <+: T' → ¬ Sound md.D md.prog (T ++ [e])) (hL : Layout md.mode md.prog md.stmts md.decls T) (H : List HEv) :
    Simulates (restrict (llvm md) (RL T H)) (restrict (boogie S md) (RB T' H)) konst fn (EnvRel Γ) (MR md T H) Eq Eq (IsCheck md) where
  fwd := by
    intro b blk hb i hi ρ σ s s' hE hM v s₁ hsem
    obtain ⟨rfl, hw⟩ := hE
    obtain ⟨hsem, hpre⟩ := hsem
    replace hpre := hpre v s₁ rfl
    have hok := hf.instr b blk hb i hi
    rw [mapInstr_konst]
    obtain ⟨htr, hp, hA, hh, hr, hst⟩ := id hM
    have hp' : RB T' H s' := hM.rb hT
    simp only [restrict]
    simp only [llvm, boogie, InstrOk, operand_eq, index_eq] at hsem hok ⊢
    cases hop : md.ops[i.op]? with
    | none => simp only [hop] at hok
    | some op =>
      cases op with
      | expr w e =>
        simp only [hop] at hsem hok ⊢
        rcases hsem with ⟨_, h⟩ | ⟨v', hv, h⟩
        · cases h
        · cases h
          exact ⟨⟨w, v'⟩, s', ⟨⟨v', eval_eq _ e hok.1 v' hv, rfl⟩, fun _ _ h => by cases h; exact hp'⟩, hM, setOpt_rel hw _ _ hok.2⟩
      | check =>
        simp only [hop] at hsem hok ⊢
        obtain ⟨v', ha, h⟩ := hsem
        rcases h with ⟨_, h⟩ | ⟨hv, h⟩
        · cases h
        · cases h
          exact ⟨⟨32, v'⟩, s', ⟨⟨v', ha, (if_pos (bv_zero.2 hv)).symm⟩, fun _ _ h => by cases h; exact hp'⟩, hM,
            setOpt_rel hw _ _ fun d hd => by rw [hok.1] at hd; cases hd⟩
      | assume =>
        simp only [hop] at hsem hok ⊢
        obtain ⟨v', ha, hv, h⟩ := hsem
        cases h
        exact ⟨⟨32, v'⟩, s', ⟨⟨v', ha, bv_zero.2 hv, rfl⟩, fun _ _ h => by cases h; exact hp'⟩, hM,
          setOpt_rel hw _ _ fun d hd => by rw [hok.1] at hd; cases hd⟩
      | nondet sh =>
        simp only [hop] at hsem hok ⊢
        obtain ⟨v', h⟩ := hsem
        cases h
        exact ⟨⟨sh.width, v'⟩, s', ⟨⟨v', nondet_all sh hok.2.1 hok.2.2.1 hok.2.2.2.1 v', rfl⟩, fun _ _ h => by cases h; exact hp'⟩, hM,
          setOpt_rel hw _ _ hok.2.2.2.2⟩
      | gep t is =>
        simp only [hop] at hsem hok ⊢
        rcases hsem with ⟨_, h⟩ | ⟨hn, o, t', ho, h⟩
        · cases h
        · cases h
          obtain ⟨_, q2, q3⟩ := hok.2.1 (i.args.map (eval ρ))
          obtain ⟨as, r1, r2⟩ := gep_eq S t _ (argBits (i.args.map (eval ρ)) 0 64) o t' ho q2 q3 hn
          exact ⟨⟨64, _⟩, s', ⟨⟨as, _, r1, r2, rfl⟩, fun _ _ h => by cases h; exact hp'⟩, hM, setOpt_rel hw _ _ hok.2.2⟩
      | load a =>
        simp only [hop] at hsem hok ⊢
        obtain ⟨p, A, ha, hAa, h⟩ := hsem
        rcases h with ⟨_, h⟩ | ⟨_, h⟩
        · cases h
        · cases h
          obtain ⟨A', hA', _, hd⟩ := hok
          rw [hAa] at hA'; cases hA'
          obtain ⟨st, q1, q2⟩ := load_agree hL hA (mem_of_snoc_prefix hpre.1) hAa
          have hN : MR md T H { s with trace := s.trace ++ [⟨a, p, none⟩] } { s' with trace := s'.trace ++ [⟨a, p, none⟩] } :=
            ⟨congrArg (· ++ _) htr, hpre.1, hA, hh, hr, hst⟩
          exact ⟨⟨A.ty.bits, _⟩, { s' with trace := s'.trace ++ [⟨a, p, none⟩] }, ⟨⟨p, st, _, _, ha, q1, q2, rfl⟩, fun _ _ h => by
            cases h; exact hN.rb hT⟩, hN, setOpt_rel hw _ _ hd⟩
      | store a =>
        simp only [hop] at hsem hok ⊢
        obtain ⟨p, A, v', ha, hAa, h⟩ := hsem
        rcases h with ⟨_, h⟩ | ⟨_, h⟩
        · cases h
        · cases h
          obtain ⟨A', hA', hd, _⟩ := hok
          rw [hAa] at hA'; cases hA'
          obtain ⟨st, c, q1, q2, q3⟩ := store_agree hL hA (mem_of_snoc_prefix hpre.1) hAa v'
          have hN : MR md T H ⟨flatWrite (P := Ptr) s.mem p A.ty.store v', s.trace ++ [⟨a, p, some (.bv _ v')⟩], s.heap⟩
              { s' with vars := fun x => if x = st.region then c else s'.vars x, trace := s'.trace ++ [⟨a, p, some (.bv _ v')⟩] } :=
            ⟨congrArg (· ++ _) htr, hpre.1, q3, hh, hr, hst⟩
          exact ⟨⟨A.ty.bits, v'⟩, { s' with vars := fun x => if x = st.region then c else s'.vars x, trace := s'.trace ++ [⟨a, p, some (.bv _ v')⟩] },
            ⟨⟨p, st, _, v', c, ha, q1, q2, rfl⟩, fun _ _ h => by cases h; exact hN.rb hT⟩, hN,
            setOpt_rel hw _ _ fun d h => by rw [hd] at h; cases h⟩
      | alloca size =>
        simp only [hop] at hsem hok ⊢
        obtain ⟨w, k, ha, h⟩ := hsem
        rcases h with ⟨_, h⟩ | ⟨_, p, _, h⟩
        · cases h
        · cases h
          obtain ⟨c, q1, q2⟩ := alloc_fwd hM hpre.2
          rw [← size_eq] at q1 q2
          exact ⟨⟨64, p⟩, _, ⟨⟨w, k, p, c, ha, q1, rfl⟩, fun _ _ h => by cases h; exact q2.rb hT⟩, by rw [← size_eq]; exact q2,
            setOpt_rel hw _ _ hok.2⟩
      | malloc =>
        simp only [hop] at hsem hok ⊢
        obtain ⟨n, ha, h⟩ := hsem
        rcases h with ⟨_, h⟩ | ⟨p, _, h⟩
        · cases h
        · cases h
          obtain ⟨c, q1, q2⟩ := alloc_fwd hM hpre.2
          exact ⟨⟨64, p⟩, _, ⟨⟨64, n, p, c, ha, by rw [BitVec.setWidth_eq]; exact q1, by rw [BitVec.setWidth_eq]⟩,
            fun _ _ h => by cases h; exact q2.rb hT⟩, q2, setOpt_rel hw _ _ hok.2⟩
      | free =>
        simp only [hop] at hsem hok ⊢
        obtain ⟨p, ha, h⟩ := hsem
        rcases h with ⟨_, _, h⟩ | ⟨_, h⟩
        · cases h
        · cases h
          have q := free_rel hM (rest_free hr hpre.2)
          exact ⟨⟨64, p⟩, _, ⟨⟨p, ha, rfl⟩, fun _ _ h => by cases h; exact q.rb hT⟩, q,
            setOpt_rel hw _ _ fun d hd => by rw [hok.1] at hd; cases hd⟩
  fwdFail := by
    intro b blk hb i hi ρ σ s s' hE hM hobs hsem
    obtain ⟨rfl, hw⟩ := hE
    obtain ⟨hsem, _⟩ := hsem
    rw [mapInstr_konst]
    simp only [restrict]
    rw [IsCheck] at hobs
    simp only [llvm, boogie, hobs] at hsem ⊢
    obtain ⟨v', ha, h⟩ := hsem
    rcases h with ⟨hv, _⟩ | ⟨_, h⟩
    · exact ⟨⟨⟨v', ha, (if_neg fun h => bv_zero.1 h hv).symm⟩, fun _ _ h => by cases h⟩, trivial⟩
    · cases h
  bwd := by
    intro b blk hb i hi ρ σ s s' hE hM v s₁ hsem
    obtain ⟨rfl, hw⟩ := hE
    obtain ⟨hsem, hpre⟩ := hsem
    replace hpre := hpre v s₁ rfl
    have hok := hf.instr b blk hb i hi
    rw [mapInstr_konst] at hsem
    obtain ⟨htr, _, hA, hh, hr, hst'⟩ := id hM
    have hp : RL T H s := hM.rl
    simp only [restrict]
    simp only [llvm, boogie, InstrOk, operand_eq, index_eq] at hsem hok ⊢
    cases hop : md.ops[i.op]? with
    | none => simp only [hop] at hok
    | some op =>
      cases op with
      | expr w e =>
        simp only [hop] at hsem hok ⊢
        obtain ⟨v', hv, h⟩ := hsem
        cases h
        cases he : e.eval (argBits (i.args.map (eval ρ))) with
        | none => exact .inl ⟨not_check hop (by simp), .inl ⟨rfl, trivial⟩, fun _ _ h => by cases h⟩
        | some v'' =>
          have := eval_eq _ e hok.1 v'' he
          rw [hv] at this; cases this
          exact .inr ⟨⟨w, v'⟩, s, ⟨.inr ⟨v', rfl, rfl⟩, fun _ _ h => by cases h; exact hp⟩, hM, setOpt_rel hw _ _ hok.2⟩
      | check =>
        simp only [hop] at hsem hok ⊢
        obtain ⟨v', ha, h⟩ := hsem
        split at h
        · next hv =>
          cases h
          exact .inr ⟨⟨32, v'⟩, s, ⟨⟨v', ha, .inr ⟨bv_zero.1 hv, rfl⟩⟩, fun _ _ h => by cases h; exact hp⟩, hM,
            setOpt_rel hw _ _ fun d hd => by rw [hok.1] at hd; cases hd⟩
        · cases h
      | assume =>
        simp only [hop] at hsem hok ⊢
        obtain ⟨v', ha, hv, h⟩ := hsem
        cases h
        exact .inr ⟨⟨32, v'⟩, s, ⟨⟨v', ha, bv_zero.1 hv, rfl⟩, fun _ _ h => by cases h; exact hp⟩, hM,
          setOpt_rel hw _ _ fun d hd => by rw [hok.1] at hd; cases hd⟩
      | nondet sh =>
        simp only [hop] at hsem hok ⊢
        obtain ⟨v', _, h⟩ := hsem
        cases h
        exact .inr ⟨⟨sh.width, v'⟩, s, ⟨⟨v', rfl⟩, fun _ _ h => by cases h; exact hp⟩, hM, setOpt_rel hw _ _ hok.2.2.2.2⟩
      | gep t is =>
        simp only [hop] at hsem hok ⊢
        obtain ⟨as, v', has, hv, h⟩ := hsem
        cases h
        by_cases hn : NarrowNegative (is.map (·.value (i.args.map (eval ρ))))
        · exact .inl ⟨not_check hop (by simp), .inl ⟨hn, trivial⟩, fun _ _ h => by cases h⟩
        · obtain ⟨q1, q2, q3⟩ := hok.2.1 (i.args.map (eval ρ))
          obtain ⟨⟨o, t'⟩, ho⟩ := Option.isSome_iff_exists.1 q1
          obtain ⟨as', r1, r2⟩ := gep_eq S t _ (argBits (i.args.map (eval ρ)) 0 64) o t' ho q2 q3 hn
          rw [has] at r1; cases r1
          rw [hv] at r2; cases r2
          exact .inr ⟨⟨64, _⟩, s, ⟨.inr ⟨hn, o, t', ho, rfl⟩, fun _ _ h => by cases h; exact hp⟩, hM, setOpt_rel hw _ _ hok.2.2⟩
      | load a =>
        simp only [hop] at hsem hok ⊢
        obtain ⟨p, st, w, v', ha, hst, hv, h⟩ := hsem
        cases h
        obtain ⟨A, hAa, _, hd⟩ := hok
        replace hpre : s.trace ++ [⟨a, p, none⟩] <+: T' := by rw [htr]; exact hpre.1
        by_cases hin : s.trace ++ [⟨a, p, none⟩] <+: T
        · obtain ⟨st', q1, q2⟩ := load_agree hL hA (mem_of_snoc_prefix hin) hAa
          have q1' : md.stmts[a]? = some st' := q1
          rw [hst] at q1'; cases q1'
          rw [hv] at q2; cases q2
          exact .inr ⟨⟨A.ty.bits, _⟩, { s with trace := s.trace ++ [⟨a, p, none⟩] },
            ⟨⟨p, A, ha, hAa, .inr ⟨Sound.mono hS fun _ h => hin.subset h, rfl⟩⟩, fun _ _ h => by cases h; exact ⟨hin, hp.2⟩⟩,
            ⟨congrArg (· ++ _) htr, hin, hA, hh, hr, hst'⟩, setOpt_rel hw _ _ hd⟩
        · have hend := at_end hp.1 hT hpre hin
          rw [hend] at hpre ⊢
          exact .inl ⟨not_check hop (by simp), ⟨p, A, ha, hAa, .inl ⟨hmax _ hpre, trivial⟩⟩, fun _ _ h => by cases h⟩
      | store a =>
        simp only [hop] at hsem hok ⊢
        obtain ⟨p, st, w, v', c, ha, hst, hc, h⟩ := hsem
        cases h
        obtain ⟨A, hAa, hd, po, vo, hargs, _, hvw⟩ := hok
        have hw' : w = A.ty.bits := by
          rw [hargs] at ha
          simp only [List.map_cons, List.map_nil, List.cons.injEq, and_true] at ha
          rw [← hvw, ← opd_width hw vo, ha.2]
        subst hw'
        replace hpre : s.trace ++ [⟨a, p, some (.bv _ v')⟩] <+: T' := by rw [htr]; exact hpre.1
        by_cases hin : s.trace ++ [⟨a, p, some (.bv _ v')⟩] <+: T
        · obtain ⟨st', c', q1, q2, q3⟩ := store_agree hL hA (mem_of_snoc_prefix hin) hAa v'
          have q1' : md.stmts[a]? = some st' := q1
          rw [hst] at q1'; cases q1'
          rw [hc] at q2; cases q2
          exact .inr ⟨⟨A.ty.bits, v'⟩, ⟨flatWrite (P := Ptr) s.mem p A.ty.store v', s.trace ++ [⟨a, p, some (.bv _ v')⟩], s.heap⟩,
            ⟨⟨p, A, v', ha, hAa, .inr ⟨Sound.mono hS fun _ h => hin.subset h, rfl⟩⟩, fun _ _ h => by cases h; exact ⟨hin, hp.2⟩⟩,
            ⟨congrArg (· ++ _) htr, hin, q3, hh, hr, hst'⟩, setOpt_rel hw _ _ fun d h => by rw [hd] at h; cases h⟩
        · have hend := at_end hp.1 hT hpre hin
          rw [hend] at hpre ⊢
          exact .inl ⟨not_check hop (by simp), ⟨p, A, v', ha, hAa, .inl ⟨hmax _ hpre, trivial⟩⟩, fun _ _ h => by cases h⟩
      | alloca size =>
        simp only [hop] at hsem hok ⊢
        obtain ⟨w, k, p, c, ha, hal, h⟩ := hsem
        cases h
        rw [size_eq] at hal hpre ⊢
        by_cases hb : 2 ^ 64 ≤ size * k.toNat
        · exact .inl ⟨not_check hop (by simp), ⟨w, k, ha, .inl ⟨hb, trivial⟩⟩, fun _ _ h => by cases h⟩
        · obtain ⟨q1, q2⟩ := alloc_bwd hM hal hpre
          have hn : (BitVec.ofNat 64 (size * k.toNat)).toNat = size * k.toNat := by rw [BitVec.toNat_ofNat]; omega
          rw [hn] at q2
          exact .inr ⟨⟨64, p⟩, _, ⟨⟨w, k, ha, .inr ⟨by omega, p, (Nat.eq_zero_or_pos _).imp id (fun h => q2 (by omega)), rfl⟩⟩,
            fun _ _ h => by cases h; exact q1.rl⟩, q1, setOpt_rel hw _ _ hok.2⟩
      | malloc =>
        simp only [hop] at hsem hok ⊢
        obtain ⟨w, n, p, c, ha, hal, h⟩ := hsem
        cases h
        obtain ⟨⟨o, hargs, ho⟩, hd⟩ := hok
        have hw' : w = 64 := by
          rw [hargs] at ha
          simp only [List.map_cons, List.map_nil, List.cons.injEq, and_true] at ha
          rw [← ho, ← opd_width hw o, ha]
        subst hw'
        rw [BitVec.setWidth_eq] at hal hpre ⊢
        by_cases hb : n.toNat = 0
        · exact .inl ⟨not_check hop (by simp), ⟨n, ha, .inl ⟨hb, trivial⟩⟩, fun _ _ h => by cases h⟩
        · obtain ⟨q1, q2⟩ := alloc_bwd hM hal hpre
          exact .inr ⟨⟨64, p⟩, _, ⟨⟨n, ha, .inr ⟨p, .inr (by rw [show max n.toNat 1 = n.toNat by omega]; exact q2 hb), rfl⟩⟩,
            fun _ _ h => by cases h; exact q1.rl⟩, q1, setOpt_rel hw _ _ hd⟩
      | free =>
        simp only [hop] at hsem hok ⊢
        obtain ⟨p, ha, h⟩ := hsem
        cases h
        by_cases hb : p.toNat = 0 ∨ ∃ n, Held s.heap false p n
        · have hre := hpre.2 (by have := hst'.2.1; show s'.curr.toNat < _; omega)
          have q := free_rel (p := p) hM (by rw [hh]; exact hre)
          exact .inr ⟨⟨64, p⟩, _, ⟨⟨p, ha, .inr ⟨hb, rfl⟩⟩, fun _ _ h => by cases h; exact q.rl⟩, q,
            setOpt_rel hw _ _ fun d hd => by rw [hok.1] at hd; cases hd⟩
        · rw [not_or, not_exists] at hb
          exact .inl ⟨not_check hop (by simp), ⟨p, ha, .inl ⟨hb.1, hb.2, trivial⟩⟩, fun _ _ h => by cases h⟩
  bwdFail := by
    intro b blk hb i hi ρ σ s s' hE hM hsem
    obtain ⟨rfl, hw⟩ := hE
    obtain ⟨hsem, _⟩ := hsem
    rw [mapInstr_konst] at hsem ⊢
    simp only [restrict]
    simp only [llvm, boogie] at hsem ⊢
    cases hop : md.ops[i.op]? with
    | none => simp only [hop] at hsem
    | some op =>
      cases op with
      | expr w e => simp only [hop] at hsem; obtain ⟨_, _, h⟩ := hsem; cases h
      | assume => simp only [hop] at hsem; obtain ⟨_, _, _, h⟩ := hsem; cases h
      | nondet sh => simp only [hop] at hsem; obtain ⟨_, _, h⟩ := hsem; cases h
      | gep t is => simp only [hop] at hsem; obtain ⟨_, _, _, _, h⟩ := hsem; cases h
      | load a => simp only [hop] at hsem; obtain ⟨_, _, _, _, _, _, _, h⟩ := hsem; cases h
      | store a => simp only [hop] at hsem; obtain ⟨_, _, _, _, _, _, _, _, h⟩ := hsem; cases h
      | alloca size => simp only [hop] at hsem; obtain ⟨_, _, _, _, _, _, h⟩ := hsem; cases h
      | malloc => simp only [hop] at hsem; obtain ⟨_, _, _, _, _, _, h⟩ := hsem; cases h
      | free => simp only [hop] at hsem; obtain ⟨_, _, h⟩ := hsem; cases h
      | check =>
        simp only [hop] at hsem ⊢
        obtain ⟨v', ha, h⟩ := hsem
        split at h
        · cases h
        · next hv =>
          refine ⟨⟨⟨v', ha, .inl ⟨?_, trivial⟩⟩, fun _ _ h => by cases h⟩, trivial⟩
          exact Classical.not_not.1 fun h => hv (bv_zero.2 h)
  enter := by
    intro b blk hb a ρ σ hE
    obtain ⟨rfl, hw⟩ := hE
    have : blk.phis.map (mapPhi konst) = blk.phis := by
      rw [List.map_congr_left (g := id) (fun p _ => mapPhi_konst p), List.map_id]
    rw [this]
    exact enter_rel hw a blk.phis (hf.phi b blk hb)
  cond := by
    intro b blk c t f hb ht ρ σ hE
    obtain ⟨rfl, hw⟩ := hE
    rw [mapOpd_konst]
    exact Iff.rfl
  ret := by
    intro b blk o hb ht ρ σ hE
    obtain ⟨rfl, hw⟩ := hE
    rw [mapOpd_konst]
  exn := fun _ _ h => h
  term := hf.term

end Smack.E2EBv
