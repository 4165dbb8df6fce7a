/-
The operations of LLVM and those of the generated code simulate each other along a given list of accesses.
-/
import Verif.E2EBv.Exprs
import Verif.E2EBv.Heap
import Verif.E2EBv.Restrict
import Verif.E2E.Sim
import Verif.MemSplit.Static
import Verif.Nondet.Props
import Verif.Gep.Props

namespace Smack.E2EBv

open Smack.IntOps (Smt litBv)
open Smack.Cfg Smack.Cfg.Spec
open Smack.E2E (Word mapFn mapOpd mapInstr mapPhi Simulates Out lookup_map)
open Smack.MemSplit (Static Event Content flatRead flatWrite Sound Typed HasTy bty bitsOf Ev Layout Agree declFor)

/-! ## Constants -/

theorem konst_eq (c : Word) : konst c = c := by
  obtain ⟨w, c⟩ := c
  have : litBv false false c = some c := litBv_eq _ _ _ (fun h => by cases h)
  simp [konst, this]

theorem mapOpd_konst (o : Opd Word) : mapOpd konst o = o := by
  cases o with
  | var x => rfl
  | const c => simp only [mapOpd, konst_eq]

theorem mapInstr_konst (i : Instr Word) : mapInstr konst i = i := by
  have : i.args.map (mapOpd konst) = i.args := by
    rw [List.map_congr_left (g := id) (fun o _ => mapOpd_konst o), List.map_id]
  simp only [mapInstr, this]

theorem mapPhi_konst (p : Phi Word) : mapPhi konst p = p := by
  have : (p.inc.map fun q => (q.1, mapOpd konst q.2)) = p.inc := by
    rw [List.map_congr_left (g := id) (fun q _ => by simp [mapOpd_konst]), List.map_id]
  simp only [mapPhi, this]

/-! ## Operands -/

theorem operand_eq : operand = argBits := by
  funext l n w
  unfold operand argBits
  cases h : l[n]? with
  | none => rfl
  | some x => exact BitVec.eq_of_toNat_eq (by simp)

theorem index_eq (l : List Word) (g : GIdx) : g.index l = g.value l := by
  cases g with
  | const w c => rfl
  | opd w n => simp only [GIdx.index, GIdx.value, operand_eq]

/-! ## Environments -/

/-- Equal and well-typed. -/
def EnvRel (Γ : Ctx) (ρ σ : Env Word) : Prop := ρ = σ ∧ ∀ x, (ρ x).1 = Γ x

theorem opd_width {Γ : Ctx} {ρ : Env Word} (h : ∀ x, (ρ x).1 = Γ x) (o : Opd Word) : (eval ρ o).1 = Γ.opd o := by
  cases o with
  | var x => exact h x
  | const c => rfl

theorem setOpt_rel {Γ : Ctx} {ρ : Env Word} (h : ∀ x, (ρ x).1 = Γ x) (d : Option Var) (v : Word) (hd : ∀ x, d = some x → Γ x = v.1) :
    EnvRel Γ (setOpt ρ d v) (setOpt ρ d v) := by
  refine ⟨rfl, fun x => ?_⟩
  cases d with
  | none => exact h x
  | some y =>
    simp only [setOpt]
    split
    · next hx => subst hx; exact (hd x rfl).symm
    · exact h x

theorem enter_rel {Γ : Ctx} {ρ : Env Word} (h : ∀ x, (ρ x).1 = Γ x) (b : Nat) (phis : List (Phi Word))
    (hp : ∀ p ∈ phis, ∀ q ∈ p.inc, Γ.opd q.2 = Γ p.var) : EnvRel Γ (enter ρ b phis) (enter ρ b phis) := by
  refine ⟨rfl, fun x => ?_⟩
  simp only [enter]
  cases hf : phis.find? (fun p => decide (p.var = x)) with
  | none => exact h x
  | some p =>
    have hx : p.var = x := by simpa using List.find?_some hf
    simp only
    cases hl : p.inc.lookup b with
    | none => exact h x
    | some o =>
      simp only
      obtain ⟨l1, l2, he, _⟩ := List.lookup_eq_some_iff.1 hl
      rw [opd_width h, hp p (List.mem_of_find?_eq_some hf) (b, o) (by rw [he]; simp), hx]

theorem word_eta {x : Word} {w : Nat} (h : x.1 = w) : x = ⟨w, x.2.cast h⟩ := by
  obtain ⟨w', v⟩ := x
  cases h
  rfl

/-! ## Accesses -/

variable {md : Module}

theorem Sound.mono {tr tr' : List (Event Ptr)} (h : Sound md.D md.prog tr') (hs : ∀ e ∈ tr, e ∈ tr') : Sound md.D md.prog tr where
  alias := fun e he f hf => h.alias e (hs e he) f (hs f hf)
  global := fun e he f hf => h.global e (hs e he) f (hs f hf)

theorem Typed.mono {tr tr' : List (Event Ptr)} (h : Typed md.mode md.prog tr') (hs : ∀ e ∈ tr, e ∈ tr') : Typed md.mode md.prog tr :=
  fun e he => h e (hs e he)

theorem translate_ty (m : MemSplit.Mode) (D : Nat → MemSplit.Node) (s : List Static) :
    ∀ regs, (MemSplit.translate m D regs s).1.map (·.ty) = s.map (·.ty) := by
  induction s with
  | nil => intro regs; rfl
  | cons A s ih =>
    intro regs
    simp only [MemSplit.translate]
    split <;> simp [ih]

theorem stmt_ty {a : Nat} {st : MemSplit.Stmt} (h : md.stmts[a]? = some st) : ∃ A, md.prog[a]? = some A ∧ A.ty = st.ty := by
  have := translate_ty md.mode md.D md.prog (MemSplit.table md.mode md.D md.seen)
  have h' : ((MemSplit.translate md.mode md.D (MemSplit.table md.mode md.D md.seen) md.prog).1.map (·.ty))[a]? = some st.ty := by
    rw [List.getElem?_map]
    show Option.map _ md.stmts[a]? = _
    rw [h]; rfl
  rw [this, List.getElem?_map, Option.map_eq_some_iff] at h'
  exact h'

theorem bty_bv (t : MemSplit.Ty) : bty md.mode t = .bv t.bits := by
  cases t <;> rfl

theorem store_typed {σ : Nat → Content Ptr} {st : MemSplit.Stmt} {p : BitVec 64} {v : MemSplit.Val} {c : Content Ptr}
    (h : MemSplit.store md.mode md.decls σ st p v = some c) : HasTy v (bty md.mode st.ty) := by
  unfold MemSplit.store at h
  split at h
  · assumption
  · cases h

theorem typed_snoc {tr : List (Event Ptr)} (h : Typed md.mode md.prog tr) {e : Event Ptr} {A : Static} (hA : md.prog[e.stmt]? = some A)
    (hv : ∀ v, e.value = some v → HasTy v (bty md.mode A.ty)) : Typed md.mode md.prog (tr ++ [e]) := by
  intro f hf
  rcases List.mem_append.1 hf with hf | hf
  · exact h f hf
  · rw [List.mem_singleton] at hf; subst hf; exact ⟨A, hA, hv⟩

/-! ## Growth of the traces -/

/-- The trace and the history are extended, and the trace stays right. -/
def LeL (md : Module) (s s' : LState) : Prop :=
  s.trace <+: s'.trace ∧ s.heap <+: s'.heap ∧ (Typed md.mode md.prog s.trace → Typed md.mode md.prog s'.trace) ∧
    (Sound md.D md.prog s.trace → Sound md.D md.prog s'.trace)

theorem LeL.refl (md : Module) (s : LState) : LeL md s s := ⟨List.prefix_refl _, List.prefix_refl _, id, id⟩

theorem LeL.heap {s : LState} (e : HEv) : LeL md s { s with heap := s.heap ++ [e] } := ⟨List.prefix_refl _, List.prefix_append _ _, id, id⟩

theorem growsL (md : Module) : Grows (llvm md) (LeL md) where
  refl := LeL.refl md
  trans := fun a b c h1 h2 => ⟨h1.1.trans h2.1, h1.2.1.trans h2.2.1, fun h => h2.2.2.1 (h1.2.2.1 h), fun h => h2.2.2.2 (h1.2.2.2 h)⟩
  exn := fun _ m => LeL.refl md m
  exnVal := fun _ m => LeL.refl md m
  sem := by
    intro op args s v s' h
    simp only [llvm] at h
    cases hop : md.ops[op]? with
    | none => simp only [hop] at h
    | some o =>
      cases o with
      | expr w e =>
        simp only [hop] at h
        rcases h with ⟨_, h⟩ | ⟨_, _, h⟩ <;> cases h
        exact LeL.refl md _
      | check =>
        simp only [hop] at h
        obtain ⟨_, _, ⟨_, h⟩ | ⟨_, h⟩⟩ := h <;> cases h
        exact LeL.refl md _
      | assume =>
        simp only [hop] at h
        obtain ⟨_, _, _, h⟩ := h
        cases h
        exact LeL.refl md _
      | nondet sh =>
        simp only [hop] at h
        obtain ⟨_, h⟩ := h
        cases h
        exact LeL.refl md _
      | gep t is =>
        simp only [hop] at h
        rcases h with ⟨_, h⟩ | ⟨_, _, _, _, h⟩ <;> cases h
        exact LeL.refl md _
      | load a =>
        simp only [hop] at h
        obtain ⟨p, A, _, hA, ⟨_, h⟩ | ⟨hS, h⟩⟩ := h <;> cases h
        exact ⟨List.prefix_append _ _, List.prefix_refl _, fun h => typed_snoc h hA (fun _ h => by cases h), fun _ => hS⟩
      | store a =>
        simp only [hop] at h
        obtain ⟨p, A, v, _, hA, ⟨_, h⟩ | ⟨hS, h⟩⟩ := h <;> cases h
        exact ⟨List.prefix_append _ _, List.prefix_refl _, fun h => typed_snoc h hA (fun _ h => by cases h; rw [bty_bv]; exact rfl), fun _ => hS⟩
      | alloca size =>
        simp only [hop] at h
        obtain ⟨w, k, _, ⟨_, h⟩ | ⟨_, p, _, h⟩⟩ := h <;> cases h
        exact LeL.heap _
      | malloc =>
        simp only [hop] at h
        obtain ⟨n, _, ⟨_, h⟩ | ⟨p, _, h⟩⟩ := h <;> cases h
        exact LeL.heap _
      | free =>
        simp only [hop] at h
        obtain ⟨p, _, ⟨_, _, h⟩ | ⟨_, h⟩⟩ := h <;> cases h
        exact LeL.heap _

/-- The allocator has gone on from `s` to `s'`. -/
def Went (s s' : BState) : Prop :=
  s.curr.toNat < 2 ^ 63 → s'.curr.toNat < 2 ^ 63 ∧ ∃ r, s'.heap = s.heap ++ r ∧ Steps s.curr r s'.curr

theorem Went.refl {s s' : BState} (h1 : s'.curr = s.curr) (h2 : s'.heap = s.heap) : Went s s' := by
  intro h
  rw [h1]
  exact ⟨h, [], by rw [h2, List.append_nil], .nil _⟩

theorem Went.trans {a b c : BState} (h1 : Went a b) (h2 : Went b c) : Went a c := by
  intro h
  obtain ⟨q1, r1, q2, q3⟩ := h1 h
  obtain ⟨q4, r2, q5, q6⟩ := h2 q1
  exact ⟨q4, r1 ++ r2, by rw [q5, q2, List.append_assoc], q3.append q6⟩

theorem Went.alloc {s : BState} {n p c : BitVec 64} (st : Bool) (h : allocBv n p s.curr c) :
    Went s { s with curr := c, heap := s.heap ++ [.alloc st p n] } := by
  intro hc
  rcases (allocBv_iff hc).1 h with ⟨h0, rfl⟩ | ⟨h0, rfl, h1, h2⟩
  · exact ⟨hc, _, rfl, .zero _ _ _ _ _ _ h0 (.nil _)⟩
  · exact ⟨by show c.toNat < _; omega, _, rfl, .alloc _ _ _ _ _ _ h0 h1 h2 (.nil _)⟩

theorem Went.free (s : BState) (p : BitVec 64) : Went s { s with heap := s.heap ++ [.free p] } :=
  fun hc => ⟨hc, _, rfl, .free _ _ _ _ (.nil _)⟩

def LeB (md : Module) (s s' : BState) : Prop :=
  s.trace <+: s'.trace ∧ (Typed md.mode md.prog s.trace → Typed md.mode md.prog s'.trace) ∧ Went s s'

theorem LeB.refl (md : Module) (s : BState) : LeB md s s := ⟨List.prefix_refl _, id, .refl rfl rfl⟩

theorem growsB (S : Smt) (md : Module) : Grows (boogie S md) (LeB md) where
  refl := LeB.refl md
  trans := fun a b c h1 h2 => ⟨h1.1.trans h2.1, fun h => h2.2.1 (h1.2.1 h), h1.2.2.trans h2.2.2⟩
  exn := fun _ m => LeB.refl md m
  exnVal := fun _ m => LeB.refl md m
  sem := by
    intro op args s v s' h
    simp only [boogie] at h
    cases hop : md.ops[op]? with
    | none => simp only [hop] at h
    | some o =>
      cases o with
      | expr w e =>
        simp only [hop] at h
        obtain ⟨_, _, h⟩ := h
        cases h
        exact LeB.refl md _
      | check =>
        simp only [hop] at h
        obtain ⟨_, _, h⟩ := h
        split at h <;> cases h
        exact LeB.refl md _
      | assume =>
        simp only [hop] at h
        obtain ⟨_, _, _, h⟩ := h
        cases h
        exact LeB.refl md _
      | nondet sh =>
        simp only [hop] at h
        obtain ⟨_, _, h⟩ := h
        cases h
        exact LeB.refl md _
      | gep t is =>
        simp only [hop] at h
        obtain ⟨_, _, _, _, h⟩ := h
        cases h
        exact LeB.refl md _
      | load a =>
        simp only [hop] at h
        obtain ⟨p, st, w, v, _, hst, _, h⟩ := h
        cases h
        obtain ⟨A, hA, _⟩ := stmt_ty hst
        exact ⟨List.prefix_append _ _, fun h => typed_snoc h hA (fun _ h => by cases h), .refl rfl rfl⟩
      | store a =>
        simp only [hop] at h
        obtain ⟨p, st, w, v, c, _, hst, hc, h⟩ := h
        cases h
        obtain ⟨A, hA, hty⟩ := stmt_ty hst
        exact ⟨List.prefix_append _ _, fun h => typed_snoc h hA (fun _ h => by cases h; rw [hty]; exact store_typed hc), .refl rfl rfl⟩
      | alloca size =>
        simp only [hop] at h
        obtain ⟨w, k, p, c, _, ha, h⟩ := h
        cases h
        exact ⟨List.prefix_refl _, id, .alloc _ ha⟩
      | malloc =>
        simp only [hop] at h
        obtain ⟨w, n, p, c, _, ha, h⟩ := h
        cases h
        exact ⟨List.prefix_refl _, id, .alloc _ ha⟩
      | free =>
        simp only [hop] at h
        obtain ⟨p, _, h⟩ := h
        cases h
        exact ⟨List.prefix_refl _, id, .free _ _⟩

/-! ## The longest sound prefix -/

theorem sound_nil : Sound md.D md.prog ([] : List (Event Ptr)) where
  alias := fun e he => by cases he
  global := fun e he => by cases he

open Classical in
theorem longest (T' : List (Event Ptr)) : ∃ T, T <+: T' ∧ Sound md.D md.prog T ∧
    ∀ e, T ++ [e] <+: T' → ¬ Sound md.D md.prog (T ++ [e]) := by
  have key : ∀ k, Sound md.D md.prog (T'.take k) ∨ ∃ T, T <+: T' ∧ Sound md.D md.prog T ∧
      ∀ e, T ++ [e] <+: T' → ¬ Sound md.D md.prog (T ++ [e]) := by
    intro k
    induction k with
    | zero => exact .inl (by rw [List.take_zero]; exact sound_nil)
    | succ k ih =>
      rcases ih with h | h
      · by_cases h' : Sound md.D md.prog (T'.take (k + 1))
        · exact .inl h'
        · refine .inr ⟨T'.take k, List.take_prefix _ _, h, fun e he hS => h' ?_⟩
          have e1 := List.prefix_iff_eq_take.1 he
          by_cases hk : k < T'.length
          · have : (T'.take k ++ [e]).length = k + 1 := by simp; omega
            rw [this] at e1
            rw [← e1]; exact hS
          · have := he.length_le
            simp at this
            omega
      · exact .inr h
  rcases key T'.length with h | h
  · rw [List.take_length] at h
    refine ⟨T', List.prefix_refl _, h, fun e he => ?_⟩
    have := he.length_le
    simp only [List.length_append, List.length_singleton] at this
    omega
  · exact h

theorem at_end {α : Type} {tr T T' : List α} {e : α} (h1 : tr <+: T) (h2 : T <+: T') (h3 : tr ++ [e] <+: T') (h4 : ¬ tr ++ [e] <+: T) : tr = T := by
  rcases List.prefix_or_prefix_of_prefix h2 h3 with h | h
  · rcases List.prefix_concat_iff.1 h with h | h
    · exact absurd (h ▸ List.prefix_refl _) h4
    · exact h1.eq_of_length (Nat.le_antisymm h1.length_le h.length_le)
  · exact absurd h h4

/-! ## Memories -/

/-- The memory variables agree with the memory for the accesses `T`. -/
def AgreeOn (md : Module) (T : List (Event Ptr)) (M : BitVec 64 → BitVec 8) (σ : Nat → Content Ptr) : Prop :=
  ∀ e ∈ T, ∀ st, Ev md.mode md.prog md.stmts md.decls e st → (σ st.region).HasTy (declFor md.mode st) ∧ Agree (σ st.region) M e.addr st

theorem load_agree {T : List (Event Ptr)} (hL : Layout md.mode md.prog md.stmts md.decls T) {M : BitVec 64 → BitVec 8} {σ : Nat → Content Ptr}
    (h : AgreeOn md T M σ) {e : Event Ptr} (he : e ∈ T) {A : Static} (hA : md.prog[e.stmt]? = some A) :
    ∃ st, md.stmts[e.stmt]? = some st ∧
      MemSplit.load md.mode md.decls σ st e.addr = some (.bv A.ty.bits (flatRead (P := Ptr) M e.addr A.ty)) := by
  obtain ⟨st, hst⟩ := hL.ev e he
  obtain ⟨h1, h2⟩ := h e he st hst
  obtain ⟨A', hA', hty⟩ := hst.typed
  rw [hA] at hA'; cases hA'
  obtain ⟨v, q1, q2, q3⟩ := MemSplit.load_spec hst h1 h2
  refine ⟨st, hst.stmt, ?_⟩
  rw [← hty] at q2 q3
  rw [bty_bv] at q2
  obtain ⟨b, rfl⟩ := MemSplit.bv_of_hasTy q2
  rw [q1]
  simp only [bitsOf, BitVec.setWidth_eq] at q3
  rw [q3]

theorem store_agree {T : List (Event Ptr)} (hL : Layout md.mode md.prog md.stmts md.decls T) {M : BitVec 64 → BitVec 8} {σ : Nat → Content Ptr}
    (h : AgreeOn md T M σ) {e : Event Ptr} (he : e ∈ T) {A : Static} (hA : md.prog[e.stmt]? = some A) (v : BitVec A.ty.bits) :
    ∃ st c, md.stmts[e.stmt]? = some st ∧ MemSplit.store md.mode md.decls σ st e.addr (.bv A.ty.bits v) = some c ∧
      AgreeOn md T (flatWrite (P := Ptr) M e.addr A.ty.store v) (fun x => if x = st.region then c else σ x) := by
  obtain ⟨st, hst⟩ := hL.ev e he
  obtain ⟨h1, h2⟩ := h e he st hst
  obtain ⟨A', hA', hty⟩ := hst.typed
  rw [hA] at hA'; cases hA'
  have hv : HasTy (.bv A.ty.bits v) (bty md.mode st.ty) := by rw [← hty, bty_bv]; exact rfl
  obtain ⟨c, hc, hct⟩ := MemSplit.store_spec hst hv h1
  refine ⟨st, c, hst.stmt, hc, fun f hf s hs => ?_⟩
  obtain ⟨g1, g2⟩ := h f hf s hs
  have hb : bitsOf A.ty (.bv A.ty.bits v) = v := by simp [bitsOf]
  have ha := MemSplit.agree_store MemSplit.laws_bv hL he hst hv hc hf hs g2
  rw [← hty, hb] at ha
  refine ⟨?_, ha⟩
  show Content.HasTy (if s.region = st.region then c else σ s.region) _
  split
  · next hreg =>
    have hd : declFor md.mode s = declFor md.mode st := by
      have := hs.decl
      rw [hreg, hst.decl] at this
      exact (Option.some.inj this).symm
    rw [hd]; exact hct
  · exact g1

/-- Related states along the accesses `T` and the history `H`. -/
def MR (md : Module) (T : List (Event Ptr)) (H : List HEv) (s : LState) (s' : BState) : Prop :=
  s.trace = s'.trace ∧ s.trace <+: T ∧ AgreeOn md T s.mem s'.vars ∧ s.heap = s'.heap ∧ Rest H s'.curr s.heap ∧ Start s'.curr s.heap

theorem MR.memRel {T : List (Event Ptr)} {H : List HEv} (hL : Layout md.mode md.prog md.stmts md.decls T) {s : LState} {s' : BState}
    (h : MR md T H s s') : MemRel md s s' := by
  refine ⟨h.1, h.2.2.2.1, fun e he => ?_⟩
  have he' : e ∈ T := h.2.1.subset he
  obtain ⟨st, hst⟩ := hL.ev e he'
  obtain ⟨A, hA, _⟩ := hst.typed
  obtain ⟨st', h1, h2⟩ := load_agree hL h.2.2.1 he' hA
  exact ⟨A, st', _, hA, h1, h2, by simp [bitsOf]⟩

/-- LLVM states along `T` and `H`. -/
def RL (T : List (Event Ptr)) (H : List HEv) (s : LState) : Prop := s.trace <+: T ∧ s.heap <+: H

/-- Boogie states along `T` and `H`. -/
def RB (T : List (Event Ptr)) (H : List HEv) (s : BState) : Prop := s.trace <+: T ∧ (s.curr.toNat < 2 ^ 63 → Rest H s.curr s.heap)

theorem Rest.pre {H : List HEv} {c : BitVec 64} {h : List HEv} (hr : Rest H c h) : h <+: H := by
  obtain ⟨r, rfl, _⟩ := hr
  exact List.prefix_append _ _

theorem LeL.rl {s s' : LState} (h : LeL md s s') : RL s'.trace s'.heap s := ⟨h.1, h.2.1⟩

theorem LeB.rb {s s' : BState} (h : LeB md s s') : RB s'.trace s'.heap s :=
  ⟨h.1, fun hc => by
    obtain ⟨_, r, h1, h2⟩ := h.2.2 hc
    exact ⟨r, h1, h2.follows⟩⟩

/-! ## Address computations -/

theorem addr_eq (base : BitVec 64) (o : Int) : BitVec.ofInt 64 (base.toInt + o) = Gep.addr 64 base o := by
  unfold Gep.addr
  rw [BitVec.ofInt_add, BitVec.ofInt_toInt]

theorem argsRest_mem : ∀ (is : List Gep.Idx) (t : Gep.Ty) (as : List Gep.Arg), Gep.argsRest t is = some as →
    ∀ i t', Gep.Arg.elem i t' ∈ as → i ∈ is := by
  intro is
  induction is with
  | nil => intro t as h i t' hm; simp only [Gep.argsRest, Option.some.injEq] at h; subst h; cases hm
  | cons j is ih =>
    intro t as h i t' hm
    cases t with
    | scalar _ _ => cases h
    | array n e =>
      simp only [Gep.argsRest, Option.map_eq_some_iff] at h
      obtain ⟨l, h1, rfl⟩ := h
      rcases List.mem_cons.1 hm with hm | hm
      · cases hm; exact .head _
      · exact .tail _ (ih e l h1 i t' hm)
    | struct sz fs =>
      simp only [Gep.argsRest] at h
      cases hf : fs.get? j.bits.toNat with
      | none => rw [hf] at h; cases h
      | some q =>
        obtain ⟨o, t₁⟩ := q
        rw [hf] at h
        simp only [Option.map_eq_some_iff] at h
        obtain ⟨l, h1, rfl⟩ := h
        rcases List.mem_cons.1 hm with hm | hm
        · cases hm
        · exact .tail _ (ih t₁ l h1 i t' hm)

theorem args_mem {is : List Gep.Idx} {t : Gep.Ty} {as : List Gep.Arg} (h : Gep.args t is = some as) {i : Gep.Idx} {t' : Gep.Ty}
    (hm : Gep.Arg.elem i t' ∈ as) : i ∈ is := by
  cases is with
  | nil => simp only [Gep.args, Option.some.injEq] at h; subst h; cases hm
  | cons j is =>
    simp only [Gep.args, Option.map_eq_some_iff] at h
    obtain ⟨l, h1, rfl⟩ := h
    rcases List.mem_cons.1 hm with hm | hm
    · cases hm; exact .head _
    · exact .tail _ (argsRest_mem is t l h1 i t' hm)

theorem allIdx_of {Q R : Gep.Idx → Gep.Ty → Prop} : ∀ as : List Gep.Arg, Gep.AllIdx Q as →
    (∀ i t, Gep.Arg.elem i t ∈ as → Q i t → R i t) → Gep.AllIdx R as
  | [], _, _ => trivial
  | .field _ :: r, h, hq => allIdx_of r h (fun i t hm => hq i t (.tail _ hm))
  | .elem i t :: r, h, hq => ⟨hq i t (.head _) h.1, allIdx_of r h.2 (fun i t hm => hq i t (.tail _ hm))⟩

theorem gep_eq (S : Smt) (t : Gep.Ty) (is : List Gep.Idx) (base : BitVec 64) (o : Int) (t' : Gep.Ty)
    (ho : Gep.offset Gep.Ty.alloc t is = some (o, t')) (hs : Gep.SizesOk t is)
    (hc : ∀ as, Gep.args t is = some as → Gep.AllIdx (fun j t => j.isConst = true → j.ConstOk t) as) (hn : ¬ NarrowNegative is) :
    ∃ as, Gep.args t is = some as ∧ Gep.ptrArithBv S .bv 64 base as = some (BitVec.ofInt 64 (base.toInt + o)) := by
  obtain ⟨as, has⟩ := Gep.c43_args _ t is _ ho
  refine ⟨as, has, ?_⟩
  rw [addr_eq]
  refine Gep.c43_bv_partial S .bv 64 base t is o t' ho hs as has (allIdx_of as (hc as has) fun i t₁ hm hq => ?_)
  cases hcst : i.isConst with
  | true => simp only [if_true]; exact hq hcst
  | false =>
    simp only [Bool.false_eq_true, if_false]
    show 64 ≤ i.w ∨ 0 ≤ i.bits.toInt
    by_cases hw : 64 ≤ i.w
    · exact .inl hw
    · refine .inr (Int.not_lt.1 fun hneg => hn ⟨i, args_mem has hm, hcst, by omega, hneg⟩)

end Smack.E2EBv
