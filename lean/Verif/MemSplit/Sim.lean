import Verif.MemSplit.Flat

/-
The simulation between the region variables and the flat memory, from facts about the statements of an execution.
-/

namespace Smack.MemSplit

open Smack.Bytes (PtrRep Spread addr)

/-- The declaration that fits a statement. -/
def declFor (m : Mode) (st : Stmt) : Decl :=
  match st.form with
  | .scalar => ⟨false, bty m st.ty⟩
  | .elem => ⟨true, bty m st.ty⟩
  | .bytes => ⟨true, .bv 8⟩

/-- An executed access with its statement. -/
structure Ev (m : Mode) {P : PtrRep} (prog : List Static) (stmts : List Stmt) (decls : List Decl) (e : Event P) (st : Stmt) : Prop where
  typed : ∃ A, prog[e.stmt]? = some A ∧ A.ty = st.ty
  stmt : stmts[e.stmt]? = some st
  decl : decls[st.region]? = some (declFor m st)
  bytes : st.form = .bytes → m.bitPrecise = true
  good : Good st.ty
  small : st.ty.store ≤ 2 ^ 64

/-- Two accesses share a byte. -/
def Share {P : PtrRep} (e f : Event P) (s t : Ty) : Prop :=
  ∃ i j, i < s.store ∧ j < t.store ∧ addr e.addr i = addr f.addr j

/-- What the statements of an execution have to satisfy. -/
structure Layout (m : Mode) {P : PtrRep} (prog : List Static) (stmts : List Stmt) (decls : List Decl) (tr : List (Event P)) :
    Prop where
  ev : ∀ e ∈ tr, ∃ st, Ev m prog stmts decls e st
  form : ∀ e ∈ tr, ∀ f ∈ tr, ∀ s t, Ev m prog stmts decls e s → Ev m prog stmts decls f t → s.region = t.region → s.form = t.form
  scalar : ∀ e ∈ tr, ∀ f ∈ tr, ∀ s t, Ev m prog stmts decls e s → Ev m prog stmts decls f t → s.region = t.region →
    s.form = .scalar → e.addr = f.addr ∧ s.ty = t.ty
  elem : ∀ e ∈ tr, ∀ f ∈ tr, ∀ s t, Ev m prog stmts decls e s → Ev m prog stmts decls f t → s.region = t.region →
    s.form = .elem → Share e f s.ty t.ty → e.addr = f.addr ∧ s.ty = t.ty
  apart : ∀ e ∈ tr, ∀ f ∈ tr, ∀ s t, Ev m prog stmts decls e s → Ev m prog stmts decls f t → Share e f s.ty t.ty →
    s.region = t.region

theorem Ev.unique {m : Mode} {P : PtrRep} {prog : List Static} {stmts : List Stmt} {decls : List Decl} {e : Event P} {s t : Stmt}
    (h : Ev m prog stmts decls e s) (h' : Ev m prog stmts decls e t) : s = t := by
  have := h.stmt.symm.trans h'.stmt
  exact Option.some.inj this

/-- The value of the memory variable agrees with the flat memory for an access. -/
def Agree {P : PtrRep} (c : Content P) (M : P.Ref → BitVec 8) (p : P.Ref) (st : Stmt) : Prop :=
  match st.form, c with
  | .scalar, .scalar v => bitsOf st.ty v = flatRead M p st.ty
  | .elem, .map f => bitsOf st.ty (f p) = flatRead M p st.ty
  | .bytes, .map f => ∀ i < st.ty.store, asByte (f (addr p i)) = M (addr p i)
  | _, _ => False

theorem bv_of_hasTy {v : Val} {w : Nat} (h : HasTy v (.bv w)) : ∃ b : BitVec w, v = .bv w b := by
  cases v with
  | int i => cases h
  | bv w' b => have h' : w' = w := h; subst h'; exact ⟨b, rfl⟩

theorem i2p_spec (m : Mode) (b : BitVec 64) (n : Nat) : ∃ v, i2p m b = some v ∧ HasTy v (bty m (.ptr n)) ∧ bitsOf (.ptr n) v = b := by
  unfold i2p bty
  by_cases hm : m.bvPointers = true
  · rw [if_pos hm, if_pos hm]
    refine ⟨_, rfl, rfl, ?_⟩
    show b.setWidth 64 = b
    simp
  · rw [if_neg hm, if_neg hm]
    refine ⟨_, rfl, trivial, ?_⟩
    show BitVec.ofInt 64 _ = b
    apply BitVec.eq_of_toInt_eq
    rw [BitVec.toInt_ofInt]
    simp only [IntOps.isub, Gep.bv2uint]
    have hb := b.isLt
    have hslt : b.slt 0#64 = decide (2 ^ 63 ≤ b.toNat) := by
      rw [BitVec.slt_eq_decide, BitVec.toInt_eq_toNat_cond]
      congr 1
      simp
      split <;> omega
    rw [hslt, BitVec.toInt_eq_toNat_cond]
    by_cases h : 2 ^ 63 ≤ b.toNat
    · rw [if_pos (by simpa using h), if_neg (by omega)]
      simp only [Int.bmod]
      split <;> omega
    · rw [if_neg (by simpa using h), if_pos (by omega)]
      simp only [Int.bmod]
      split <;> omega

theorem byteMem_congr {P : PtrRep} (f : P.Ref → Val) (M : P.Ref → BitVec 8) (p : P.Ref) (t : Ty)
    (h : ∀ i < t.store, asByte (f (addr p i)) = M (addr p i)) : flatRead (byteMem f) p t = flatRead M p t :=
  flatRead_congr _ _ p t h

theorem sigma_eq {w : Nat} {x : (w : Nat) × BitVec w} {b : BitVec w} (h : x = ⟨w, b⟩) : x.1 = w ∧ x.2.setWidth w = b := by
  subst h; exact ⟨rfl, by simp⟩

/-- A load returns the value in the flat memory. -/
theorem load_spec {m : Mode} {P : PtrRep} {prog : List Static} {stmts : List Stmt} {decls : List Decl} {e : Event P} {st : Stmt}
    (h : Ev m prog stmts decls e st) {σ : Nat → Content P} {M : P.Ref → BitVec 8}
    (hty : (σ st.region).HasTy (declFor m st)) (ha : Agree (σ st.region) M e.addr st) :
    ∃ v, load m decls σ st e.addr = some v ∧ HasTy v (bty m st.ty) ∧ bitsOf st.ty v = flatRead M e.addr st.ty := by
  unfold load
  rw [h.decl]
  obtain ⟨r, fm, t⟩ := st
  cases fm with
  | scalar =>
    simp only [Agree, declFor] at ha hty ⊢
    cases hc : σ r with
    | map f => rw [hc] at ha; exact ha.elim
    | scalar v =>
      rw [hc] at ha hty
      exact ⟨v, by simp, hty.2, ha⟩
  | elem =>
    simp only [Agree, declFor] at ha hty ⊢
    cases hc : σ r with
    | scalar f => rw [hc] at ha; exact ha.elim
    | map f =>
      rw [hc] at ha hty
      exact ⟨f e.addr, by simp, hty.2 _, ha⟩
  | bytes =>
    simp only [Agree, declFor] at ha hty ⊢
    cases hc : σ r with
    | scalar f => rw [hc] at ha; exact ha.elim
    | map f =>
      rw [hc] at ha hty
      have hr := byteMem_congr f M e.addr t ha
      simp only [if_true]
      have hg := h.good
      cases t with
      | int w =>
        have hl := sigma_eq (bytes_load (byteMem f) e.addr w hg)
        refine ⟨.bv _ (Bytes.load w (byteMem f) e.addr).2, ?_, ?_, ?_⟩
        · simp only [loadBytes]
          rw [if_pos hl.1]
        · have hb := h.bytes rfl
          simp only [bty, hb, if_true]
          exact hl.1
        · rw [← hr]
          exact hl.2
      | ptr n =>
        have hl := bytes_load (byteMem f) e.addr 64 (by decide)
        have hl2 : (Bytes.load 64 (byteMem f) e.addr).2.setWidth 64 = flatRead (byteMem f) e.addr (.ptr n) := (sigma_eq hl).2
        obtain ⟨v, h1, h2, h3⟩ := i2p_spec m (BitVec.ofNat 64 (flatNat (byteMem f) e.addr ((64 + 7) / 8))) n
        refine ⟨v, ?_, h2, ?_⟩
        · simp only [loadBytes]
          rw [hl]
          exact h1
        · rw [h3, ← hr, ← hl2, (sigma_eq hl).2]

open Classical in
/-- A store keeps the variable well-typed. -/
theorem store_spec {m : Mode} {P : PtrRep} {prog : List Static} {stmts : List Stmt} {decls : List Decl} {e : Event P} {st : Stmt}
    (h : Ev m prog stmts decls e st) {σ : Nat → Content P} {v : Val} (hv : HasTy v (bty m st.ty))
    (hty : (σ st.region).HasTy (declFor m st)) :
    ∃ c, store m decls σ st e.addr v = some c ∧ c.HasTy (declFor m st) := by
  unfold store
  rw [h.decl, if_pos hv]
  obtain ⟨r, fm, t⟩ := st
  cases fm with
  | scalar =>
    simp only [declFor] at hty ⊢
    cases hc : σ r with
    | map f => rw [hc] at hty; cases hty.1
    | scalar v' => exact ⟨.scalar v, by simp, rfl, hv⟩
  | elem =>
    simp only [declFor] at hty ⊢
    cases hc : σ r with
    | scalar f => rw [hc] at hty; cases hty.1
    | map f =>
      rw [hc] at hty
      refine ⟨.map fun q => if q = e.addr then v else f q, by simp only [if_true], rfl, ?_⟩
      intro p
      show HasTy (if p = e.addr then v else f p) _
      split
      · exact hv
      · exact hty.2 p
  | bytes =>
    simp only [declFor] at hty ⊢
    cases hc : σ r with
    | scalar f => rw [hc] at hty; cases hty.1
    | map f => exact ⟨.map fun q => .bv 8 (storeBytes t (byteMem f) e.addr v q), by simp only [if_true], rfl, fun p => rfl⟩

theorem storeBytes_flat {m : Mode} {P : PtrRep} (hP : Laws P) (t : Ty) (hg : Good t) (hs : t.store ≤ 2 ^ 64) (hb : m.bitPrecise = true)
    (M : Bytes.Mem P) (p : P.Ref) (v : Val) (hv : HasTy v (bty m t)) : storeBytes t M p v = flatWrite M p t.store (bitsOf t v) := by
  cases t with
  | int w =>
    simp only [bty, hb, if_true] at hv
    obtain ⟨b, rfl⟩ := bv_of_hasTy hv
    have := bytes_store M p b hg (hP.spread p _ hs)
    simp only [storeBytes, bitsOf]
    rw [this]
    congr 1
    exact (BitVec.setWidth_eq b).symm
  | ptr n =>
    have := bytes_store M p (p2i v) (by decide) (hP.spread p _ (by decide))
    simp only [storeBytes]
    rw [this]
    cases v <;> rfl

open Classical in
theorem agree_store {m : Mode} {P : PtrRep} (hP : Laws P) {prog : List Static} {stmts : List Stmt} {decls : List Decl}
    {tr : List (Event P)} (hL : Layout m prog stmts decls tr) {e : Event P} (he : e ∈ tr) {st : Stmt} (hst : Ev m prog stmts decls e st)
    {σ : Nat → Content P} {M : P.Ref → BitVec 8} {v : Val} (hv : HasTy v (bty m st.ty)) {c : Content P}
    (hc : store m decls σ st e.addr v = some c) {f : Event P} (hf : f ∈ tr) {s : Stmt} (hs : Ev m prog stmts decls f s)
    (ha : Agree (σ s.region) M f.addr s) :
    Agree (if s.region = st.region then c else σ s.region) (flatWrite M e.addr st.ty.store (bitsOf st.ty v)) f.addr s := by
  have hspread := hP.spread e.addr _ hst.small
  -- bytes of `f` not shared with `e` are unchanged
  have hmiss : ∀ i < s.ty.store, (∀ j < st.ty.store, addr e.addr j ≠ addr f.addr i) →
      flatWrite M e.addr st.ty.store (bitsOf st.ty v) (addr f.addr i) = M (addr f.addr i) :=
    fun i _ h => flatWrite_miss _ _ _ _ _ h
  by_cases hshare : Share e f st.ty s.ty
  · have hreg := hL.apart e he f hf st s hst hs hshare
    rw [if_pos hreg.symm]
    have hform := hL.form e he f hf st s hst hs hreg
    unfold store at hc
    rw [hst.decl, if_pos hv] at hc
    obtain ⟨r, fm, t⟩ := st
    obtain ⟨r', fm', t'⟩ := s
    simp only at hreg hform hv hc ha hmiss hspread ⊢
    subst hreg hform
    cases fm with
    | scalar =>
      obtain ⟨h1, h2⟩ := hL.scalar e he f hf _ _ hst hs rfl rfl
      simp only at h2
      subst h2
      simp only [declFor] at hc
      cases hσ : σ r with
      | map g => rw [hσ] at hc; cases hc
      | scalar w =>
        rw [hσ] at hc
        simp at hc
        subst hc
        show bitsOf t v = flatRead _ f.addr t
        rw [← h1, flatRead_write _ _ _ _ hspread]
    | elem =>
      obtain ⟨h1, h2⟩ := hL.elem e he f hf _ _ hst hs rfl rfl hshare
      simp only at h2
      subst h2
      simp only [declFor] at hc
      cases hσ : σ r with
      | scalar g => rw [hσ] at hc; cases hc
      | map g =>
        rw [hσ] at hc
        simp at hc
        subst hc
        show bitsOf t (if f.addr = e.addr then v else g f.addr) = flatRead _ f.addr t
        rw [if_pos h1.symm, ← h1, flatRead_write _ _ _ _ hspread]
    | bytes =>
      simp only [declFor] at hc
      cases hσ : σ r with
      | scalar g => rw [hσ] at hc; cases hc
      | map g =>
        rw [hσ] at hc ha
        simp at hc
        subst hc
        show ∀ i < t'.store, (storeBytes t (byteMem g) e.addr v (addr f.addr i)).setWidth 8 = _
        intro i hi
        rw [storeBytes_flat hP t hst.good hst.small (hst.bytes rfl) _ _ _ hv, BitVec.setWidth_eq]
        by_cases hj : ∃ j < t.store, addr e.addr j = addr f.addr i
        · obtain ⟨j, hj, hji⟩ := hj
          rw [← hji, flatWrite_hit M _ _ _ hspread j hj]
          exact flatWrite_hit (byteMem g) _ _ _ hspread j hj
        · have hj' : ∀ j < t.store, addr e.addr j ≠ addr f.addr i := fun j h1 h2 => hj ⟨j, h1, h2⟩
          rw [flatWrite_miss M _ _ _ _ hj']
          exact (flatWrite_miss (byteMem g) _ _ _ _ hj').trans (ha i hi)
  · have hno : ∀ i < s.ty.store, flatWrite M e.addr st.ty.store (bitsOf st.ty v) (addr f.addr i) = M (addr f.addr i) :=
      fun i hi => hmiss i hi fun j hj h => hshare ⟨j, i, hj, hi, h⟩
    have hread : flatRead (flatWrite M e.addr st.ty.store (bitsOf st.ty v)) f.addr s.ty = flatRead M f.addr s.ty :=
      flatRead_congr _ _ _ _ hno
    by_cases hreg : s.region = st.region
    · rw [if_pos hreg]
      have hform := hL.form e he f hf st s hst hs hreg.symm
      have hsc := hL.scalar e he f hf st s hst hs hreg.symm
      unfold store at hc
      rw [hst.decl, if_pos hv] at hc
      obtain ⟨r, fm, t⟩ := st
      obtain ⟨r', fm', t'⟩ := s
      simp only at hreg hform hv hc ha hmiss hspread hno hread hsc ⊢
      subst hreg hform
      cases fm with
      | scalar =>
        obtain ⟨h1, h2⟩ := hsc rfl
        subst h2
        have : 0 < t.store := by
          have := hst.good.1
          unfold Ty.store
          simp only at this
          omega
        exact absurd ⟨0, 0, this, this, by rw [h1]⟩ hshare
      | elem =>
        simp only [declFor] at hc
        cases hσ : σ r' with
        | scalar g => rw [hσ] at hc; cases hc
        | map g =>
          rw [hσ] at hc ha
          simp at hc
          subst hc
          show bitsOf t' (if f.addr = e.addr then v else g f.addr) = flatRead _ f.addr t'
          rw [if_neg, hread]
          · exact ha
          · intro h
            have h1 : 0 < t.store := by
              have := hst.good.1
              unfold Ty.store
              simp only at this
              omega
            have h2 : 0 < t'.store := by
              have := hs.good.1
              unfold Ty.store
              simp only at this
              omega
            exact hshare ⟨0, 0, h1, h2, by rw [h]⟩
      | bytes =>
        simp only [declFor] at hc
        cases hσ : σ r' with
        | scalar g => rw [hσ] at hc; cases hc
        | map g =>
          rw [hσ] at hc ha
          simp at hc
          subst hc
          show ∀ i < t'.store, (storeBytes t (byteMem g) e.addr v (addr f.addr i)).setWidth 8 = _
          intro i hi
          rw [storeBytes_flat hP t hst.good hst.small (hst.bytes rfl) _ _ _ hv, BitVec.setWidth_eq, hno i hi]
          exact (flatWrite_miss (byteMem g) _ _ _ _ (fun j hj h => hshare ⟨j, i, hj, hi, h⟩)).trans (ha i hi)
    · rw [if_neg hreg]
      obtain ⟨r', fm', t'⟩ := s
      cases fm' with
      | scalar =>
        simp only [Agree] at ha ⊢
        cases hσ : σ r' with
        | map g => rw [hσ] at ha; exact ha
        | scalar g => rw [hσ] at ha; exact ha.trans hread.symm
      | elem =>
        simp only [Agree] at ha ⊢
        cases hσ : σ r' with
        | scalar g => rw [hσ] at ha; exact ha
        | map g => rw [hσ] at ha; exact ha.trans hread.symm
      | bytes =>
        simp only [Agree] at ha ⊢
        cases hσ : σ r' with
        | scalar g => rw [hσ] at ha; exact ha
        | map g => rw [hσ] at ha; exact fun i hi => (ha i hi).trans (hno i hi).symm

theorem run_sim {m : Mode} {P : PtrRep} (hP : Laws P) {prog : List Static} {stmts : List Stmt} {decls : List Decl}
    {tr : List (Event P)} (hL : Layout m prog stmts decls tr) (hT : Typed m prog tr) (es : List (Event P)) :
    (∀ e ∈ es, e ∈ tr) → ∀ (σ : Nat → Content P) (M : P.Ref → BitVec 8),
    (∀ e ∈ tr, ∀ st, Ev m prog stmts decls e st → (σ st.region).HasTy (declFor m st) ∧ Agree (σ st.region) M e.addr st) →
    ∃ vs bs, run m stmts decls σ es = some vs ∧ flatRun prog M es = some bs ∧ Agrees m vs bs := by
  induction es with
  | nil => intro _ σ M _; exact ⟨[], [], rfl, rfl, .nil⟩
  | cons e es ih =>
    intro hes σ M hI
    have he := hes e (by simp)
    obtain ⟨st, hst⟩ := hL.ev e he
    obtain ⟨A, hA, hAt⟩ := hst.typed
    obtain ⟨h1, h2⟩ := hI e he st hst
    rw [run, flatRun, hst.stmt, hA]
    simp only [Option.bind_eq_bind, Option.bind_some]
    cases hval : e.value with
    | none =>
      obtain ⟨v, hl, hvt, hvb⟩ := load_spec hst h1 h2
      obtain ⟨vs, bs, hr, hfr, hag⟩ := ih (fun f hf => hes f (by simp [hf])) σ M hI
      simp only [hl, hr, hfr, Option.bind_some]
      rw [hAt]
      exact ⟨v :: vs, _, rfl, rfl, by rw [← hvb]; exact .cons hvt hag⟩
    | some v =>
      have hv : HasTy v (bty m st.ty) := by
        obtain ⟨A', hA', hv⟩ := hT e he
        rw [hA] at hA'; cases hA'
        rw [← hAt]; exact hv v hval
      obtain ⟨c, hc, hct⟩ := store_spec hst hv h1
      simp only [hc, Option.bind_some]
      rw [hAt]
      refine ih (fun f hf => hes f (by simp [hf])) _ _ ?_
      intro f hf s hs
      obtain ⟨g1, g2⟩ := hI f hf s hs
      refine ⟨?_, agree_store hP hL he hst hv hc hf hs g2⟩
      show Content.HasTy (if s.region = st.region then c else σ s.region) _
      split
      · next hreg =>
        have hd : declFor m s = declFor m st := by
          have := hs.decl
          rw [hreg, hst.decl] at this
          exact (Option.some.inj this).symm
        rw [hd]; exact hct
      · exact g1

/-- A value of type `t` with given bits. -/
def mkVal (m : Mode) (t : Ty) (b : BitVec t.bits) : Val :=
  match bty m t with
  | .bv _ => .bv _ b
  | .int => .int b.toNat

theorem mkVal_spec (m : Mode) (t : Ty) (b : BitVec t.bits) : HasTy (mkVal m t b) (bty m t) ∧ bitsOf t (mkVal m t b) = b := by
  have hofInt : BitVec.ofInt t.bits (b.toNat : Int) = b := by
    apply BitVec.eq_of_toNat_eq
    simp
  unfold mkVal
  cases h : bty m t with
  | int => exact ⟨trivial, hofInt⟩
  | bv w =>
    refine ⟨?_, BitVec.setWidth_eq b⟩
    show t.bits = w
    cases t with
    | int w' =>
      simp only [bty] at h
      split at h
      · cases h; rfl
      · cases h
    | ptr n =>
      simp only [bty] at h
      split at h
      · cases h; rfl
      · cases h

theorem default_content {P : PtrRep} (d : Decl) : ∃ c : Content P, c.HasTy d := by
  obtain ⟨im, t⟩ := d
  have hv : ∃ v, HasTy v t := by
    cases t with
    | int => exact ⟨.int 0, trivial⟩
    | bv w => exact ⟨.bv w 0, rfl⟩
  obtain ⟨v, hv⟩ := hv
  cases im with
  | false => exact ⟨.scalar v, rfl, hv⟩
  | true => exact ⟨.map fun _ => v, rfl, fun _ => hv⟩

/-- Every flat memory has region variables that agree with it for the accesses of the execution. -/
theorem exists_regions {m : Mode} {P : PtrRep} {prog : List Static} {stmts : List Stmt} {decls : List Decl}
    {tr : List (Event P)} (hL : Layout m prog stmts decls tr) (M : P.Ref → BitVec 8) :
    ∃ σ : Nat → Content P, (∀ r d, decls[r]? = some d → (σ r).HasTy d) ∧
      ∀ e ∈ tr, ∀ st, Ev m prog stmts decls e st → (σ st.region).HasTy (declFor m st) ∧ Agree (σ st.region) M e.addr st := by
  have key : ∀ r, ∃ c : Content P, (∀ d, decls[r]? = some d → c.HasTy d) ∧
      ∀ e ∈ tr, ∀ st, Ev m prog stmts decls e st → st.region = r → Agree c M e.addr st := by
    intro r
    by_cases hr : ∃ e ∈ tr, ∃ st, Ev m prog stmts decls e st ∧ st.region = r
    · obtain ⟨e, he, st, hst, hreg⟩ := hr
      have hdecl := hst.decl
      rw [hreg] at hdecl
      cases hf : st.form with
      | scalar =>
        refine ⟨.scalar (mkVal m st.ty (flatRead M e.addr st.ty)), ?_, ?_⟩
        · intro d hd
          rw [hdecl] at hd; cases hd
          unfold declFor; rw [hf]
          exact ⟨rfl, (mkVal_spec m _ _).1⟩
        · intro f hf' s hs hsr
          have hform := hL.form e he f hf' st s hst hs (hreg.trans hsr.symm)
          obtain ⟨h1, h2⟩ := hL.scalar e he f hf' st s hst hs (hreg.trans hsr.symm) hf
          unfold Agree
          rw [← hform, hf]
          simp only
          rw [← h2, ← h1]
          exact (mkVal_spec m _ _).2
      | elem =>
        -- choose the value at each accessed address
        have hval : ∀ p : P.Ref, ∃ v, HasTy v (bty m st.ty) ∧ ∀ f ∈ tr, ∀ s, Ev m prog stmts decls f s → s.region = r →
            f.addr = p → bitsOf s.ty v = flatRead M p s.ty := by
          intro p
          by_cases hp : ∃ f ∈ tr, ∃ s, Ev m prog stmts decls f s ∧ s.region = r ∧ f.addr = p
          · obtain ⟨f, hf', s, hs, hsr, hfp⟩ := hp
            have hdf := hs.decl
            rw [hsr, hdecl] at hdf
            have hform := hL.form e he f hf' st s hst hs (hreg.trans hsr.symm)
            have hbt : bty m s.ty = bty m st.ty := by
              unfold declFor at hdf
              rw [← hform, hf] at hdf
              simp at hdf
              exact hdf.symm
            refine ⟨mkVal m s.ty (flatRead M p s.ty), ?_, ?_⟩
            · rw [← hbt]; exact (mkVal_spec m _ _).1
            · intro g hg u hu hur hgp
              have pos : ∀ {e : Event P} {s : Stmt}, Ev m prog stmts decls e s → 0 < s.ty.store := by
                intro e s h
                have := h.good.1
                unfold Ty.store
                omega
              have := (hL.elem f hf' g hg s u hs hu (hsr.trans hur.symm) (hform ▸ hf)
                ⟨0, 0, pos hs, pos hu, by rw [hfp, hgp]⟩).2
              rw [← this]
              exact (mkVal_spec m _ _).2
          · obtain ⟨v, hv⟩ : ∃ v, HasTy v (bty m st.ty) := ⟨mkVal m st.ty 0, (mkVal_spec m _ _).1⟩
            exact ⟨v, hv, fun f hf' s hs hsr hfp => absurd ⟨f, hf', s, hs, hsr, hfp⟩ hp⟩
        obtain ⟨g, hg⟩ := Classical.axiomOfChoice hval
        refine ⟨.map g, ?_, ?_⟩
        · intro d hd
          rw [hdecl] at hd; cases hd
          unfold declFor; rw [hf]
          exact ⟨rfl, fun p => (hg p).1⟩
        · intro f hf' s hs hsr
          have hform := hL.form e he f hf' st s hst hs (hreg.trans hsr.symm)
          unfold Agree
          rw [← hform, hf]
          exact (hg f.addr).2 f hf' s hs hsr rfl
      | bytes =>
        refine ⟨.map fun q => .bv 8 (M q), ?_, ?_⟩
        · intro d hd
          rw [hdecl] at hd; cases hd
          unfold declFor; rw [hf]
          exact ⟨rfl, fun p => rfl⟩
        · intro f hf' s hs hsr
          have hform := hL.form e he f hf' st s hst hs (hreg.trans hsr.symm)
          unfold Agree
          rw [← hform, hf]
          intro i _
          exact BitVec.setWidth_eq _
    · cases hd : decls[r]? with
      | none => exact ⟨.scalar (.int 0), fun d h => (by cases h), fun e he st hst h => absurd ⟨e, he, st, hst, h⟩ hr⟩
      | some d =>
        obtain ⟨c, hc⟩ := default_content (P := P) d
        exact ⟨c, fun d' h => (by cases h; exact hc), fun e he st hst h => absurd ⟨e, he, st, hst, h⟩ hr⟩
  obtain ⟨σ, hσ⟩ := Classical.axiomOfChoice key
  exact ⟨σ, fun r d h => (hσ r).1 d h, fun e he st hst => ⟨(hσ _).1 _ hst.decl, (hσ _).2 e he st hst rfl⟩⟩

/-- The bytes that a variable gives to an access. -/
def byteAt {P : PtrRep} (c : Content P) (p : P.Ref) (st : Stmt) (i : Nat) : BitVec 8 :=
  match st.form, c with
  | .scalar, .scalar v => byteOf (bitsOf st.ty v) i
  | .elem, .map f => byteOf (bitsOf st.ty (f p)) i
  | .bytes, .map f => asByte (f (addr p i))
  | _, _ => 0

/-- Every well-typed state of the region variables agrees with some flat memory for the accesses of the execution. -/
theorem exists_flat {m : Mode} {P : PtrRep} (hP : Laws P) {prog : List Static} {stmts : List Stmt} {decls : List Decl}
    {tr : List (Event P)} (hL : Layout m prog stmts decls tr) (σ : Nat → Content P)
    (hσ : ∀ e ∈ tr, ∀ st, Ev m prog stmts decls e st → (σ st.region).HasTy (declFor m st)) :
    ∃ M : P.Ref → BitVec 8, ∀ e ∈ tr, ∀ st, Ev m prog stmts decls e st → Agree (σ st.region) M e.addr st := by
  have key : ∀ q : P.Ref, ∃ b : BitVec 8, ∀ e ∈ tr, ∀ st, Ev m prog stmts decls e st → ∀ i < st.ty.store, addr e.addr i = q →
      byteAt (σ st.region) e.addr st i = b := by
    intro q
    by_cases hq : ∃ e ∈ tr, ∃ st, Ev m prog stmts decls e st ∧ ∃ i < st.ty.store, addr e.addr i = q
    · obtain ⟨e, he, st, hst, i, hi, hiq⟩ := hq
      refine ⟨byteAt (σ st.region) e.addr st i, ?_⟩
      intro f hf s hs j hj hjq
      have hshare : Share e f st.ty s.ty := ⟨i, j, hi, hj, hiq.trans hjq.symm⟩
      have hreg := hL.apart e he f hf st s hst hs hshare
      have hform := hL.form e he f hf st s hst hs hreg
      rw [← hreg]
      have same : e.addr = f.addr ∧ st.ty = s.ty → byteAt (σ st.region) f.addr s j = byteAt (σ st.region) e.addr st i := by
        rintro ⟨h1, h2⟩
        have hij : i = j := hP.spread e.addr _ hst.small i j hi (by rw [h2]; exact hj) (by rw [hiq, ← hjq, h1])
        rw [← hij, ← h1]
        have hss : s = st := by
          cases s; cases st; simp only at h2 hform hreg; subst h2 hform hreg; rfl
        rw [hss]
      cases hf' : st.form with
      | scalar => exact same (hL.scalar e he f hf st s hst hs hreg hf')
      | elem => exact same (hL.elem e he f hf st s hst hs hreg hf' hshare)
      | bytes =>
        unfold byteAt
        rw [← hform, hf']
        cases σ st.region with
        | scalar v => rfl
        | map g => simp only [hiq, hjq]
    · exact ⟨0, fun e he st hst i hi h => absurd ⟨e, he, st, hst, i, hi, h⟩ hq⟩
  obtain ⟨M, hM⟩ := Classical.axiomOfChoice key
  refine ⟨M, ?_⟩
  intro e he st hst
  have hb : ∀ i < st.ty.store, byteAt (σ st.region) e.addr st i = M (addr e.addr i) :=
    fun i hi => hM _ e he st hst i hi rfl
  have ht := hσ e he st hst
  unfold Agree
  unfold byteAt at hb
  unfold declFor at ht
  cases hf : st.form with
  | scalar =>
    rw [hf] at hb ht
    cases hc : σ st.region with
    | map g => rw [hc] at ht; cases ht.1
    | scalar v =>
      rw [hc] at hb
      exact (flatRead_bytes M e.addr st.ty _ fun i hi => (hb i hi).symm).symm
  | elem =>
    rw [hf] at hb ht
    cases hc : σ st.region with
    | scalar g => rw [hc] at ht; cases ht.1
    | map g =>
      rw [hc] at hb
      exact (flatRead_bytes M e.addr st.ty _ fun i hi => (hb i hi).symm).symm
  | bytes =>
    rw [hf] at hb ht
    cases hc : σ st.region with
    | scalar g => rw [hc] at ht; cases ht.1
    | map g =>
      rw [hc] at hb
      exact hb

end Smack.MemSplit
