import Verif.Vec.Lemmas
import Mathlib.Logic.Denumerable
import Mathlib.Logic.Equiv.List
import Mathlib.Data.Fintype.BigOperators
import Mathlib.Data.Fintype.EquivFin

/-
C57, continued: casts between vectors and the satisfiability of the axioms.
-/

namespace Smack.Vec

variable {V : Type}

/-- The value of an applied cast, for types where the cast has no body. -/
def NoBody (a b : Ty) : Prop :=
  match a, b with
  | .sc _, .vec n _ => n ≠ 1
  | .vec n _, .sc _ => n ≠ 1
  | _, _ => True

theorem castApp_noBody (m : Mode) (opc : String) (a b : Ty) (h : NoBody a b) (t : Term) :
    castApp m opc a b t = .app (.un (.cast opc a b)) [t] := by
  unfold castApp
  have : (cast m opc a b).body = none := by
    unfold cast
    cases a <;> cases b <;> simp only [NoBody] at h <;> try rfl
    · split
      · rename_i heq _; injection heq; simp_all
      · rename_i heq; cases heq
      · rfl
    · split
      · rename_i heq _; cases heq
      · rename_i heq _; injection heq; simp_all
      · rfl
    · split
      · rename_i heq _; cases heq
      · rename_i heq; cases heq
      · rfl
  rw [this]

theorem noBody_symm {a b : Ty} (h : NoBody a b) : NoBody b a := by
  cases a <;> cases b <;> exact h

theorem holds_inverse (I : Interp V) (m : Mode) (opc : String) (a b : Ty) (h : NoBody a b) :
    Holds I (inverseAxiom m opc a b) ↔
      ∀ v, HasTy I a v → I.un (.cast opc b a) [I.un (.cast opc a b) [v]] = v := by
  have e : ∀ v, eval I [("v", v)] (inverseAxiom m opc a b).lhs =
      some (I.un (.cast opc b a) [I.un (.cast opc a b) [v]]) := by
    intro v
    simp only [inverseAxiom, castApp_noBody m opc a b h, castApp_noBody m opc b a (noBody_symm h)]
    rfl
  constructor
  · intro H v hv
    obtain ⟨w, h1, h2⟩ := H [v] rfl (by
      intro p hp
      simp only [inverseAxiom, List.zip_cons_cons, List.zip_nil_left, List.mem_cons, List.not_mem_nil, or_false] at hp
      subst hp
      exact hv)
    have h1 : some (I.un (.cast opc b a) [I.un (.cast opc a b) [v]]) = some w := by rw [← e v]; exact h1
    have h2 : some v = some w := h2
    exact Option.some.inj (h1.trans h2.symm)
  · intro H vals hl hty
    have hl : vals.length = 1 := hl
    obtain ⟨v, rfl⟩ := List.length_eq_one_iff.mp hl
    refine ⟨v, ?_, rfl⟩
    have hv : HasTy I a v := hty (("v", a), v) (by simp [inverseAxiom])
    rw [← H v hv]
    have := e v
    rw [H v hv] at this
    rw [H v hv]
    exact this

/-! With bit-vectors: counting. -/

/-- Scalars of the integer types are the numbers below 2^w. -/
def BvDom (I : Interp Int) : Prop := ∀ w x, I.dom (.int w) x ↔ 0 ≤ x ∧ x < 2 ^ w

/-- A vector from its lanes. -/
def ofLanes (n w : Nat) (f : Fin n → Fin (2 ^ w)) : Val Int := .vec n (.int w) (List.ofFn fun i => ((f i : Nat) : Int))

theorem ofLanes_ty (I : Interp Int) (hI : BvDom I) (n w : Nat) (f : Fin n → Fin (2 ^ w)) :
    HasTy I (.vec n (.int w)) (ofLanes n w f) := by
  refine ⟨rfl, rfl, by simp, ?_⟩
  intro x hx
  obtain ⟨i, rfl⟩ := List.mem_ofFn.mp hx
  have := (f i).isLt
  exact (hI w _).mpr ⟨by omega, by exact_mod_cast this⟩

theorem ofLanes_inj (n w : Nat) (f g : Fin n → Fin (2 ^ w)) (h : ofLanes n w f = ofLanes n w g) : f = g := by
  injection h with _ _ h
  have h := List.ofFn_injective h
  funext i
  have := congrFun h i
  apply Fin.ext
  have this : ((f i : Nat) : Int) = ((g i : Nat) : Int) := this
  exact_mod_cast this

theorem ofLanes_surj (I : Interp Int) (hI : BvDom I) (n w : Nat) (v : Val Int) (h : HasTy I (.vec n (.int w)) v) :
    ∃ f, ofLanes n w f = v := by
  cases v with
  | sc x => exact h.elim
  | vec n' s' xs =>
    obtain ⟨rfl, rfl, hl, hx⟩ := h
    have hb : ∀ i : Fin n', 0 ≤ xs[i.1]'(by omega) ∧ xs[i.1]'(by omega) < 2 ^ w := fun i => (hI w _).mp (hx _ (List.getElem_mem _))
    refine ⟨fun i => ⟨(xs[i.1]'(by omega)).toNat, ?_⟩, ?_⟩
    · have h1 := (hb i).1
      have h2 := (hb i).2
      have : ((xs[i.1]'(by omega)).toNat : Int) < ((2 ^ w : Nat) : Int) := by
        rw [Int.toNat_of_nonneg h1]; push_cast; exact h2
      exact_mod_cast this
    · rw [ofLanes]
      congr 1
      apply List.ext_getElem
      · simp [hl]
      · intro i h1 h2
        simp only [List.getElem_ofFn]
        exact Int.toNat_of_nonneg (hb ⟨i, by omega⟩).1

/-- An injection from the vectors of one type into those of another. -/
theorem bits_le (I : Interp Int) (hI : BvDom I) (n w n' w' : Nat) (f : Val Int → Val Int)
    (hf : ∀ v, HasTy I (.vec n (.int w)) v → HasTy I (.vec n' (.int w')) (f v))
    (hinj : ∀ u v, HasTy I (.vec n (.int w)) u → HasTy I (.vec n (.int w)) v → f u = f v → u = v) : n * w ≤ n' * w' := by
  classical
  have hex : ∀ g : Fin n → Fin (2 ^ w), ∃ g' : Fin n' → Fin (2 ^ w'), ofLanes n' w' g' = f (ofLanes n w g) := fun g =>
    ofLanes_surj I hI n' w' _ (hf _ (ofLanes_ty I hI n w g))
  choose F hF using hex
  have hFinj : Function.Injective F := by
    intro a b hab
    apply ofLanes_inj
    apply hinj _ _ (ofLanes_ty I hI n w a) (ofLanes_ty I hI n w b)
    rw [← hF a, ← hF b, hab]
  have hc := Fintype.card_le_of_injective F hFinj
  simp only [Fintype.card_fun, Fintype.card_fin] at hc
  rw [← pow_mul, ← pow_mul] at hc
  have := (Nat.pow_le_pow_iff_right (by decide : 1 < 2)).mp hc
  rw [Nat.mul_comm n w, Nat.mul_comm n' w']
  exact this

/-- C57 fails for casts with bit-vectors: for every cast between vectors of different total width (all of trunc, zext and sext)
the two generated axioms contradict each other. -/
theorem c57_cast_axioms_fails (m : Mode) (opc : String) (n w n' w' : Nat) (hne : n * w ≠ n' * w') (I : Interp Int)
    (hI : BvDom I) (ht : CastTyped I) :
    ¬∀ a ∈ castAxioms m opc (.vec n (.int w)) (.vec n' (.int w')), Holds I a := by
  intro h
  have h1 := (holds_inverse I m opc (.vec n (.int w)) (.vec n' (.int w')) trivial).mp (h _ (by simp [castAxioms]))
  have h2 := (holds_inverse I m opc (.vec n' (.int w')) (.vec n (.int w)) trivial).mp (h _ (by simp [castAxioms]))
  have l1 := bits_le I hI n w n' w' _ (fun v hv => ht opc _ _ v hv) (fun u v hu hv he => by
    rw [← h1 u hu, ← h1 v hv]
    exact congrArg (fun x => I.un (.cast opc (.vec n' (.int w')) (.vec n (.int w))) [x]) he)
  have l2 := bits_le I hI n' w' n w _ (fun v hv => ht opc _ _ v hv) (fun u v hu hv he => by
    rw [← h2 u hu, ← h2 v hv]
    exact congrArg (fun x => I.un (.cast opc (.vec n (.int w)) (.vec n' (.int w'))) [x]) he)
  exact hne (Nat.le_antisymm l1 l2)

/-- For example `zext <4 x i8> to <4 x i16>`. -/
example : 4 * 8 ≠ 4 * 16 := by decide

/-! Satisfiability. -/

/-- Some value of a type, if zero is a scalar of every type. -/
def someVal : Ty → Val Int
  | .sc _ => .sc 0
  | .vec n s => .vec n s (List.replicate n 0)

open Classical in
/-- A cast that goes through an encoding of values by numbers. -/
noncomputable def conv (ty : Ty → Val Int → Prop) (enc : Ty → Val Int → Nat) (a b : Ty) (v : Val Int) : Val Int :=
  if h : ∃ w, ty b w ∧ enc b w = enc a v then Classical.choose h else someVal b

theorem conv_ty (ty : Ty → Val Int → Prop) (enc : Ty → Val Int → Nat) (hs : ∀ b, ty b (someVal b)) (a b : Ty) (v : Val Int) :
    ty b (conv ty enc a b v) := by
  unfold conv
  split
  · rename_i h; exact (Classical.choose_spec h).1
  · exact hs b

theorem conv_inverse (ty : Ty → Val Int → Prop) (enc : Ty → Val Int → Nat) (a b : Ty)
    (hinj : ∀ u v, ty a u → ty a v → enc a u = enc a v → u = v) (hr : ∀ v, ty a v → ∃ w, ty b w ∧ enc b w = enc a v)
    (v : Val Int) (hv : ty a v) : conv ty enc b a (conv ty enc a b v) = v := by
  have h1 : ty b (conv ty enc a b v) ∧ enc b (conv ty enc a b v) = enc a v := by
    have := hr v hv
    rw [conv, dif_pos this]
    exact Classical.choose_spec this
  have h2 : ∃ u, ty a u ∧ enc a u = enc b (conv ty enc a b v) := ⟨v, hv, h1.2.symm⟩
  rw [conv, dif_pos h2]
  have h3 := Classical.choose_spec h2
  exact hinj _ _ h3.1 hv (h3.2.trans h1.2)

/-- The interpretation built from a domain, scalar operations and an encoding. -/
noncomputable def model (dom : Sc → Int → Prop) (op : Op → Sc → Int → Int → Int) (ty : Ty → Val Int → Prop)
    (enc : Ty → Val Int → Nat) : Interp Int where
  dom := dom
  op := op
  lit i := i
  un
    | .insert n s _, [.vec _ _ xs, .sc x, .sc i] => .vec n s (xs.set i.toNat x)
    | .extract _ _ _, [.vec _ _ xs, .sc i] => .sc (xs.getD i.toNat 0)
    | .cast _ a b, [v] => conv ty enc a b v
    | _, _ => .sc 0

theorem hasTy_dom {I J : Interp V} (h : I.dom = J.dom) (a : Ty) (v : Val V) : HasTy I a v ↔ HasTy J a v := by
  cases a <;> cases v <;> simp only [HasTy, h]

/-- The axioms of insert and extract hold in every interpretation of this form. -/
theorem model_lanes (dom : Sc → Int → Prop) (op : Op → Sc → Int → Int → Int) (ty : Ty → Val Int → Prop)
    (enc : Ty → Val Int → Nat) (n : Nat) (s it : Sc) :
    (∀ a ∈ insertAxioms n s it, Holds (model dom op ty enc) a) ∧ ∀ a ∈ extractAxioms n s it, Holds (model dom op ty enc) a := by
  constructor
  · intro a ha
    obtain ⟨i, hi, rfl⟩ := List.mem_map.mp ha
    have hi : i < n := List.mem_range.mp hi
    intro vals hl hty
    match vals, hl with
    | [v, x], _ =>
      have hv : HasTy (model dom op ty enc) (.vec n s) v := hty (("v", .vec n s), v) (by simp)
      have hx : HasTy (model dom op ty enc) (.sc s) x := hty (("x", .sc s), x) (by simp)
      cases v with
      | sc _ => exact hv.elim
      | vec n' s' xs =>
        cases x with
        | vec _ _ _ => exact hx.elim
        | sc x =>
          obtain ⟨rfl, rfl, hlen, _⟩ := hv
          refine ⟨.vec n' s' (xs.set i x), rfl, ?_⟩
          refine mk_list _ _ n' s' _ _ (by simp [hlen]) (by simp [hlen]) ?_
          intro k g1 g2
          have hk : k < n' := by simpa using g1
          simp only [List.getElem_map, List.getElem_range, List.getElem_set]
          split
          · rfl
          · exact eval_sel _ _ "v" n' s' xs k (by omega) rfl
  · intro a ha
    obtain ⟨i, hi, rfl⟩ := List.mem_map.mp ha
    have hi : i < n := List.mem_range.mp hi
    intro vals hl hty
    match vals, hl with
    | [v], _ =>
      have hv : HasTy (model dom op ty enc) (.vec n s) v := hty (("v", .vec n s), v) (by simp)
      cases v with
      | sc _ => exact hv.elim
      | vec n' s' xs =>
        obtain ⟨rfl, rfl, hlen, _⟩ := hv
        refine ⟨.sc (xs[i]'(by omega)), ?_, eval_sel _ _ "v" n' s' xs i (by omega) rfl⟩
        show some (Val.sc (xs.getD i 0)) = _
        rw [List.getD_eq_getElem?_getD, List.getElem?_eq_getElem (by omega)]
        rfl

/-- The cast axioms hold if both types have the same codes. -/
theorem model_casts (dom : Sc → Int → Prop) (op : Op → Sc → Int → Int → Int) (ty : Ty → Val Int → Prop)
    (enc : Ty → Val Int → Nat) (hty : ∀ a v, HasTy (model dom op ty enc) a v ↔ ty a v) (m : Mode) (opc : String) (a b : Ty)
    (hinj : ∀ u v, ty a u → ty a v → enc a u = enc a v → u = v) (hr : ∀ v, ty a v → ∃ w, ty b w ∧ enc b w = enc a v) :
    Holds (model dom op ty enc) (inverseAxiom m opc a b) := by
  by_cases hnb : NoBody a b
  · rw [holds_inverse _ m opc a b hnb]
    intro v hv
    exact conv_inverse ty enc a b hinj hr v ((hty a v).mp hv)
  · intro vals hl hall
    have hl : vals.length = 1 := hl
    obtain ⟨v, rfl⟩ := List.length_eq_one_iff.mp hl
    have hv : HasTy (model dom op ty enc) a v := hall (("v", a), v) (by simp [inverseAxiom])
    refine ⟨v, ?_, rfl⟩
    cases a with
    | sc s =>
      cases b with
      | sc s' => exact absurd trivial hnb
      | vec n s' =>
        have hn : n = 1 := by
          by_contra h; exact hnb h
        subst hn
        cases v with
        | vec _ _ _ => exact hv.elim
        | sc x => simp [inverseAxiom, castApp, cast, eval, evals, apply, scalars]
    | vec n s =>
      cases b with
      | vec _ _ => exact absurd trivial hnb
      | sc s' =>
        have hn : n = 1 := by
          by_contra h; exact hnb h
        subst hn
        cases v with
        | sc _ => exact hv.elim
        | vec n' s'' xs =>
          obtain ⟨rfl, rfl, hlen, _⟩ := hv
          obtain ⟨x, rfl⟩ := List.length_eq_one_iff.mp hlen
          simp [inverseAxiom, castApp, cast, eval, evals, apply, scalars]

/-- The number of lanes. -/
def Lanes : Ty → Nat
  | .sc _ => 1
  | .vec n _ => n

/-- A value as the list of its lanes. -/
def lanes : Val Int → List Int
  | .sc x => [x]
  | .vec _ _ xs => xs

/-- The value with given lanes. -/
def ofList : Ty → List Int → Val Int
  | .sc _, l => .sc (l.headD 0)
  | .vec n s, l => .vec n s l

theorem lanes_ofList (a : Ty) (l : List Int) (h : l.length = Lanes a) : lanes (ofList a l) = l := by
  cases a with
  | sc s =>
    obtain ⟨x, rfl⟩ := List.length_eq_one_iff.mp h
    rfl
  | vec n s => rfl

theorem ofList_lanes (I : Interp Int) (a : Ty) (v : Val Int) (h : HasTy I a v) :
    ofList a (lanes v) = v ∧ (lanes v).length = Lanes a := by
  cases a <;> cases v
  · exact ⟨rfl, rfl⟩
  · exact h.elim
  · exact h.elim
  · obtain ⟨rfl, rfl, hl, _⟩ := h
    exact ⟨rfl, hl⟩

/-- A numbering of the lists of a positive length. -/
theorem lists_nat (n : Nat) (h : 0 < n) : ∃ e : List Int → Nat,
    (∀ l l', l.length = n → l'.length = n → e l = e l' → l = l') ∧ ∀ k, ∃ l, l.length = n ∧ e l = k := by
  classical
  have : Infinite { l : List Int // l.length = n } := by
    refine Infinite.of_injective (fun k : Nat => (⟨(k : Int) :: List.replicate (n - 1) 0, by simp; omega⟩ : { l : List Int // l.length = n })) ?_
    intro a b hab
    have := congrArg Subtype.val hab
    simp only [List.cons.injEq] at this
    exact Int.ofNat.inj this.1
  obtain ⟨e⟩ := nonempty_equiv_of_countable (α := { l : List Int // l.length = n }) (β := Nat)
  refine ⟨fun l => if hl : l.length = n then e ⟨l, hl⟩ else 0, ?_, ?_⟩
  · intro l l' hl hl' he
    simp only [dif_pos hl, dif_pos hl'] at he
    exact congrArg Subtype.val (e.injective he)
  · intro k
    refine ⟨(e.symm k).1, (e.symm k).2, ?_⟩
    simp [dif_pos (e.symm k).2]

/-- C57, satisfiability with integers: for any scalar operations there is one model of all axioms of inserts, extracts and
casts of vectors (with at least one lane). -/
theorem c57_axioms_int (m : Mode) (op : Op → Sc → Int → Int → Int) :
    ∃ I : Interp Int, (∀ s x, I.dom s x) ∧ I.op = op ∧ (∀ i, I.lit i = i) ∧ CastTyped I ∧
      (∀ n s it, (∀ a ∈ insertAxioms n s it, Holds I a) ∧ ∀ a ∈ extractAxioms n s it, Holds I a) ∧
      ∀ opc a b, 0 < Lanes a → 0 < Lanes b → ∀ x ∈ castAxioms m opc a b, Holds I x := by
  classical
  let base : Interp Int := ⟨fun _ _ => True, op, fun i => i, fun _ _ => .sc 0⟩
  choose num hnum using fun n : Nat => show ∃ e : List Int → Nat, 0 < n → 
      (∀ l l', l.length = n → l'.length = n → e l = e l' → l = l') ∧ ∀ k, ∃ l, l.length = n ∧ e l = k by
    by_cases h : 0 < n
    · obtain ⟨e, he⟩ := lists_nat n h
      exact ⟨e, fun _ => he⟩
    · exact ⟨fun _ => 0, fun hc => absurd hc h⟩
  let ty : Ty → Val Int → Prop := fun a v => HasTy base a v
  let enc : Ty → Val Int → Nat := fun a v => num (Lanes a) (lanes v)
  have hty : ∀ a v, HasTy (model (fun _ _ => True) op ty enc) a v ↔ ty a v := fun a v => hasTy_dom rfl a v
  have hsome : ∀ b, ty b (someVal b) := by
    intro b
    cases b with
    | sc s => exact trivial
    | vec n s => exact ⟨rfl, rfl, by simp, fun _ _ => trivial⟩
  have hof : ∀ b l, l.length = Lanes b → ty b (ofList b l) := by
    intro b l hl
    cases b with
    | sc s => exact trivial
    | vec n s => exact ⟨rfl, rfl, hl, fun _ _ => trivial⟩
  have key : ∀ opc a b, 0 < Lanes a → 0 < Lanes b → Holds (model (fun _ _ => True) op ty enc) (inverseAxiom m opc a b) := by
    intro opc a b ha hb
    refine model_casts _ op ty enc hty m opc a b ?_ ?_
    · intro u v hu hv he
      obtain ⟨u1, u2⟩ := ofList_lanes base a u hu
      obtain ⟨v1, v2⟩ := ofList_lanes base a v hv
      rw [← u1, ← v1, (hnum (Lanes a) ha).1 _ _ u2 v2 he]
    · intro v _
      obtain ⟨l, hl, hk⟩ := (hnum (Lanes b) hb).2 (enc a v)
      refine ⟨ofList b l, hof b l hl, ?_⟩
      show num (Lanes b) (lanes (ofList b l)) = _
      rw [lanes_ofList b l hl, hk]
  refine ⟨model (fun _ _ => True) op ty enc, fun _ _ => trivial, rfl, fun _ => rfl, ?_, fun n s it => model_lanes _ op ty enc n s it, ?_⟩
  · intro opc a b v _
    exact (hty b _).mpr (conv_ty ty enc hsome a b v)
  · intro opc a b ha hb x hx
    simp only [castAxioms, List.mem_cons, List.not_mem_nil, or_false] at hx
    rcases hx with rfl | rfl
    · exact key opc a b ha hb
    · exact key opc b a hb ha

/-- C57, satisfiability with bit-vectors: the axioms of casts between vectors of integers with the same total width (bitcast)
have one model for all such casts. -/
theorem c57_bitcast_axioms_bv (m : Mode) (op : Op → Sc → Int → Int → Int) :
    ∃ I : Interp Int, BvDom I ∧ I.op = op ∧ CastTyped I ∧
      ∀ opc n w n' w', n * w = n' * w' → ∀ x ∈ castAxioms m opc (.vec n (.int w)) (.vec n' (.int w')), Holds I x := by
  classical
  let dom : Sc → Int → Prop := fun s x => match s with
    | .int w => 0 ≤ x ∧ x < 2 ^ w
    | _ => True
  let base : Interp Int := ⟨dom, op, fun i => i, fun _ _ => .sc 0⟩
  have hI : BvDom base := fun w x => Iff.rfl
  have hcard : ∀ n w, Fintype.card (Fin n → Fin (2 ^ w)) = 2 ^ (n * w) := by
    intro n w
    simp only [Fintype.card_fun, Fintype.card_fin]
    rw [← pow_mul, Nat.mul_comm]
  let e : (n w : Nat) → (Fin n → Fin (2 ^ w)) ≃ Fin (2 ^ (n * w)) := fun n w => Fintype.equivFinOfCardEq (hcard n w)
  let ty : Ty → Val Int → Prop := fun a v => HasTy base a v
  let code : (n w : Nat) → Val Int → Nat := fun n w v =>
    if h : ∃ f, ofLanes n w f = v then (e n w (Classical.choose h)).1 else 0
  have hcode : ∀ n w f, code n w (ofLanes n w f) = (e n w f).1 := by
    intro n w f
    have h : ∃ g, ofLanes n w g = ofLanes n w f := ⟨f, rfl⟩
    show (if h : ∃ g, ofLanes n w g = ofLanes n w f then (e n w (Classical.choose h)).1 else 0) = _
    rw [dif_pos h, ofLanes_inj n w _ _ (Classical.choose_spec h)]
  let enc : Ty → Val Int → Nat := fun a v => match a with
    | .vec n (.int w) => code n w v
    | _ => 0
  have hty : ∀ a v, HasTy (model dom op ty enc) a v ↔ ty a v := fun a v => hasTy_dom rfl a v
  have hzero : ∀ s, dom s 0 := by
    intro s
    cases s with
    | int w => exact ⟨le_refl _, Int.pow_pos (by decide)⟩
    | _ => exact trivial
  have hsome : ∀ b, ty b (someVal b) := by
    intro b
    cases b with
    | sc s => exact hzero s
    | vec n s => exact ⟨rfl, rfl, by simp, fun x hx => by rw [List.eq_of_mem_replicate hx]; exact hzero s⟩
  have key : ∀ opc n w n' w', n * w = n' * w' →
      Holds (model dom op ty enc) (inverseAxiom m opc (.vec n (.int w)) (.vec n' (.int w'))) := by
    intro opc n w n' w' hb
    refine model_casts _ op ty enc hty m opc _ _ ?_ ?_
    · intro u v hu hv he
      obtain ⟨f, rfl⟩ := ofLanes_surj base hI n w u hu
      obtain ⟨g, rfl⟩ := ofLanes_surj base hI n w v hv
      have he : code n w (ofLanes n w f) = code n w (ofLanes n w g) := he
      rw [hcode, hcode] at he
      rw [(e n w).injective (Fin.ext he)]
    · intro v hv
      obtain ⟨f, rfl⟩ := ofLanes_surj base hI n w v hv
      let k : Fin (2 ^ (n' * w')) := ⟨(e n w f).1, by rw [← hb]; exact (e n w f).2⟩
      refine ⟨ofLanes n' w' ((e n' w').symm k), ofLanes_ty base hI n' w' _, ?_⟩
      show code n' w' (ofLanes n' w' _) = code n w (ofLanes n w f)
      rw [hcode, hcode, Equiv.apply_symm_apply]
  refine ⟨model dom op ty enc, hI, rfl, ?_, ?_⟩
  · intro opc a b v _
    exact (hty b _).mpr (conv_ty ty enc hsome a b v)
  · intro opc n w n' w' hb x hx
    simp only [castAxioms, List.mem_cons, List.not_mem_nil, or_false] at hx
    rcases hx with rfl | rfl
    · exact key opc n w n' w' hb
    · exact key opc n' w' n w hb.symm

/-- Casts of vectors are not lane by lane: for every cast between vectors of the same number `n ≥ 2` of lanes there is a model
of the axioms in which no function on scalars describes the cast. -/
theorem c57_cast_fails (m : Mode) (opc : String) (n : Nat) (hn : 2 ≤ n) (s s' : Sc) :
    ∃ I : Interp Int, (∀ t x, I.dom t x) ∧ CastTyped I ∧ (∀ a ∈ castAxioms m opc (.vec n s) (.vec n s'), Holds I a) ∧
      ¬∃ h : Int → Int, ∀ xs : List Int, xs.length = n → I.un (.cast opc (.vec n s) (.vec n s')) [.vec n s xs] = .vec n s' (xs.map h) := by
  let I : Interp Int := ⟨fun _ _ => True, fun _ _ x _ => x, fun i => i, fun u vs => match u, vs with
    | .cast _ (.vec k _) (.vec k' t'), [.vec _ _ xs] => if k = k' then .vec k' t' xs.reverse else someVal (.vec k' t')
    | .cast _ _ b, _ => someVal b
    | _, _ => .sc 0⟩
  have hsome : ∀ b, HasTy I b (someVal b) := by
    intro b
    cases b with
    | sc s => exact trivial
    | vec n s => exact ⟨rfl, rfl, by simp, fun _ _ => trivial⟩
  have hun : ∀ t t' xs, I.un (.cast opc (.vec n t) (.vec n t')) [.vec n t xs] = .vec n t' xs.reverse := by
    intro t t' xs
    show (if n = n then _ else _) = _
    rw [if_pos rfl]
  have hinv : ∀ t t', Holds I (inverseAxiom m opc (.vec n t) (.vec n t')) := by
    intro t t'
    rw [holds_inverse I m opc (.vec n t) (.vec n t') trivial]
    intro v hv
    cases v with
    | sc _ => exact hv.elim
    | vec k r xs =>
      obtain ⟨rfl, rfl, _, _⟩ := hv
      rw [hun, hun, List.reverse_reverse]
  refine ⟨I, fun _ _ => trivial, ?_, ?_, ?_⟩
  · intro oc a b v hv
    cases a with
    | sc t => cases b <;> exact hsome _
    | vec k t =>
      cases b with
      | sc t' => exact hsome _
      | vec k' t' =>
        cases v with
        | sc _ => exact hv.elim
        | vec k2 t2 xs =>
          obtain ⟨rfl, rfl, hl, _⟩ := hv
          show HasTy I _ (if k2 = k' then _ else _)
          split
          · rename_i hk
            exact ⟨rfl, rfl, by rw [List.length_reverse, hl, hk], fun _ _ => trivial⟩
          · exact hsome _
  · intro a ha
    simp only [castAxioms, List.mem_cons, List.not_mem_nil, or_false] at ha
    rcases ha with rfl | rfl
    · exact hinv s s'
    · exact hinv s' s
  · rintro ⟨h, hh⟩
    obtain ⟨k, rfl⟩ : ∃ k, n = k + 2 := ⟨n - 2, by omega⟩
    have h1 := hh (List.replicate (k + 2) 1) (by simp)
    have h2 := hh (1 :: List.replicate (k + 1) 0) (by simp)
    rw [hun] at h1 h2
    injection h1 with _ _ h1
    injection h2 with _ _ h2
    have e1 := congrArg List.head? h1
    have e2 := congrArg List.head? h2
    rw [List.reverse_replicate, List.replicate_succ, List.map_cons, List.head?_cons, List.head?_cons] at e1
    rw [List.reverse_cons, List.reverse_replicate, List.replicate_succ, List.cons_append, List.map_cons, List.head?_cons,
      List.head?_cons, ← e1] at e2
    exact absurd e2 (by decide)

/-- A vector of one lane and its element: the cast is the constructor or the selector, so the lane is kept. -/
theorem c57_cast_single (I : Interp V) (m : Mode) (opc : String) (s s' : Sc) (x : V) :
    call I (cast m opc (.sc s) (.vec 1 s')) [.sc x] = some (.vec 1 s' [x]) ∧
    call I (cast m opc (.vec 1 s) (.sc s')) [.vec 1 s [x]] = some (.sc x) := by
  constructor
  · simp [call, cast, eval, evals, apply, scalars]
  · simp [call, cast, eval, evals, apply]

/-- Boogie accepts these functions only if the scalar has the type of the lane; `bitcast float to <1 x i32>` is rejected. -/
theorem c57_cast_single_type_fails (m : Mode) (opc : String) (s s' : Sc) :
    Accepted m (cast m opc (.sc s) (.vec 1 s')) ↔ bty m s' = bty m s := by
  constructor
  · intro h
    have h := h (.app (.mk 1 s') [.var "v"]) rfl
    simp [typeOf, typesOf, sig, cast, Ty.bty] at h
    exact h
  · intro h t ht
    have ht : t = .app (.mk 1 s') [.var "v"] := (Option.some.inj ht).symm
    subst ht
    simp [typeOf, typesOf, sig, cast, Ty.bty, h]

end Smack.Vec
