import Verif.Vec.Lemmas

/-
C57: vector operations are pointwise; shuffles, inserts and extracts.
-/

namespace Smack.Vec

variable {V : Type}

/-- C57, arithmetic: for every operation, lane count and element type, the generated function applies the scalar operation
lane by lane. -/
theorem c57_binary (I : Interp V) (o : Op) (n : Nat) (s : Sc) (xs ys : List V) (hx : xs.length = n) (hy : ys.length = n) :
    ∃ zs, call I (binary o n s) [.vec n s xs, .vec n s ys] = some (.vec n s zs) ∧ zs.length = n ∧
      ∀ (k : Nat) (h1 : k < xs.length) (h2 : k < ys.length) (h3 : k < zs.length), zs[k] = I.op o s xs[k] ys[k] := by
  refine ⟨List.zipWith (I.op o s) xs ys, ?_, by simp [hx, hy], fun k h1 h2 h3 => by simp⟩
  show eval I _ (.app (.mk n s) _) = _
  refine mk_list I _ n s _ _ (by simp [hx, hy]) (by simp [hx, hy]) ?_
  intro k h1 h2
  have hk : k < n := by simpa using h1
  simp only [List.getElem_map, List.getElem_range, List.getElem_zipWith]
  exact eval_op I _ o s _ _ _ _ (eval_sel I _ "v1" n s xs k (by omega) rfl) (eval_sel I _ "v2" n s ys k (by omega) rfl)

example : call (V := Int) ⟨fun _ _ => True, fun _ _ => (· + ·), fun i => i, fun _ _ => .sc 0⟩ (binary (.plain "$add") 2 (.int 32))
    [.vec 2 (.int 32) [1, 2], .vec 2 (.int 32) [10, 20]] = some (.vec 2 (.int 32) [11, 22]) := by decide +kernel

/-- Boogie accepts the function for integer operations (and frem), and for floating-point arithmetic without `--float`. -/
theorem c57_binary_accepted_partial (m : Mode) (o : Op) (n : Nat) (s : Sc)
    (ho : (∃ f, o = .plain f) ∨ (∃ f, o = .fpArith f) ∧ s = .ufloat) : Accepted m (binary o n s) := by
  intro t ht
  have ht : t = .app (.mk n s) _ := (Option.some.inj ht).symm
  subst ht
  refine typeOf_mk m _ n s _ (by simp) ?_
  intro t ht
  obtain ⟨i, hi, rfl⟩ := List.mem_map.mp ht
  have hi : i < n := List.mem_range.mp hi
  have h1 := typeOf_sel m (binary o n s).params "v1" n s i hi rfl
  have h2 := typeOf_sel m (binary o n s).params "v2" n s i hi rfl
  rcases ho with ⟨f, rfl⟩ | ⟨⟨f, rfl⟩, rfl⟩
  · simp [typeOf.eq_3, typesOf, h1, h2, sig]
  · simp [typeOf.eq_3, typesOf, h1, h2, sig]

/-- C57 fails for floating-point arithmetic with `--float`: the rounding mode is missing, so Boogie rejects the function for
every lane count. -/
theorem c57_binary_float_fails (m : Mode) (f : String) (n : Nat) (hn : 0 < n) (s : Sc)
    (hs : s = .half ∨ s = .float ∨ s = .double ∨ s = .longdouble) : ¬Accepted m (binary (.fpArith f) n s) := by
  intro h
  have h := h _ rfl
  have h1 := typeOf_sel m (binary (.fpArith f) n s).params "v1" n s 0 hn rfl
  have h2 := typeOf_sel m (binary (.fpArith f) n s).params "v2" n s 0 hn rfl
  rw [typeOf_app_none m _ _ _ (.app (.op (.fpArith f) s) [.app (.sel n s 0) [.var "v1"], .app (.sel n s 0) [.var "v2"]])
    (List.mem_map.mpr ⟨0, List.mem_range.mpr hn, rfl⟩) ?_] at h
  · exact absurd h nofun
  · rcases hs with rfl | rfl | rfl | rfl <;> simp [typeOf.eq_3, typesOf, h1, h2, sig]

/-- C57, comparisons of vectors of i1: accepted and pointwise. Missing: all other element types (`c57_cmp_fails`). -/
theorem c57_cmp_partial (m : Mode) (I : Interp V) (p : String) (n : Nat) (xs ys : List V) (hx : xs.length = n)
    (hy : ys.length = n) :
    Accepted m (cmp (.icmp p) n (.int 1)) ∧
    ∃ zs, call I (cmp (.icmp p) n (.int 1)) [.vec n (.int 1) xs, .vec n (.int 1) ys] = some (.vec n (.int 1) zs) ∧
      zs.length = n ∧ ∀ (k : Nat) (h1 : k < xs.length) (h2 : k < ys.length) (h3 : k < zs.length),
        zs[k] = I.op (.icmp p) (.int 1) xs[k] ys[k] := by
  constructor
  · intro t ht
    have ht : t = .app (.mk n (.int 1)) _ := (Option.some.inj ht).symm
    subst ht
    refine typeOf_mk m _ n (.int 1) _ (by simp) ?_
    intro t ht
    obtain ⟨i, hi, rfl⟩ := List.mem_map.mp ht
    have hi : i < n := List.mem_range.mp hi
    have h1 := typeOf_sel m (cmp (.icmp p) n (.int 1)).params "v1" n (.int 1) i hi rfl
    have h2 := typeOf_sel m (cmp (.icmp p) n (.int 1)).params "v2" n (.int 1) i hi rfl
    simp [typeOf.eq_3, typesOf, h1, h2, sig]
  · refine ⟨List.zipWith (I.op (.icmp p) (.int 1)) xs ys, ?_, by simp [hx, hy], fun k h1 h2 h3 => by simp⟩
    show eval I _ (.app (.mk n (.int 1)) _) = _
    refine mk_list I _ n (.int 1) _ _ (by simp [hx, hy]) (by simp [hx, hy]) ?_
    intro k h1 h2
    have hk : k < n := by simpa using h1
    simp only [List.getElem_map, List.getElem_range, List.getElem_zipWith]
    exact eval_op I _ _ _ _ _ _ _ (eval_sel I _ "v1" n _ xs k (by omega) rfl) (eval_sel I _ "v2" n _ ys k (by omega) rfl)

/-- C57 fails for comparisons of any other vectors: the constructor is that of the operand type, so Boogie rejects the
function. -/
theorem c57_cmp_fails (m : Mode) (o : Op) (n : Nat) (s : Sc) (hs : s ≠ .int 1) : ¬Accepted m (cmp o n s) := by
  intro h
  have h := typeOf_mk_le m _ n s _ _ (h _ rfl)
  have h : BTy.vec n (.int 1) = BTy.vec n s := h
  injection h with h1 h2
  exact hs h2.symm

/-- What LLVM prescribes for shufflevector: lane `k` of the result is lane `mask[k]` of the concatenation. -/
def ShuffleSpec (xs ys : List V) (mask : List Int) (zs : List V) : Prop :=
  zs.length = mask.length ∧ ∀ (k : Nat) (h1 : k < mask.length) (h2 : k < zs.length), (xs ++ ys)[mask[k].toNat]? = some zs[k]

theorem shuffle_eq (n : Nat) (s : Sc) (mask : List Int) (hm : ∀ m ∈ mask, 0 ≤ m) :
    shuffle n s mask = some (FuncDecl.mk [("v1", .vec n s), ("v2", .vec n s)] (.vec mask.length s)
      (some (.app (.mk mask.length s) (mask.map fun m =>
        if m.toNat < n then Term.app (.sel n s m.toNat) [.var "v1"] else .app (.sel n s (m.toNat - n)) [.var "v2"])))) := by
  have : ∀ l : List Int, (∀ m ∈ l, 0 ≤ m) → (l.mapM fun m : Int =>
      if m < 0 then none
      else
        let idx := m.toNat
        some (if idx < n then Term.app (.sel n s idx) [.var "v1"] else .app (.sel n s (idx - n)) [.var "v2"])) =
      some (l.map fun m =>
        if m.toNat < n then Term.app (.sel n s m.toNat) [.var "v1"] else .app (.sel n s (m.toNat - n)) [.var "v2"]) := by
    intro l
    induction l with
    | nil => intro _; rfl
    | cons a l ih =>
      intro hl
      have ha : ¬a < 0 := Int.not_lt.mpr (hl a (by simp))
      simp only [List.mapM_cons, if_neg ha, ih (fun m hm => hl m (by simp [hm])), List.map_cons]
      rfl
  simp only [shuffle, this mask hm]
  rfl

/-- C57, shuffles: for every mask without undefined entries the declaration is generated, accepted, and selects the lanes LLVM
prescribes. -/
theorem c57_shuffle_partial (m : Mode) (I : Interp V) (n : Nat) (s : Sc) (mask : List Int) (xs ys : List V)
    (hx : xs.length = n) (hy : ys.length = n) (hm : ∀ k ∈ mask, 0 ≤ k ∧ k < 2 * n) :
    ∃ d, shuffle n s mask = some d ∧ Accepted m d ∧ d.ret = .vec mask.length s ∧
      ∃ zs, call I d [.vec n s xs, .vec n s ys] = some (.vec mask.length s zs) ∧ ShuffleSpec xs ys mask zs := by
  refine ⟨_, shuffle_eq n s mask (fun k hk => (hm k hk).1), ?_, rfl, ?_⟩
  · intro t ht
    have ht := (Option.some.inj ht).symm
    subst ht
    refine typeOf_mk m _ _ s _ (by simp) ?_
    intro t ht
    obtain ⟨i, hi, rfl⟩ := List.mem_map.mp ht
    have := hm i hi
    split
    · exact typeOf_sel m _ "v1" n s _ (by assumption) rfl
    · exact typeOf_sel m _ "v2" n s _ (by omega) rfl
  · have hget : ∀ k ∈ mask, k.toNat < (xs ++ ys).length := fun k hk => by
      have := hm k hk
      rw [List.length_append]; omega
    refine ⟨mask.attach.map fun k => (xs ++ ys)[k.1.toNat]'(hget k.1 k.2), ?_, by simp, ?_⟩
    · show eval I _ (.app (.mk mask.length s) _) = _
      refine mk_list I _ _ s _ _ (by simp) (by simp) ?_
      intro k h1 h2
      have hk : k < mask.length := by simpa using h1
      have hb := hm mask[k] (List.getElem_mem hk)
      simp only [List.getElem_map, List.getElem_attach]
      split
      · rename_i hlt
        rw [eval_sel I _ "v1" n s xs _ (by omega) rfl, List.getElem_append_left (by omega)]
      · rename_i hlt
        rw [eval_sel I _ "v2" n s ys (mask[k].toNat - n) (by omega) rfl, List.getElem_append_right (by omega)]
        simp only [hx]
    · intro k h1 h2
      rw [List.getElem?_eq_getElem (hget _ (List.getElem_mem h1))]
      simp

example : ∃ d, shuffle 2 (.int 32) [3, 0, 2] = some d ∧
    call (V := Int) ⟨fun _ _ => True, fun _ _ => (· + ·), fun i => i, fun _ _ => .sc 0⟩ d
      [.vec 2 (.int 32) [1, 2], .vec 2 (.int 32) [10, 20]] = some (.vec 3 (.int 32) [20, 1, 10]) := ⟨_, rfl, by decide +kernel⟩

/-- C57 fails for masks with an undefined entry (-1): SMACK aborts. -/
theorem c57_shuffle_undef_fails (n : Nat) (s : Sc) (mask : List Int) (k : Int) (hk : k ∈ mask) (hneg : k < 0) :
    shuffle n s mask = none := by
  have : ∀ l : List Int, k ∈ l → (l.mapM fun m : Int =>
      if m < 0 then none
      else
        let idx := m.toNat
        some (if idx < n then Term.app (.sel n s idx) [.var "v1"] else .app (.sel n s (idx - n)) [.var "v2"])) = none := by
    intro l
    induction l with
    | nil => intro h; exact absurd h (by simp)
    | cons a l ih =>
      intro h
      rw [List.mapM_cons]
      by_cases ha : a < 0
      · rw [if_pos ha]; rfl
      · rw [if_neg ha]
        rcases List.mem_cons.mp h with rfl | h
        · exact absurd hneg ha
        · rw [ih h]; rfl
  simp only [shuffle, this mask hk]
  rfl

/-- C57, insertelement: in every model of the axioms, inserting at index `i < n` replaces lane `i` and keeps the others. -/
theorem c57_insert (I : Interp V) (n : Nat) (s it : Sc) (hax : ∀ a ∈ insertAxioms n s it, Holds I a) (xs : List V)
    (hx : xs.length = n) (hdom : ∀ x ∈ xs, I.dom s x) (x : V) (hxd : I.dom s x) (i : Nat) (hi : i < n) :
    I.un (.insert n s it) [.vec n s xs, .sc x, .sc (I.lit i)] = .vec n s (xs.set i x) := by
  obtain ⟨v, h1, h2⟩ := hax _ (List.mem_map.mpr ⟨i, List.mem_range.mpr hi, rfl⟩) [.vec n s xs, .sc x] rfl (by
    intro p hp
    simp only [List.zip_cons_cons, List.zip_nil_left, List.mem_cons, List.not_mem_nil, or_false] at hp
    rcases hp with rfl | rfl
    · exact ⟨rfl, rfl, hx, hdom⟩
    · exact hxd)
  have e1 : some (I.un (.insert n s it) [.vec n s xs, .sc x, .sc (I.lit i)]) = some v := h1
  have e2 : some (Val.vec n s (xs.set i x)) = some v := by
    rw [← h2]
    symm
    refine mk_list I _ n s _ _ (by simp [hx]) (by simp [hx]) ?_
    intro k g1 g2
    have hk : k < n := by simpa using g1
    simp only [List.getElem_map, List.getElem_range, List.getElem_set]
    split
    · rfl
    · exact eval_sel I _ "v" n s xs k (by omega) rfl
  exact Option.some.inj (e1.trans e2.symm)

/-- C57, extractelement: in every model of the axioms, extracting index `i < n` gives lane `i`. -/
theorem c57_extract (I : Interp V) (n : Nat) (s it : Sc) (hax : ∀ a ∈ extractAxioms n s it, Holds I a) (xs : List V)
    (hx : xs.length = n) (hdom : ∀ x ∈ xs, I.dom s x) (i : Nat) (hi : i < xs.length) :
    I.un (.extract n s it) [.vec n s xs, .sc (I.lit i)] = .sc xs[i] := by
  obtain ⟨v, h1, h2⟩ := hax _ (List.mem_map.mpr ⟨i, List.mem_range.mpr (hx ▸ hi), rfl⟩) [.vec n s xs] rfl (by
    intro p hp
    simp only [List.zip_cons_cons, List.zip_nil_left, List.mem_cons, List.not_mem_nil, or_false] at hp
    subst hp
    exact ⟨rfl, rfl, hx, hdom⟩)
  have e1 : some (I.un (.extract n s it) [.vec n s xs, .sc (I.lit i)]) = some v := h1
  have e2 : some (Val.sc xs[i]) = some v := by
    rw [← h2]
    exact (eval_sel I _ "v" n s xs i hi rfl).symm
  exact Option.some.inj (e1.trans e2.symm)

theorem lookup_x {α : Type} (a b : α) : List.lookup "x" [("v", a), ("x", b)] = some b := rfl

/-- With integers Boogie accepts the axioms of insert and extract. -/
theorem c57_index_int (m : Mode) (hm : m.bitPrecise = false) (n : Nat) (s : Sc) (w : Nat) :
    (∀ a ∈ insertAxioms n s (.int w), AcceptedAx m a) ∧ ∀ a ∈ extractAxioms n s (.int w), AcceptedAx m a := by
  constructor
  · intro a ha
    obtain ⟨i, hi, rfl⟩ := List.mem_map.mp ha
    refine ⟨.vec n s, ?_, typeOf_mk m _ n s _ (by simp) ?_⟩
    · have hb : bty m (.int w) = .int := by simp [bty, hm]
      simp [typeOf, typesOf, sig, hb, Ty.bty, lookup_x]
    · intro t ht
      obtain ⟨j, hj, rfl⟩ := List.mem_map.mp ht
      split
      · simp [typeOf, Ty.bty, lookup_x]
      · exact typeOf_sel m _ "v" n s j (List.mem_range.mp hj) rfl
  · intro a ha
    obtain ⟨i, hi, rfl⟩ := List.mem_map.mp ha
    refine ⟨bty m s, ?_, typeOf_sel m _ "v" n s i (List.mem_range.mp hi) rfl⟩
    simp [typeOf, typesOf, sig, bty, hm, Ty.bty]

/-- C57 fails for insert and extract with bit-vectors: the index literals have type int, so Boogie rejects every axiom. -/
theorem c57_index_bv_fails (m : Mode) (hm : m.bitPrecise = true) (n : Nat) (s : Sc) (w : Nat) :
    (∀ a ∈ insertAxioms n s (.int w), ¬AcceptedAx m a) ∧ ∀ a ∈ extractAxioms n s (.int w), ¬AcceptedAx m a := by
  constructor
  · intro a ha
    obtain ⟨i, hi, rfl⟩ := List.mem_map.mp ha
    rintro ⟨b, h, _⟩
    have hb : bty m (.int w) = .bv w := by simp [bty, hm]
    simp [typeOf, typesOf, sig, hb, Ty.bty, lookup_x] at h
  · intro a ha
    obtain ⟨i, hi, rfl⟩ := List.mem_map.mp ha
    rintro ⟨b, h, _⟩
    have hb : bty m (.int w) = .bv w := by simp [bty, hm]
    simp [typeOf, typesOf, sig, hb, Ty.bty] at h

/-- There are such axioms. -/
example : (insertAxioms 4 (.int 32) (.int 64)).length = 4 := by decide

/-- C57, memory: a vector that was stored is loaded again, and other addresses keep their vector, if the region has the type
of the vector. -/
theorem c57_memory_partial [DecidableEq V] (U : (V → Val V) → V → Val V) (W : (V → Val V) → V → Val V → V → Val V) (t : Ty)
    (M : V → Val V) (p q : V) (v : Val V) :
    loadSem U t t (storeSem W t t M p v) p = v ∧ (q ≠ p → loadSem U t t (storeSem W t t M p v) q = loadSem U t t M q) := by
  simp only [loadSem, storeSem, if_true, true_and]
  intro h
  rw [if_neg h]

/-- Otherwise load and store are unrelated uninterpreted functions: for every region of another type there is a model in
which the vector read is not the one just stored. -/
theorem c57_memory_fails (et mt : Ty) (h : mt ≠ et) :
    ∃ (U : (Int → Val Int) → Int → Val Int) (W : (Int → Val Int) → Int → Val Int → Int → Val Int),
      ∀ (M : Int → Val Int) (p : Int), ∃ v : Val Int, loadSem U et mt (storeSem W et mt M p v) p ≠ v := by
  refine ⟨fun _ _ => .sc 0, fun M _ _ => M, fun M p => ⟨.sc 1, ?_⟩⟩
  rw [loadSem, if_neg h]
  intro hc
  injection hc with hc
  exact absurd hc (by decide)

/-- Vectors in a region of their type: accepted if the region is a map, rejected if it is a singleton (a plain variable). -/
theorem c57_memory_singleton_fails (m : Mode) (nb : Bool) (n : Nat) (s : Sc) :
    (Accepted m (load m nb false (.vec n s) (.vec n s)) ∧ Accepted m (store m nb false (.vec n s) (.vec n s))) ∧
    ((m.bitPrecise && nb) = false → ¬Accepted m (load m nb true (.vec n s) (.vec n s)) ∧
      ¬Accepted m (store m nb true (.vec n s) (.vec n s))) := by
  refine ⟨⟨?_, ?_⟩, fun hb => ⟨?_, ?_⟩⟩
  · intro t ht
    simp only [load, if_true, Option.some.injEq] at ht
    subst ht
    have e : List.lookup "p" [("M", (BTy.vec n s).map), ("p", bty m Sc.ref)] = some (bty m Sc.ref) := rfl
    simp [typeOf, load, memType, Ty.bty, e]
  · intro t ht
    simp only [store, if_true, Option.some.injEq] at ht
    subst ht
    have e : List.lookup "p" [("M", (BTy.vec n s).map), ("p", bty m Sc.ref), ("v", BTy.vec n s)] = some (bty m Sc.ref) := rfl
    have e2 : List.lookup "v" [("M", (BTy.vec n s).map), ("p", bty m Sc.ref), ("v", BTy.vec n s)] = some (BTy.vec n s) := rfl
    simp [typeOf, store, memType, Ty.bty, e, e2]
  · intro h
    have h := h (.mapSel (.var "M") (.var "p")) (by simp [load])
    simp [typeOf, load, memType, Ty.bty, hb] at h
  · intro h
    have h := h (.mapUpd (.var "M") (.var "p") (.var "v")) (by simp [store])
    simp [typeOf, store, memType, Ty.bty, hb] at h

/-! Names: a declaration is added only if its name is new (SmackRep.cpp:111-115), so different declarations must have different
names. -/

theorem scName_inj (bp : Bool) (s t : Sc) (h : scName bp s = scName bp t) : s = t := by
  have hd : ∀ (w : Nat) (c : Char) (l : List Char), c.isDigit = false → dec w ≠ c :: l := fun w c l hc e =>
    dec_ne w c hc (by rw [e]; simp)
  cases s <;> cases t <;> cases bp <;>
    simp only [scName, List.cons_append, List.nil_append, if_true, if_false, Bool.false_eq_true, List.cons.injEq, true_and, reduceCtorEq,
      Sc.int.injEq] at h ⊢ <;>
    first
    | exact dec_inj h
    | exact absurd h (hd _ _ _ (by decide))
    | exact absurd h.symm (hd _ _ _ (by decide))
    | exact absurd h (by decide)
    | exact absurd h.1 (by decide)

theorem scName_dot (bp : Bool) (s : Sc) : '.' ∉ scName bp s := by
  cases s with
  | int w =>
    rw [scName, List.mem_append, not_or]
    exact ⟨by cases bp <;> decide, dec_ne w '.' (by decide)⟩
  | _ => cases bp <;> decide

/-- Vector types with the same name are equal. -/
theorem c57_type_names (bp : Bool) (n n' : Nat) (s s' : Sc) (h : typeName bp n s = typeName bp n' s') : n = n' ∧ s = s' := by
  rw [typeName, typeName, List.append_assoc, List.append_assoc] at h
  have h := List.append_cancel_left h
  obtain ⟨h1, h2⟩ := split_at_char (d := 'x') (dec_ne n 'x' (by decide)) (dec_ne n' 'x' (by decide)) (Or.inr rfl) (Or.inr rfl) h
  injection h2 with _ h2
  exact ⟨dec_inj h1, scName_inj bp s s' h2⟩

theorem mask_inj : ∀ mask mask' : List Nat,
    (mask.map fun m => '.' :: dec m).flatten = (mask'.map fun m => '.' :: dec m).flatten → mask = mask'
  | [], [], _ => rfl
  | [], m :: _, h => by simp at h
  | m :: _, [], h => by simp at h
  | m :: ms, k :: ks, h => by
    simp only [List.map_cons, List.flatten_cons, List.cons_append, List.cons.injEq, true_and] at h
    have hd : ∀ l : List Nat, (l.map fun m => '.' :: dec m).flatten = [] ∨
        (l.map fun m => '.' :: dec m).flatten.head? = some '.' := by
      intro l
      cases l with
      | nil => exact Or.inl rfl
      | cons => exact Or.inr rfl
    obtain ⟨h1, h2⟩ := split_at_char (dec_ne m '.' (by decide)) (dec_ne k '.' (by decide)) (hd ms) (hd ks) h
    rw [dec_inj h1, mask_inj ms ks h2]

/-- Shuffles with the same name have the same operand type and the same mask. -/
theorem c57_shuffle_names (bp : Bool) (n n' : Nat) (s s' : Sc) (mask mask' : List Nat)
    (h : shuffleName bp n s mask = shuffleName bp n' s' mask') : n = n' ∧ s = s' ∧ mask = mask' := by
  rw [shuffleName, shuffleName, List.append_assoc, List.append_assoc] at h
  have h := List.append_cancel_left h
  have hd : ∀ l : List Nat, (l.map fun m => '.' :: dec m).flatten = [] ∨
      (l.map fun m => '.' :: dec m).flatten.head? = some '.' := by
    intro l
    cases l with
    | nil => exact Or.inl rfl
    | cons => exact Or.inr rfl
  rw [typeName, typeName] at h
  simp only [List.append_assoc, List.cons_append, List.nil_append, List.cons.injEq, true_and] at h
  obtain ⟨h1, h2⟩ := split_at_char (d := 'x') (dec_ne n 'x' (by decide)) (dec_ne n' 'x' (by decide)) (Or.inr rfl) (Or.inr rfl) h
  injection h2 with _ h2
  obtain ⟨h3, h4⟩ := split_at_char (scName_dot bp s) (scName_dot bp s') (hd mask) (hd mask') h2
  exact ⟨dec_inj h1, scName_inj bp s s' h3, mask_inj mask mask' h4⟩

example : shuffleName false 4 (.int 32) [1, 12] = "$shufflevector.vec.4xi32.1.12".toList := by decide +kernel

end Smack.Vec
