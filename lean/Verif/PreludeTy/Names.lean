import Verif.PreludeTy.Typing

namespace Smack.PreludeTy

variable {m : Mode}

/-- All functions of a list have different names. -/
def Distinct (l : List Fun) : Prop := l.Pairwise fun d e => d.sym ≠ e.sym

theorem distinct_nil : Distinct [] := .nil
theorem distinct_one (d : Fun) : Distinct [d] := by simp [Distinct]

theorem distinct_flatMap {α K : Type} {l : List α} {f : α → List Fun} (k : α → K) (key : Sym → K)
    (hk : (l.map k).Nodup) (hf : ∀ a ∈ l, ∀ d ∈ f a, key d.sym = k a) (hin : ∀ a ∈ l, Distinct (f a)) : Distinct (l.flatMap f) := by
  refine List.pairwise_flatMap.mpr ⟨hin, ?_⟩
  have hk : l.Pairwise fun a b => k a ≠ k b := List.pairwise_map.mp hk
  refine List.Pairwise.imp_of_mem ?_ hk
  intro a b ha hb hab x hx y hy e
  exact hab (by rw [← hf a ha x hx, ← hf b hb y hy, e])

theorem distinct_map {α : Type} {l : List α} {f : α → Fun} (hl : l.Nodup) (hf : ∀ a ∈ l, ∀ b ∈ l, (f a).sym = (f b).sym → a = b) :
    Distinct (l.map f) := by
  refine List.pairwise_map.mpr ?_
  refine List.Pairwise.imp_of_mem ?_ hl
  intro a b ha hb hab e
  exact hab (hf a ha b hb e)

theorem distinct_append {l l' : List Fun} (h : Distinct l) (h' : Distinct l') (hd : ∀ d ∈ l, ∀ e ∈ l', d.sym ≠ e.sym) :
    Distinct (l ++ l') := List.pairwise_append.mpr ⟨h, h', hd⟩

/-! ### Within one group -/

/-- The number in the first component. -/
def sizeOf' (s : Sym) : Nat :=
  match s.idx with
  | .ty (.i n) :: _ => n
  | .ty (.bv n) :: _ => n
  | .bytes :: .ty (.bv n) :: _ => n
  | _ => 0

theorem sizes_nodup : sizes.Nodup := by decide

theorem declare_sym {k : OpKind} {n : Nat} {s : Sym} {ps : List (String × TName)} {r : TName} {d : Fun} (h : d ∈ declare k n s ps r) :
    d.sym = s := by
  cases k <;> simp only [declare, List.not_mem_nil, List.mem_singleton] at h
  all_goals first | (subst h; rfl)

theorem declare_distinct {k : OpKind} {n : Nat} {s : Sym} {ps : List (String × TName)} {r : TName} : Distinct (declare k n s ps r) := by
  cases k
  · exact distinct_nil
  · exact distinct_one _
  · exact distinct_one _
  · exact distinct_one _

theorem arith_sym {o : ArithOp} {n : Nat} {d : Fun} (h : d ∈ o.funs m n) :
    d.sym = ⟨"$" ++ o.name, [.ty (.i n)]⟩ ∨ d.sym = ⟨"$" ++ o.name, [.ty (.bv n)]⟩ := by
  unfold ArithOp.funs at h
  rcases List.mem_append.mp h with h | h
  · split at h
    · exact .inl (declare_sym h)
    · cases h
  · split at h
    · exact .inr (declare_sym h)
    · cases h

def arithNames : List String :=
  ["$add", "$sub", "$mul", "$idiv", "$sdiv", "$udiv", "$smod", "$srem", "$urem", "$shl", "$lshr", "$ashr", "$and", "$or", "$xor",
    "$nand", "$not", "$tos", "$tou", "$smin", "$smax", "$umin", "$umax"]

theorem arithTable_names : (arithTable m).map (fun o => "$" ++ o.name) = arithNames := rfl

theorem arith_distinct : Distinct (arithDecls m) := by
  refine distinct_flatMap (fun o => "$" ++ o.name) (·.base) ?_ ?_ ?_
  · rw [arithTable_names]; decide
  · intro o _ d hd
    obtain ⟨n, _, hd⟩ := List.mem_flatMap.mp hd
    rcases arith_sym hd with e | e <;> rw [e]
  · intro o _
    refine distinct_flatMap id sizeOf' ?_ ?_ ?_
    · rw [List.map_id]; exact sizes_nodup
    · intro n _ d hd
      rcases arith_sym hd with e | e <;> rw [e] <;> rfl
    · intro n _
      refine distinct_append ?_ ?_ ?_
      · split
        · exact declare_distinct
        · exact distinct_nil
      · split
        · exact declare_distinct
        · exact distinct_nil
      · intro d hd e he
        split at hd
        · split at he
          · rw [declare_sym hd, declare_sym he]; simp
          · cases he
        · cases hd

theorem pred_sym {o : PredOp} {n : Nat} {d : Fun} (h : d ∈ o.funs m n) :
    d.sym.base = "$" ++ o.name ∧ (d.sym.idx = [.ty (.i n), .ty .bool] ∨ d.sym.idx = [.ty (.i n)] ∨
      d.sym.idx = [.ty (.bv n), .ty .bool] ∨ d.sym.idx = [.ty (.bv n)]) := by
  unfold PredOp.funs at h
  rcases List.mem_append.mp h with h | h
  · split at h
    · simp only [PredOp.intFuns, List.mem_cons, List.not_mem_nil, or_false] at h
      rcases h with rfl | rfl <;> simp
    · cases h
  · split at h
    · rcases List.mem_append.mp h with h | h
      · rw [declare_sym h]; simp
      · rw [List.mem_singleton.mp h]; simp
    · cases h

theorem predTable_names : (predTable m).map (fun o => "$" ++ o.name) = predNames := rfl

theorem pred_distinct : Distinct (predDecls m) := by
  refine distinct_flatMap (fun o => "$" ++ o.name) (·.base) ?_ ?_ ?_
  · rw [predTable_names]; decide
  · intro o _ d hd
    obtain ⟨n, _, hd⟩ := List.mem_flatMap.mp hd
    exact (pred_sym hd).1
  · intro o _
    refine distinct_flatMap id sizeOf' ?_ ?_ ?_
    · rw [List.map_id]; exact sizes_nodup
    · intro n _ d hd
      unfold sizeOf'
      rcases (pred_sym hd).2 with e | e | e | e <;> rw [e] <;> rfl
    · intro n _
      have hi : Distinct (o.intFuns n) := by simp [Distinct, PredOp.intFuns]
      have hb : Distinct (o.bvFuns n) := by
        refine distinct_append declare_distinct (distinct_one _) ?_
        intro d hd e he
        rw [declare_sym hd, List.mem_singleton.mp he]; simp
      refine distinct_append ?_ ?_ ?_
      · split
        · exact hi
        · exact distinct_nil
      · split
        · exact hb
        · exact distinct_nil
      · intro d hd e he
        split at hd
        · split at he
          · have hd' : d.sym.idx = [.ty (.i n), .ty .bool] ∨ d.sym.idx = [.ty (.i n)] := by
              simp only [PredOp.intFuns, List.mem_cons, List.not_mem_nil, or_false] at hd
              rcases hd with rfl | rfl <;> simp
            have he' : e.sym.idx = [.ty (.bv n), .ty .bool] ∨ e.sym.idx = [.ty (.bv n)] := by
              rcases List.mem_append.mp he with he | he
              · rw [declare_sym he]; simp
              · rw [List.mem_singleton.mp he]; simp
            intro eq; rw [eq] at hd'
            rcases hd' with h1 | h1 <;> rcases he' with h2 | h2 <;> rw [h1] at h2 <;> simp at h2
          · cases he
        · cases hd

theorem conv_sym {d : Fun} (h : d ∈ convDecls m) : d.sym.base ∈ ["$trunc", "$sext", "$zext"] := by
  unfold convDecls at h
  rw [List.mem_append, List.mem_append, List.mem_map, List.mem_map, List.mem_map] at h
  rcases h with (⟨p, _, rfl⟩ | ⟨p, _, rfl⟩) | ⟨p, _, rfl⟩ <;> cases hb : m.bp <;> simp [convTrunc, convExt, hb]

theorem pairs_nodup : (pairs sizes).Nodup := by decide +kernel

theorem conv_distinct : Distinct (convDecls m) := by
  have inj : ∀ f : Nat × Nat → Fun, (∀ p q, (f p).sym = (f q).sym → p = q) → Distinct ((pairs sizes).map f) :=
    fun f hf => distinct_map pairs_nodup fun p _ q _ => hf p q
  have bt : ∀ p, (convTrunc m p).sym.base = "$trunc" := by intro p; cases hb : m.bp <;> simp [convTrunc, hb]
  have bs : ∀ p, (convExt m true p).sym.base = "$sext" := by intro p; cases hb : m.bp <;> simp [convExt, hb]
  have bz : ∀ p, (convExt m false p).sym.base = "$zext" := by intro p; cases hb : m.bp <;> simp [convExt, hb]
  have ie : ∀ s p q, (convExt m s p).sym = (convExt m s q).sym → p = q := by
    rintro s ⟨p1, p2⟩ ⟨q1, q2⟩ e; cases hb : m.bp <;> simp [convExt, hb] at e <;> simp [e]
  have it : ∀ p q, (convTrunc m p).sym = (convTrunc m q).sym → p = q := by
    rintro ⟨p1, p2⟩ ⟨q1, q2⟩ e; cases hb : m.bp <;> simp [convTrunc, hb] at e <;> simp [e]
  refine distinct_append (distinct_append (inj _ it) (inj _ (ie true)) ?_) (inj _ (ie false)) ?_
  · intro d hd e he eq
    obtain ⟨p, _, rfl⟩ := List.mem_map.mp hd
    obtain ⟨q, _, rfl⟩ := List.mem_map.mp he
    have := congrArg Sym.base eq; rw [bt, bs] at this; simp at this
  · intro d hd e he eq
    obtain ⟨q, _, rfl⟩ := List.mem_map.mp he
    have := congrArg Sym.base eq; rw [bz] at this
    rcases List.mem_append.mp hd with hd | hd <;> obtain ⟨p, _, rfl⟩ := List.mem_map.mp hd
    · rw [bt] at this; simp at this
    · rw [bs] at this; simp at this

theorem mem_sym {n : Nat} {d : Fun} (h : d ∈ memFuns m n) : d.sym.base ∈ ["$load", "$store"] ∧
    (d.sym.idx = [.ty (.i n)] ∨ d.sym.idx = [.ty (.bv n)] ∨ d.sym.idx = [.bytes, .ty (.bv n)]) := by
  unfold memFuns at h
  split at h
  · rcases List.mem_append.mp h with h | h
    · simp only [List.mem_cons, List.not_mem_nil, or_false] at h
      rcases h with rfl | rfl <;> simp [safeLoad, safeStore]
    · split at h
      · simp only [List.mem_cons, List.not_mem_nil, or_false] at h
        rcases h with rfl | rfl <;> simp [rawLoad, rawStore]
      · split at h <;> simp only [List.mem_cons, List.not_mem_nil, or_false] at h <;>
          rcases h with rfl | rfl <;> simp [rawLoad, rawStore]
  · simp only [List.mem_cons, List.not_mem_nil, or_false] at h
    rcases h with rfl | rfl <;> simp [safeLoad, safeStore]

theorem mem_distinct : Distinct (memDecls m) := by
  refine distinct_flatMap id sizeOf' ?_ ?_ ?_
  · rw [List.map_id]; exact sizes_nodup
  · intro n _ d hd
    unfold sizeOf'
    rcases (mem_sym hd).2 with e | e | e <;> rw [e] <;> rfl
  · intro n _
    unfold memFuns
    split
    · split
      · simp [Distinct, safeLoad, safeStore, rawLoad, rawStore]
      · split <;> simp [Distinct, safeLoad, safeStore, rawLoad, rawStore]
    · simp [Distinct, safeLoad, safeStore]

theorem extract_distinct : Distinct (extractDecls m) := by
  refine distinct_map sizes_nodup ?_
  intro a _ b _ e
  cases hb : m.bp <;> simpa [extractFun, intT, hb] using e

theorem bvInt_distinct : Distinct (bvIntDecls m) := by
  unfold bvIntDecls
  split <;> simp [Distinct]

theorem ptrArith_distinct : Distinct (ptrArithDecls m) := by
  refine distinct_map (by decide) ?_
  intro a _ b _ e
  simpa using e

theorem ptrPred_distinct : Distinct (ptrPredDecls m) := by
  refine distinct_flatMap (fun o => o.1) (·.base) (by decide) ?_ ?_
  · intro o _ d hd
    simp only [List.mem_cons, List.not_mem_nil, or_false] at hd
    rcases hd with rfl | rfl <;> rfl
  · intro o _
    simp [Distinct]

theorem ptrMem_distinct : Distinct (ptrMemDecls m) := by
  unfold ptrMemDecls
  split <;> simp [Distinct, safeLoad, safeStore, rawLoad, rawStore]

theorem ptrConv_distinct : Distinct ptrConvDecls := by simp [Distinct, ptrConvDecls, extractFun]

theorem ptrNum_distinct : Distinct (ptrNumDecls m) := by
  unfold ptrNumDecls
  cases hb : m.bp <;> simp [Distinct, intT, hb]

theorem fpCtor_distinct : Distinct (fpCtorDecls m) := by
  unfold fpCtorDecls; split
  · exact distinct_nil
  · exact distinct_one _

theorem fk_inj {a b : FK} (h : a.name = b.name) : a = b := by cases a <;> cases b <;> first | rfl | cases h

theorem fks_nodup : fks.Nodup := by decide

theorem fpArith_base {d : Fun} {o : String × Nat × Bool × String}
    (hd : d ∈ if m.flt then fks.map fun k =>
      ({ sym := ⟨o.1, [.ty k.name]⟩, params := (if o.2.2.1 then [("rm", .rmode)] else []) ++ vars "f" o.2.1 k.name,
         ret := k.name, attr := some ⟨o.2.2.2, []⟩ } : Fun)
    else [ { sym := ⟨o.1, [.ty .ufloat]⟩, params := vars "f" o.2.1 .ufloat, ret := .ufloat } ]) : d.sym.base = o.1 := by
  split at hd
  · obtain ⟨k, _, rfl⟩ := List.mem_map.mp hd; rfl
  · rw [List.mem_singleton.mp hd]

theorem fpArith_distinct : Distinct (fpArithDecls m) := by
  refine distinct_flatMap (fun o => o.1) (·.base) (by decide) (fun o _ d hd => fpArith_base hd) ?_
  intro o _
  split
  · refine distinct_map fks_nodup ?_
    intro a _ b _ e
    exact fk_inj (by simpa using e)
  · exact distinct_one _

def fpPredNames : List String :=
  ["$isnormal", "$issubnormal", "$iszero", "$isinfinite", "$isnan", "$isnegative", "$ispositive", "$foeq", "$fole", "$folt", "$foge",
    "$fogt", "$fone", "$ford", "$fueq", "$fugt", "$fuge", "$fult", "$fule", "$fune", "$funo", "$ffalse", "$ftrue"]

theorem fpPredTable_names : fpPredTable.map (fun o => o.1) = fpPredNames := rfl

theorem fpPred_base {d : Fun} (hd : d ∈ fpPredDecls m) : d.sym.base ∈ fpPredNames := by
  obtain ⟨o, ho, hd⟩ := List.mem_flatMap.mp hd
  have : d.sym.base = o.1 := by
    split at hd
    · obtain ⟨k, _, rfl⟩ := List.mem_map.mp hd; rfl
    · split at hd
      · rw [List.mem_singleton.mp hd]
      · cases hd
  rw [this, ← fpPredTable_names]; exact List.mem_map_of_mem (f := fun o => o.1) ho

theorem fpPred_distinct : Distinct (fpPredDecls m) := by
  refine distinct_flatMap (fun o => o.1) (·.base) (by rw [fpPredTable_names]; decide) ?_ ?_
  · intro o _ d hd
    split at hd
    · obtain ⟨k, _, rfl⟩ := List.mem_map.mp hd; rfl
    · split at hd
      · rw [List.mem_singleton.mp hd]
      · cases hd
  · intro o _
    split
    · refine distinct_map fks_nodup ?_
      intro a _ b _ e
      exact fk_inj (by simpa using e)
    · split
      · exact distinct_one _
      · exact distinct_nil

/-- Does the name convert to an integer? -/
def toInt' (s : Sym) : Bool :=
  match s.idx with
  | [_, .ty (.i _)] => true
  | [_, .ty (.bv _)] => true
  | _ => false

/-- The components of a conversion: floating-point type and number of bits. -/
def convPart (s : Sym) : TName × Nat :=
  match s.idx with
  | [.ty t, .ty (.i n)] => (t, n)
  | [.ty t, .ty (.bv n)] => (t, n)
  | [.ty (.i n), .ty t] => (t, n)
  | [.ty (.bv n), .ty t] => (t, n)
  | _ => (.int, 0)

/-- A floating-point type name. -/
def isFp : TName → Bool
  | .half | .single | .double | .longdouble | .ufloat => true
  | _ => false

theorem fk_isFp (k : FK) : isFp k.name = true := by cases k <;> rfl

theorem fpInt_key (c : FpIntConv) {t : TName} (ht : isFp t = true) (n : Nat) (rm : Bool) (a : Option Smt) :
    (c.decl m t n rm a).sym.base = c.name ∧ toInt' (c.decl m t n rm a).sym = c.f2i ∧ convPart (c.decl m t n rm a).sym = (t, n) := by
  cases hf : c.f2i <;> cases hb : m.bp <;> cases t <;> first | (cases ht; done) | exact ⟨rfl, by simp [FpIntConv.decl, hf, hb, intT, toInt', convPart]⟩

theorem fpIntTable_keys : (fpIntTable.map fun c => (c.name, c.f2i)).Nodup := by
  show [("$bitcast", true), ("$bitcast", false), ("$fp2si", true), ("$fp2ui", true), ("$si2fp", false), ("$ui2fp", false)].Nodup
  decide

theorem fpInt_distinct : Distinct (fpIntDecls m) := by
  refine distinct_flatMap (fun c => (c.name, c.f2i)) (fun s => (s.base, toInt' s)) fpIntTable_keys ?_ ?_
  · intro c _ d hd
    split at hd
    · obtain ⟨k, _, hd⟩ := List.mem_flatMap.mp hd
      obtain ⟨n, hn, hd⟩ := List.mem_flatMap.mp hd
      split at hd
      · rw [List.mem_singleton.mp hd]
        have := fpInt_key (m := m) c (fk_isFp k) n (!c.bitCast) (if m.bp then c.op k n else none)
        rw [this.1, this.2.1]
      · cases hd
    · obtain ⟨n, hn, hd⟩ := List.mem_flatMap.mp hd
      split at hd
      · rw [List.mem_singleton.mp hd]
        have := fpInt_key (m := m) c (t := .ufloat) rfl n false none
        rw [this.1, this.2.1]
      · cases hd
  · intro c _
    split
    · refine distinct_flatMap FK.name (fun s => (convPart s).1) (by decide) ?_ ?_
      · intro k _ d hd
        obtain ⟨n, hn, hd⟩ := List.mem_flatMap.mp hd
        split at hd
        · rw [List.mem_singleton.mp hd, (fpInt_key (m := m) c (fk_isFp k) n _ _).2.2]
        · cases hd
      · intro k _
        refine distinct_flatMap id (fun s => (convPart s).2) (by rw [List.map_id]; exact sizes_nodup) ?_ ?_
        · intro n _ d hd
          split at hd
          · rw [List.mem_singleton.mp hd, (fpInt_key (m := m) c (fk_isFp k) n _ _).2.2]; rfl
          · cases hd
        · intro n _
          split
          · exact distinct_one _
          · exact distinct_nil
    · refine distinct_flatMap id (fun s => (convPart s).2) (by rw [List.map_id]; exact sizes_nodup) ?_ ?_
      · intro n _ d hd
        split at hd
        · rw [List.mem_singleton.mp hd, (fpInt_key (m := m) c (t := .ufloat) rfl n _ _).2.2]; rfl
        · cases hd
      · intro n _
        split
        · exact distinct_one _
        · exact distinct_nil

theorem fpConv_distinct : Distinct (fpConvDecls m) := by
  unfold fpConvDecls
  split
  · simp [Distinct, fks, FK.width, FK.name]
  · simp [Distinct]

theorem fpMem_distinct : Distinct (fpMemDecls m) := by
  unfold fpMemDecls
  split
  · split <;> simp [Distinct, fks, FK.name, safeLoad, safeStore, rawLoad, rawStore]
  · split <;> simp [Distinct, safeLoad, safeStore, rawLoad, rawStore]

theorem fpExtract_distinct : Distinct (fpExtractDecls m) := by
  unfold fpExtractDecls
  split
  · simp [Distinct, fks, FK.name, extractFun]
  · exact distinct_one _

/-! ### Groups -/

/-- 0 for integers, 1 for pointers, 2 for floating point. -/
def Comp.cls : Comp → Nat
  | .ty .ref => 1
  | .ty .half | .ty .single | .ty .double | .ty .longdouble | .ty .ufloat => 2
  | _ => 0

def icls (l : List Comp) : Nat := l.foldl (fun a c => max a c.cls) 0

def fpArithNames : List String :=
  ["$abs", "$round", "$sqrt", "$fadd", "$fsub", "$fmul", "$fdiv", "$frem", "$min", "$max", "$fma", "$fneg"]

def fpIntNames : List String := ["$fp2si", "$fp2ui", "$si2fp", "$ui2fp"]

/-- The group of `groups` a name belongs to. -/
def grp (s : Sym) : Nat :=
  if s.base = "$isExternal" then 0
  else if s.base ∈ ["$int2bv", "$bv2uint", "$bv2int"] then 1
  else if s.base ∈ arithNames then (if icls s.idx = 0 then 2 else 7)
  else if s.base ∈ predNames then (if icls s.idx = 0 then 3 else 8)
  else if s.base ∈ ["$load", "$store"] then (if icls s.idx = 0 then 4 else if icls s.idx = 1 then 9 else 17)
  else if s.base ∈ ["$trunc", "$sext", "$zext"] then 5
  else if s.base = "$extractvalue" then (if icls s.idx = 0 then 6 else if icls s.idx = 1 then 10 else 18)
  else if s.base = "$bitcast" then (if icls s.idx = 1 then 10 else 15)
  else if s.base ∈ ["$p2i", "$i2p"] then 11
  else if s.base = "$fp" then 12
  else if s.base ∈ fpArithNames then 13
  else if s.base ∈ fpPredNames then 14
  else if s.base ∈ fpIntNames then 15
  else 16

theorem grp_base {s : Sym} {l : List String} (hl : s.base ∈ l) {k : Nat} (h : ∀ b ∈ l, ∀ i, grp ⟨b, i⟩ = k) : grp s = k := by
  have := h s.base hl s.idx; exact this

theorem grp_base_cls {s : Sym} {l : List String} (hl : s.base ∈ l) {k c : Nat} (hc : icls s.idx = c)
    (h : ∀ b ∈ l, ∀ i, icls i = c → grp ⟨b, i⟩ = k) : grp s = k := h s.base hl s.idx hc

theorem grp_arith {s : Sym} (hb : s.base ∈ arithNames) (hi : icls s.idx = 0) : grp s = 2 := by
  refine grp_base_cls hb hi ?_
  intro b hb i hi
  simp only [grp, hi]
  have : ∀ b ∈ arithNames, b ≠ "$isExternal" ∧ b ∉ ["$int2bv", "$bv2uint", "$bv2int"] := by decide
  rw [if_neg (this b hb).1, if_neg (this b hb).2, if_pos hb, if_pos trivial]

theorem grp_ptrArith {s : Sym} (hb : s.base ∈ arNames) (hi : icls s.idx = 1) : grp s = 7 := by
  refine grp_base_cls hb hi ?_
  intro b hb i hi
  simp only [grp, hi]
  have : ∀ b ∈ arNames, b ≠ "$isExternal" ∧ b ∉ ["$int2bv", "$bv2uint", "$bv2int"] ∧ b ∈ arithNames := by decide
  rw [if_neg (this b hb).1, if_neg (this b hb).2.1, if_pos (this b hb).2.2, if_neg (by decide)]

theorem grp_pred {s : Sym} (hb : s.base ∈ predNames) : grp s = if icls s.idx = 0 then 3 else 8 := by
  have : ∀ b ∈ predNames, b ≠ "$isExternal" ∧ b ∉ ["$int2bv", "$bv2uint", "$bv2int"] ∧ b ∉ arithNames := by decide
  have := this _ hb
  unfold grp
  rw [if_neg this.1, if_neg this.2.1, if_neg this.2.2, if_pos hb]

theorem grp_mem {s : Sym} (hb : s.base ∈ ["$load", "$store"]) :
    grp s = if icls s.idx = 0 then 4 else if icls s.idx = 1 then 9 else 17 := by
  have : ∀ b ∈ ["$load", "$store"], b ≠ "$isExternal" ∧ b ∉ ["$int2bv", "$bv2uint", "$bv2int"] ∧ b ∉ arithNames ∧ b ∉ predNames := by
    decide
  have := this _ hb
  unfold grp
  rw [if_neg this.1, if_neg this.2.1, if_neg this.2.2.1, if_neg this.2.2.2, if_pos hb]

theorem grp_ex (l : List Comp) : grp ⟨"$extractvalue", l⟩ = if icls l = 0 then 6 else if icls l = 1 then 10 else 18 := by
  unfold grp
  dsimp only
  rw [if_neg (by decide), if_neg (by decide), if_neg (by decide), if_neg (by decide), if_neg (by decide), if_neg (by decide), if_pos rfl]

theorem grp_bit (l : List Comp) : grp ⟨"$bitcast", l⟩ = if icls l = 1 then 10 else 15 := by
  unfold grp
  dsimp only
  rw [if_neg (by decide), if_neg (by decide), if_neg (by decide), if_neg (by decide), if_neg (by decide), if_neg (by decide),
    if_neg (by decide), if_pos rfl]

theorem grp_conv {s : Sym} (hb : s.base ∈ ["$trunc", "$sext", "$zext"]) : grp s = 5 := by
  have : ∀ b ∈ ["$trunc", "$sext", "$zext"], b ≠ "$isExternal" ∧ b ∉ ["$int2bv", "$bv2uint", "$bv2int"] ∧ b ∉ arithNames ∧
    b ∉ predNames ∧ b ∉ ["$load", "$store"] := by decide
  have := this _ hb
  unfold grp
  rw [if_neg this.1, if_neg this.2.1, if_neg this.2.2.1, if_neg this.2.2.2.1, if_neg this.2.2.2.2, if_pos hb]

/-- None of the earlier names. -/
def late (b : String) : Bool :=
  b ≠ "$isExternal" ∧ b ∉ ["$int2bv", "$bv2uint", "$bv2int"] ∧ b ∉ arithNames ∧ b ∉ predNames ∧ b ∉ ["$load", "$store"] ∧
  b ∉ ["$trunc", "$sext", "$zext"] ∧ b ≠ "$extractvalue" ∧ b ≠ "$bitcast"

theorem grp_late {s : Sym} (h : late s.base = true) :
    grp s = if s.base ∈ ["$p2i", "$i2p"] then 11 else if s.base = "$fp" then 12 else if s.base ∈ fpArithNames then 13
      else if s.base ∈ fpPredNames then 14 else if s.base ∈ fpIntNames then 15 else 16 := by
  simp only [late, decide_eq_true_eq] at h
  unfold grp
  obtain ⟨a, b, c, d, e, f, g, i⟩ := h
  rw [if_neg a, if_neg b, if_neg c, if_neg d, if_neg e, if_neg f, if_neg g, if_neg i]

theorem grp_late_list {l : List String} {k : Nat}
    (hl : ∀ b ∈ l, late b = true ∧ (if b ∈ ["$p2i", "$i2p"] then 11 else if b = "$fp" then 12 else if b ∈ fpArithNames then 13
      else if b ∈ fpPredNames then 14 else if b ∈ fpIntNames then 15 else 16) = k) {s : Sym} (hs : s.base ∈ l) : grp s = k := by
  rw [grp_late (hl _ hs).1]; exact (hl _ hs).2

/-- Every list holds names of one group, numbered upwards from `k`. -/
def Numbered : Nat → List (List Fun) → Prop
  | _, [] => True
  | k, g :: L => (∀ d ∈ g, grp d.sym = k) ∧ Numbered (k + 1) L

theorem numbered_ge : ∀ {L : List (List Fun)} {k : Nat}, Numbered k L → ∀ g ∈ L, ∀ d ∈ g, k ≤ grp d.sym
  | _ :: L, k, h, g, hg, d, hd => by
    rcases List.mem_cons.mp hg with rfl | hg
    · rw [h.1 d hd]; exact Nat.le_refl _
    · have := numbered_ge h.2 g hg d hd; omega

theorem numbered_distinct : ∀ {L : List (List Fun)} {k : Nat}, Numbered k L → (∀ g ∈ L, Distinct g) → Distinct L.flatten
  | [], _, _, _ => distinct_nil
  | g :: L, k, h, hg => by
    rw [List.flatten_cons]
    refine distinct_append (hg g (.head _)) (numbered_distinct h.2 fun g' h' => hg g' (.tail _ h')) ?_
    intro d hd e he eq
    obtain ⟨g', hg', he⟩ := List.mem_flatten.mp he
    have h1 := h.1 d hd
    have h2 := numbered_ge h.2 g' hg' e he
    rw [eq] at h1; omega

theorem icls_int (m : Mode) (n : Nat) : (Comp.ty (intT m n)).cls = 0 := by
  cases h : m.bp <;> simp [intT, h, Comp.cls]

theorem icls_fk (k : FK) : (Comp.ty k.name).cls = 2 := by cases k <;> rfl

theorem groups_numbered : Numbered 0 (groups m) := by
  refine ⟨?_, ?_, ?_, ?_, ?_, ?_, ?_, ?_, ?_, ?_, ?_, ?_, ?_, ?_, ?_, ?_, ?_, ?_, ?_, trivial⟩
  · intro d hd; rw [List.mem_singleton.mp hd]; rfl
  · intro d hd
    have hb : d.sym.base ∈ ["$int2bv", "$bv2uint", "$bv2int"] := by
      unfold bvIntDecls at hd
      rcases List.mem_append.mp hd with hd | hd
      · rw [List.mem_singleton.mp hd]; simp
      · split at hd
        · simp only [List.mem_cons, List.not_mem_nil, or_false] at hd
          rcases hd with rfl | rfl <;> simp
        · rw [List.mem_singleton.mp hd]; simp
    have : ∀ b ∈ ["$int2bv", "$bv2uint", "$bv2int"], b ≠ "$isExternal" := by decide
    unfold grp
    rw [if_neg (this _ hb), if_pos hb]
  · intro d hd
    obtain ⟨o, ho, hd⟩ := List.mem_flatMap.mp hd
    obtain ⟨n, hn, hd⟩ := List.mem_flatMap.mp hd
    have : "$" ++ o.name ∈ arithNames := by rw [← arithTable_names (m := m)]; exact List.mem_map_of_mem (f := fun o => "$" ++ o.name) ho
    refine grp_arith ?_ ?_ <;> rcases arith_sym hd with e | e <;> rw [e]
    · exact this
    · exact this
    · rfl
    · rfl
  · intro d hd
    obtain ⟨o, ho, hd⟩ := List.mem_flatMap.mp hd
    obtain ⟨n, hn, hd⟩ := List.mem_flatMap.mp hd
    have : "$" ++ o.name ∈ predNames := by rw [← predTable_names (m := m)]; exact List.mem_map_of_mem (f := fun o => "$" ++ o.name) ho
    obtain ⟨hb, hi⟩ := pred_sym hd
    rw [grp_pred (by rw [hb]; exact this), if_pos]
    rcases hi with e | e | e | e <;> rw [e] <;> rfl
  · intro d hd
    obtain ⟨n, hn, hd⟩ := List.mem_flatMap.mp hd
    obtain ⟨hb, hi⟩ := mem_sym hd
    rw [grp_mem hb, if_pos]
    rcases hi with e | e | e <;> rw [e] <;> rfl
  · intro d hd; exact grp_conv (conv_sym hd)
  · intro d hd
    obtain ⟨n, hn, rfl⟩ := List.mem_map.mp hd
    show grp ⟨"$extractvalue", _⟩ = _
    rw [grp_ex, if_pos]
    simp [icls, icls_int]
  · intro d hd
    obtain ⟨op, hop, rfl⟩ := List.mem_map.mp hd
    exact grp_ptrArith hop rfl
  · intro d hd
    obtain ⟨o, ho, hd⟩ := List.mem_flatMap.mp hd
    have hf := (ptrPred_name ho).1
    simp only [List.mem_cons, List.not_mem_nil, or_false] at hd
    rcases hd with rfl | rfl
    · rw [grp_pred hf]; rfl
    · rw [grp_pred hf]; rfl
  · intro d hd
    have : d.sym.base ∈ ["$load", "$store"] ∧ icls d.sym.idx = 1 := by
      unfold ptrMemDecls at hd
      rcases List.mem_append.mp hd with hd | hd
      · split at hd
        · simp only [List.mem_cons, List.not_mem_nil, or_false] at hd
          rcases hd with rfl | rfl <;> exact ⟨by simp [rawLoad, rawStore], rfl⟩
        · cases hd
      · simp only [List.mem_cons, List.not_mem_nil, or_false] at hd
        rcases hd with rfl | rfl <;> exact ⟨by simp [safeLoad, safeStore], rfl⟩
    rw [grp_mem this.1, this.2]; rfl
  · intro d hd
    simp only [ptrConvDecls, List.mem_cons, List.not_mem_nil, or_false] at hd
    rcases hd with rfl | rfl
    · show grp ⟨"$bitcast", _⟩ = _; rw [grp_bit]; rfl
    · show grp ⟨"$extractvalue", _⟩ = _; rw [grp_ex]; rfl
  · intro d hd
    obtain ⟨n, hn, hd⟩ := List.mem_flatMap.mp hd
    simp only [List.mem_cons, List.not_mem_nil, or_false] at hd
    refine grp_late_list (l := ["$p2i", "$i2p"]) (by decide) ?_
    rcases hd with rfl | rfl <;> simp
  · intro d hd
    unfold fpCtorDecls at hd
    split at hd
    · cases hd
    · rw [List.mem_singleton.mp hd]; exact grp_late_list (l := ["$fp"]) (by decide) (by simp)
  · intro d hd
    obtain ⟨o, ho, hd⟩ := List.mem_flatMap.mp hd
    have : ∀ o ∈ fpArithTable, o.1 ∈ fpArithNames := by decide
    exact grp_late_list (l := fpArithNames) (by decide) (by rw [fpArith_base hd]; exact this o ho)
  · intro d hd; exact grp_late_list (l := fpPredNames) (by decide +kernel) (fpPred_base hd)
  · intro d hd
    have key : ∃ c ∈ fpIntTable, ∃ t n rm a, isFp t = true ∧ d = c.decl m t n rm a := by
      obtain ⟨c, hc, hd⟩ := List.mem_flatMap.mp hd
      split at hd
      · obtain ⟨k, _, hd⟩ := List.mem_flatMap.mp hd
        obtain ⟨n, hn, hd⟩ := List.mem_flatMap.mp hd
        split at hd
        · exact ⟨c, hc, _, _, _, _, fk_isFp k, List.mem_singleton.mp hd⟩
        · cases hd
      · obtain ⟨n, hn, hd⟩ := List.mem_flatMap.mp hd
        split at hd
        · exact ⟨c, hc, _, _, _, _, rfl, List.mem_singleton.mp hd⟩
        · cases hd
    obtain ⟨c, hc, t, n, rm, a, ht, rfl⟩ := key
    have cls : icls (c.decl m t n rm a).sym.idx = 2 := by
      cases hf : c.f2i <;> cases hb : m.bp <;> cases t <;>
        first | (cases ht; done) | simp [FpIntConv.decl, hf, hb, intT, icls, Comp.cls]
    have nm : c.name = "$bitcast" ∨ c.name ∈ fpIntNames := by
      simp only [fpIntTable, List.mem_cons, List.not_mem_nil, or_false] at hc
      rcases hc with rfl | rfl | rfl | rfl | rfl | rfl <;> simp [fpIntNames]
    rcases nm with nm | nm
    · have : (c.decl m t n rm a).sym = ⟨"$bitcast", (c.decl m t n rm a).sym.idx⟩ := by rw [← nm]; rfl
      rw [this, grp_bit, cls]; rfl
    · exact grp_late_list (l := fpIntNames) (by decide) nm
  · intro d hd
    refine grp_late_list (l := ["$fpext", "$fptrunc"]) (by decide) ?_
    unfold fpConvDecls at hd
    split at hd
    · obtain ⟨s, _, hd⟩ := List.mem_flatMap.mp hd
      obtain ⟨e, _, hd⟩ := List.mem_flatMap.mp hd
      split at hd
      · rw [List.mem_singleton.mp hd]
        by_cases h : s.width < e.width <;> simp [h]
      · cases hd
    · simp only [List.mem_cons, List.not_mem_nil, or_false] at hd
      rcases hd with rfl | rfl <;> simp
  · intro d hd
    have : d.sym.base ∈ ["$load", "$store"] ∧ icls d.sym.idx = 2 := by
      unfold fpMemDecls at hd
      split at hd
      · obtain ⟨k, _, hd⟩ := List.mem_flatMap.mp hd
        dsimp only at hd
        rcases List.mem_append.mp hd with hd | hd
        · simp only [List.mem_cons, List.not_mem_nil, or_false] at hd
          rcases hd with rfl | rfl <;> exact ⟨by simp [safeLoad, safeStore], by simp [safeLoad, safeStore, icls, icls_fk]⟩
        · split at hd <;> simp only [List.mem_cons, List.not_mem_nil, or_false] at hd <;>
            rcases hd with rfl | rfl <;> exact ⟨by simp [rawLoad, rawStore], by simp [rawLoad, rawStore, icls, icls_fk]; rfl⟩
      · rcases List.mem_append.mp hd with hd | hd
        · simp only [List.mem_cons, List.not_mem_nil, or_false] at hd
          rcases hd with rfl | rfl <;> exact ⟨by simp [safeLoad, safeStore], rfl⟩
        · split at hd <;> simp only [List.mem_cons, List.not_mem_nil, or_false] at hd <;>
            rcases hd with rfl | rfl <;> exact ⟨by simp [rawLoad, rawStore], rfl⟩
    rw [grp_mem this.1, this.2]; rfl
  · intro d hd
    unfold fpExtractDecls at hd
    split at hd
    · obtain ⟨k, _, rfl⟩ := List.mem_map.mp hd
      show grp ⟨"$extractvalue", _⟩ = _
      rw [grp_ex]; simp [icls, icls_fk]
    · rw [List.mem_singleton.mp hd]
      show grp ⟨"$extractvalue", _⟩ = _
      rw [grp_ex]; rfl

theorem decls_distinct : Distinct (decls m) := by
  refine numbered_distinct groups_numbered ?_
  intro g hg
  simp only [groups, List.mem_cons, List.not_mem_nil, or_false] at hg
  rcases hg with rfl | rfl | rfl | rfl | rfl | rfl | rfl | rfl | rfl | rfl | rfl | rfl | rfl | rfl | rfl | rfl | rfl | rfl | rfl
  · exact distinct_one _
  · exact bvInt_distinct
  · exact arith_distinct
  · exact pred_distinct
  · exact mem_distinct
  · exact conv_distinct
  · exact extract_distinct
  · exact ptrArith_distinct
  · exact ptrPred_distinct
  · exact ptrMem_distinct
  · exact ptrConv_distinct
  · exact ptrNum_distinct
  · exact fpCtor_distinct
  · exact fpArith_distinct
  · exact fpPred_distinct
  · exact fpInt_distinct
  · exact fpConv_distinct
  · exact fpMem_distinct
  · exact fpExtract_distinct

theorem distinct_eq : ∀ {l : List Fun}, Distinct l → ∀ {d e : Fun}, d ∈ l → e ∈ l → d.sym = e.sym → d = e
  | x :: l, h, d, e, hd, he, eq => by
    obtain ⟨h1, h2⟩ := List.pairwise_cons.mp h
    rcases List.mem_cons.mp hd with rfl | hd <;> rcases List.mem_cons.mp he with rfl | he
    · rfl
    · exact absurd eq (h1 _ he)
    · exact absurd eq.symm (h1 _ ‹_›)
    · exact distinct_eq h2 hd he eq

/-! ### Printed names -/

/-- Component that occurs in function names. -/
def Comp.simple : Comp → Bool
  | .ty (.fpB _ _) | .ty (.map _) => false
  | _ => true

theorem dec_inj {a b : Nat} (h : dec a = dec b) : a = b := by
  have h1 := Nat.ofDigitChars_toDigits (b := 10) (n := a) (by decide) (by decide)
  have h2 := Nat.ofDigitChars_toDigits (b := 10) (n := b) (by decide) (by decide)
  unfold dec at h
  rw [h, h2] at h1
  exact h1.symm

theorem dec_digit {n : Nat} {c : Char} (hc : c ∈ dec n) : c.isDigit = true :=
  Nat.isDigit_of_mem_toDigits (b := 10) (by decide) (by decide) hc

theorem dec_ne_nil (n : Nat) : dec n ≠ [] := by
  intro h
  have := Nat.length_toDigits_pos (b := 10) (n := n)
  unfold dec at h; rw [h] at this; simp at this

/-- A text with a letter at some place is not a number. -/
theorem dec_ne {n : Nat} {c : Char} {l : List Char} (hc : c.isDigit = false) : dec n ≠ c :: l := by
  intro h
  have := dec_digit (n := n) (c := c) (by rw [h]; exact .head _)
  rw [hc] at this; cases this

/-- Components with a fixed text. -/
def fixedComps : List (List Char × Comp) :=
  [Comp.ty .ref, .ty .half, .ty .single, .ty .double, .ty .longdouble, .ty .ufloat, .ty .bool, .ty .int, .ty .rmode, .bytes, .unsf].map
    fun c => (c.text, c)

/-- Reads a component back from its text. -/
def parseComp (l : List Char) : Comp :=
  match fixedComps.lookup l with
  | some c => c
  | none =>
    match l with
    | 'i' :: r => .ty (.i (Nat.ofDigitChars 10 r 0))
    | 'b' :: 'v' :: r => .ty (.bv (Nat.ofDigitChars 10 r 0))
    | r => .num (Nat.ofDigitChars 10 r 0)

theorem ofDec (n : Nat) : Nat.ofDigitChars 10 (dec n) 0 = n := Nat.ofDigitChars_toDigits (b := 10) (n := n) (by decide) (by decide)

theorem lookup_none {l : List (List Char × Comp)} {x : List Char} (h : ∀ p ∈ l, x ≠ p.1) : l.lookup x = none := by
  induction l with
  | nil => rfl
  | cons p l ih =>
    have : (x == p.1) = false := by simpa using h p (.head _)
    rw [List.lookup_cons, this]
    exact ih fun q hq => h q (.tail _ hq)

theorem dec_cons (n : Nat) : ∃ c l, dec n = c :: l ∧ c.isDigit = true := by
  cases h : dec n with
  | nil => exact absurd h (dec_ne_nil n)
  | cons c l => exact ⟨c, l, rfl, dec_digit (n := n) (by rw [h]; exact .head _)⟩

theorem fixed_first : ∀ p ∈ fixedComps, ∀ c l, p.1 = c :: l → c.isDigit = false := by
  have : ∀ p ∈ fixedComps, ∃ c l, p.1 = c :: l ∧ c.isDigit = false := by
    intro p hp
    simp only [fixedComps, List.map_cons, List.map_nil, List.mem_cons, List.not_mem_nil, or_false] at hp
    rcases hp with rfl | rfl | rfl | rfl | rfl | rfl | rfl | rfl | rfl | rfl | rfl <;> exact ⟨_, _, rfl, rfl⟩
  intro p hp c l h
  obtain ⟨c', l', h', hc⟩ := this p hp
  rw [h] at h'; cases h'; exact hc

theorem fixed_second : ∀ p ∈ fixedComps, ∀ c l, p.1 = 'i' :: c :: l → c.isDigit = false := by
  intro p hp c l h
  simp only [fixedComps, List.map_cons, List.map_nil, List.mem_cons, List.not_mem_nil, or_false] at hp
  rcases hp with rfl | rfl | rfl | rfl | rfl | rfl | rfl | rfl | rfl | rfl | rfl <;> cases h <;> rfl

theorem fixed_third : ∀ p ∈ fixedComps, ∀ c l, p.1 = 'b' :: 'v' :: c :: l → c.isDigit = false := by
  intro p hp c l h
  simp only [fixedComps, List.map_cons, List.map_nil, List.mem_cons, List.not_mem_nil, or_false] at hp
  rcases hp with rfl | rfl | rfl | rfl | rfl | rfl | rfl | rfl | rfl | rfl | rfl <;> cases h <;> rfl

theorem parse_num (n : Nat) : parseComp (Comp.num n).text = .num n := by
  obtain ⟨c, l, hc, hd⟩ := dec_cons n
  have hn : fixedComps.lookup (c :: l) = none := lookup_none fun p hp e => by
    have := fixed_first p hp c l e.symm; rw [hd] at this; cases this
  show parseComp (dec n) = _
  unfold parseComp
  rw [hc, hn]
  have h1 : c ≠ 'i' := by rintro rfl; cases hd
  have h2 : c ≠ 'b' := by rintro rfl; cases hd
  have e := ofDec n
  rw [hc] at e
  split
  · rename_i he; cases he
  · split
    · rename_i heq; cases heq; exact absurd rfl h1
    · rename_i heq; cases heq; exact absurd rfl h2
    · rw [e]

theorem parse_i (n : Nat) : parseComp (Comp.ty (.i n)).text = .ty (.i n) := by
  obtain ⟨c, l, hc, hd⟩ := dec_cons n
  have hn : fixedComps.lookup ('i' :: dec n) = none := lookup_none fun p hp e => by
    rw [hc] at e
    have := fixed_second p hp c l e.symm; rw [hd] at this; cases this
  show parseComp ('i' :: dec n) = _
  unfold parseComp
  rw [hn]
  show Comp.ty (.i (Nat.ofDigitChars 10 (dec n) 0)) = _
  rw [ofDec]

theorem parse_bv (n : Nat) : parseComp (Comp.ty (.bv n)).text = .ty (.bv n) := by
  obtain ⟨c, l, hc, hd⟩ := dec_cons n
  have hn : fixedComps.lookup ('b' :: 'v' :: dec n) = none := lookup_none fun p hp e => by
    rw [hc] at e
    have := fixed_third p hp c l e.symm; rw [hd] at this; cases this
  show parseComp ('b' :: 'v' :: dec n) = _
  unfold parseComp
  rw [hn]
  show Comp.ty (.bv (Nat.ofDigitChars 10 (dec n) 0)) = _
  rw [ofDec]

theorem parse_text {c : Comp} (hc : c.simple = true) : parseComp c.text = c := by
  cases c with
  | num n => exact parse_num n
  | bytes => rfl
  | unsf => rfl
  | ty t => cases t <;> first | (cases hc; done) | exact parse_i _ | exact parse_bv _ | rfl

theorem comp_text_inj {a b : Comp} (ha : a.simple = true) (hb : b.simple = true) (h : a.text = b.text) : a = b := by
  rw [← parse_text ha, ← parse_text hb, h]

theorem comp_nodot {c : Comp} (hc : c.simple = true) : ∀ x ∈ c.text, x ≠ '.' := by
  have hd : ∀ n, ∀ x ∈ dec n, x ≠ '.' := fun n x hx e => by subst e; cases dec_digit hx
  cases c with
  | num n => exact hd n
  | bytes => decide
  | unsf => decide
  | ty t =>
    cases t with
    | i n =>
      intro x hx
      rcases List.mem_cons.mp hx with rfl | hx
      · decide
      · exact hd n x hx
    | bv n =>
      intro x hx
      rcases List.mem_cons.mp hx with rfl | hx
      · decide
      · rcases List.mem_cons.mp hx with rfl | hx
        · decide
        · exact hd n x hx
    | fpB => cases hc
    | map => cases hc
    | _ => decide

theorem split_eq {x x' r r' : List Char} (hx : ∀ c ∈ x, c ≠ '.') (hx' : ∀ c ∈ x', c ≠ '.') (hr : r = [] ∨ ∃ t, r = '.' :: t)
    (hr' : r' = [] ∨ ∃ t, r' = '.' :: t) (h : x ++ r = x' ++ r') : x = x' ∧ r = r' := by
  induction x generalizing x' with
  | nil =>
    cases x' with
    | nil => exact ⟨rfl, h⟩
    | cons c x' =>
      rcases hr with rfl | ⟨t, rfl⟩
      · cases h
      · cases h; exact absurd rfl (hx' '.' (.head _))
  | cons c x ih =>
    cases x' with
    | nil =>
      rcases hr' with rfl | ⟨t, rfl⟩
      · cases h
      · cases h; exact absurd rfl (hx '.' (.head _))
    | cons c' x' =>
      obtain ⟨h1, h2⟩ := List.cons.inj h
      obtain ⟨h3, h4⟩ := ih (fun c hc => hx c (.tail _ hc)) (fun c hc => hx' c (.tail _ hc)) h2
      exact ⟨by rw [h1, h3], h4⟩

theorem idx_shape (l : List Comp) : (l.flatMap fun c => '.' :: c.text) = [] ∨ ∃ t, (l.flatMap fun c => '.' :: c.text) = '.' :: t := by
  cases l with
  | nil => exact .inl rfl
  | cons c l => exact .inr ⟨_, rfl⟩

theorem idx_inj : ∀ {l l' : List Comp}, (∀ c ∈ l, c.simple = true) → (∀ c ∈ l', c.simple = true) →
    (l.flatMap fun c => '.' :: c.text) = (l'.flatMap fun c => '.' :: c.text) → l = l'
  | [], [], _, _, _ => rfl
  | [], _ :: _, _, _, h => by cases h
  | _ :: _, [], _, _, h => by cases h
  | c :: l, c' :: l', h1, h2, h => by
    rw [List.flatMap_cons, List.flatMap_cons] at h
    have h := (List.cons.inj h).2
    obtain ⟨e1, e2⟩ := split_eq (comp_nodot (h1 c (.head _))) (comp_nodot (h2 c' (.head _))) (idx_shape l) (idx_shape l') h
    rw [comp_text_inj (h1 c (.head _)) (h2 c' (.head _)) e1, idx_inj (fun c hc => h1 c (.tail _ hc)) (fun c hc => h2 c (.tail _ hc)) e2]

/-- Names as used in the prelude. -/
structure Sym.Plain (s : Sym) : Prop where
  base : '.' ∉ s.base.toList
  idx : ∀ c ∈ s.idx, c.simple = true

theorem text_inj {s t : Sym} (hs : s.Plain) (ht : t.Plain) (h : s.text = t.text) : s = t := by
  obtain ⟨b, i⟩ := s
  obtain ⟨b', i'⟩ := t
  unfold Sym.text at h
  obtain ⟨e1, e2⟩ := split_eq (fun c hc e => hs.base (e ▸ hc)) (fun c hc e => ht.base (e ▸ hc)) (idx_shape i) (idx_shape i') h
  have hi : i = i' := idx_inj hs.idx ht.idx e2
  have hb : b = b' := String.toList_injective e1
  rw [hb, hi]

def otherNames : List String :=
  ["$isExternal", "$int2bv", "$bv2uint", "$bv2int", "$load", "$store", "$trunc", "$sext", "$zext", "$extractvalue", "$bitcast", "$p2i",
    "$i2p", "$fp", "$fpext", "$fptrunc", "$fp2si", "$fp2ui", "$si2fp", "$ui2fp"]

def allNames : List String := arithNames ++ predNames ++ otherNames ++ fpArithNames ++ fpPredNames

theorem nodot_all : ∀ b ∈ allNames, '.' ∉ b.toList := by decide +kernel

theorem plain_of {s : Sym} (hb : s.base ∈ allNames) (hi : ∀ c ∈ s.idx, c.simple = true) : s.Plain := ⟨nodot_all _ hb, hi⟩

theorem simple_int (n : Nat) : (Comp.ty (intT m n)).simple = true := by cases h : m.bp <;> simp [intT, h, Comp.simple]

theorem simple_fk (k : FK) : (Comp.ty k.name).simple = true := by cases k <;> rfl

theorem all1 {a : Comp} (h : a.simple = true) : ∀ c ∈ [a], c.simple = true := by simpa using h
theorem all2 {a b : Comp} (h : a.simple = true) (h' : b.simple = true) : ∀ c ∈ [a, b], c.simple = true := by simp [h, h']

theorem in_arith {b : String} (h : b ∈ arithNames) : b ∈ allNames := by simp [allNames, h]
theorem in_pred {b : String} (h : b ∈ predNames) : b ∈ allNames := by simp [allNames, h]
theorem in_other {b : String} (h : b ∈ otherNames) : b ∈ allNames := by simp [allNames, h]
theorem in_fpArith {b : String} (h : b ∈ fpArithNames) : b ∈ allNames := by simp [allNames, h]
theorem in_fpPred {b : String} (h : b ∈ fpPredNames) : b ∈ allNames := by simp [allNames, h]

theorem decls_plain {d : Fun} (hd : d ∈ decls m) : d.sym.Plain := by
  obtain ⟨g, hg, hd⟩ := List.mem_flatten.mp hd
  simp only [groups, List.mem_cons, List.not_mem_nil, or_false] at hg
  have oth : ∀ {b : String}, b ∈ ["$load", "$store"] → b ∈ allNames := fun h => in_other (by
    have : ∀ b ∈ ["$load", "$store"], b ∈ otherNames := by decide
    exact this _ h)
  rcases hg with rfl | rfl | rfl | rfl | rfl | rfl | rfl | rfl | rfl | rfl | rfl | rfl | rfl | rfl | rfl | rfl | rfl | rfl | rfl
  · rw [List.mem_singleton.mp hd]; exact plain_of (in_other (by decide)) (by simp)
  · unfold bvIntDecls at hd
    rcases List.mem_append.mp hd with hd | hd
    · rw [List.mem_singleton.mp hd]; exact plain_of (in_other (show "$int2bv" ∈ _ by decide)) (all1 rfl)
    · split at hd
      · simp only [List.mem_cons, List.not_mem_nil, or_false] at hd
        rcases hd with rfl | rfl
        · exact plain_of (in_other (show "$bv2uint" ∈ _ by decide)) (all1 rfl)
        · exact plain_of (in_other (show "$bv2int" ∈ _ by decide)) (all1 rfl)
      · rw [List.mem_singleton.mp hd]; exact plain_of (in_other (show "$bv2int" ∈ _ by decide)) (all1 rfl)
  · obtain ⟨o, ho, hd⟩ := List.mem_flatMap.mp hd
    obtain ⟨n, hn, hd⟩ := List.mem_flatMap.mp hd
    have : "$" ++ o.name ∈ arithNames := by rw [← arithTable_names (m := m)]; exact List.mem_map_of_mem (f := fun o => "$" ++ o.name) ho
    rcases arith_sym hd with e | e <;> rw [e] <;> exact plain_of (in_arith this) (all1 rfl)
  · obtain ⟨o, ho, hd⟩ := List.mem_flatMap.mp hd
    obtain ⟨n, hn, hd⟩ := List.mem_flatMap.mp hd
    have : "$" ++ o.name ∈ predNames := by rw [← predTable_names (m := m)]; exact List.mem_map_of_mem (f := fun o => "$" ++ o.name) ho
    obtain ⟨hb, hi⟩ := pred_sym hd
    refine plain_of (by rw [hb]; exact in_pred this) ?_
    rcases hi with e | e | e | e <;> rw [e]
    · exact all2 rfl rfl
    · exact all1 rfl
    · exact all2 rfl rfl
    · exact all1 rfl
  · obtain ⟨n, hn, hd⟩ := List.mem_flatMap.mp hd
    obtain ⟨hb, hi⟩ := mem_sym hd
    refine plain_of (oth hb) ?_
    rcases hi with e | e | e <;> rw [e]
    · exact all1 rfl
    · exact all1 rfl
    · exact all2 rfl rfl
  · have hb := conv_sym hd
    have : ∀ b ∈ ["$trunc", "$sext", "$zext"], b ∈ otherNames := by decide
    refine plain_of (in_other (this _ hb)) ?_
    unfold convDecls at hd
    rw [List.mem_append, List.mem_append, List.mem_map, List.mem_map, List.mem_map] at hd
    rcases hd with (⟨p, _, rfl⟩ | ⟨p, _, rfl⟩) | ⟨p, _, rfl⟩ <;> cases hb : m.bp <;> simp [convTrunc, convExt, hb, Comp.simple]
  · obtain ⟨n, hn, rfl⟩ := List.mem_map.mp hd
    exact plain_of (in_other (show "$extractvalue" ∈ _ by decide)) (all1 (simple_int n))
  · obtain ⟨op, hop, rfl⟩ := List.mem_map.mp hd
    have : ∀ b ∈ ["$add", "$sub", "$mul"], b ∈ arithNames := by decide
    exact plain_of (in_arith (this _ hop)) (all1 rfl)
  · obtain ⟨o, ho, hd⟩ := List.mem_flatMap.mp hd
    have hf := (ptrPred_name ho).1
    simp only [List.mem_cons, List.not_mem_nil, or_false] at hd
    rcases hd with rfl | rfl
    · exact plain_of (in_pred hf) (all2 rfl rfl)
    · exact plain_of (in_pred hf) (all1 rfl)
  · unfold ptrMemDecls at hd
    rcases List.mem_append.mp hd with hd | hd
    · split at hd
      · simp only [List.mem_cons, List.not_mem_nil, or_false] at hd
        rcases hd with rfl | rfl <;> exact plain_of (oth (by simp [rawLoad, rawStore])) (all2 rfl rfl)
      · cases hd
    · simp only [List.mem_cons, List.not_mem_nil, or_false] at hd
      rcases hd with rfl | rfl <;> exact plain_of (oth (by simp [safeLoad, safeStore])) (all1 rfl)
  · simp only [ptrConvDecls, List.mem_cons, List.not_mem_nil, or_false] at hd
    rcases hd with rfl | rfl
    · exact plain_of (in_other (show "$bitcast" ∈ _ by decide)) (all2 rfl rfl)
    · exact plain_of (in_other (show "$extractvalue" ∈ _ by decide)) (all1 rfl)
  · obtain ⟨n, hn, hd⟩ := List.mem_flatMap.mp hd
    simp only [List.mem_cons, List.not_mem_nil, or_false] at hd
    rcases hd with rfl | rfl
    · exact plain_of (in_other (show "$p2i" ∈ _ by decide)) (all2 rfl (simple_int n))
    · exact plain_of (in_other (show "$i2p" ∈ _ by decide)) (all2 (simple_int n) rfl)
  · unfold fpCtorDecls at hd
    split at hd
    · cases hd
    · rw [List.mem_singleton.mp hd]; exact plain_of (in_other (show "$fp" ∈ _ by decide)) (by simp)
  · obtain ⟨o, ho, hd⟩ := List.mem_flatMap.mp hd
    have : ∀ o ∈ fpArithTable, o.1 ∈ fpArithNames := by decide
    refine plain_of (in_fpArith (by rw [fpArith_base hd]; exact this o ho)) ?_
    split at hd
    · obtain ⟨k, _, rfl⟩ := List.mem_map.mp hd; exact all1 (simple_fk k)
    · rw [List.mem_singleton.mp hd]; exact all1 rfl
  · refine plain_of (in_fpPred (fpPred_base hd)) ?_
    obtain ⟨o, ho, hd⟩ := List.mem_flatMap.mp hd
    split at hd
    · obtain ⟨k, _, rfl⟩ := List.mem_map.mp hd; exact all2 (simple_fk k) rfl
    · split at hd
      · rw [List.mem_singleton.mp hd]; exact all2 rfl rfl
      · cases hd
  · have key : ∃ c ∈ fpIntTable, ∃ t n rm a, (Comp.ty t).simple = true ∧ d = c.decl m t n rm a := by
      obtain ⟨c, hc, hd⟩ := List.mem_flatMap.mp hd
      split at hd
      · obtain ⟨k, _, hd⟩ := List.mem_flatMap.mp hd
        obtain ⟨n, hn, hd⟩ := List.mem_flatMap.mp hd
        split at hd
        · exact ⟨c, hc, _, _, _, _, simple_fk k, List.mem_singleton.mp hd⟩
        · cases hd
      · obtain ⟨n, hn, hd⟩ := List.mem_flatMap.mp hd
        split at hd
        · exact ⟨c, hc, _, _, _, _, rfl, List.mem_singleton.mp hd⟩
        · cases hd
    obtain ⟨c, hc, t, n, rm, a, ht, rfl⟩ := key
    have nm : c.name ∈ otherNames := by
      simp only [fpIntTable, List.mem_cons, List.not_mem_nil, or_false] at hc
      rcases hc with rfl | rfl | rfl | rfl | rfl | rfl <;> simp [otherNames]
    refine plain_of (in_other nm) ?_
    cases hf : c.f2i <;> simp [FpIntConv.decl, hf, ht, simple_int]
  · unfold fpConvDecls at hd
    split at hd
    · obtain ⟨s, _, hd⟩ := List.mem_flatMap.mp hd
      obtain ⟨e, _, hd⟩ := List.mem_flatMap.mp hd
      split at hd
      · rw [List.mem_singleton.mp hd]
        refine plain_of (in_other ?_) (all2 (simple_fk s) (simple_fk e))
        by_cases h : s.width < e.width <;> simp [h, otherNames]
      · cases hd
    · simp only [List.mem_cons, List.not_mem_nil, or_false] at hd
      rcases hd with rfl | rfl
      · exact plain_of (in_other (show "$fpext" ∈ _ by decide)) (all2 rfl rfl)
      · exact plain_of (in_other (show "$fptrunc" ∈ _ by decide)) (all2 rfl rfl)
  · unfold fpMemDecls at hd
    split at hd
    · obtain ⟨k, _, hd⟩ := List.mem_flatMap.mp hd
      dsimp only at hd
      rcases List.mem_append.mp hd with hd | hd
      · simp only [List.mem_cons, List.not_mem_nil, or_false] at hd
        rcases hd with rfl | rfl <;> exact plain_of (oth (by simp [safeLoad, safeStore])) (all1 (simple_fk k))
      · split at hd <;> simp only [List.mem_cons, List.not_mem_nil, or_false] at hd <;>
          rcases hd with rfl | rfl <;> exact plain_of (oth (by simp [rawLoad, rawStore])) (all2 rfl (simple_fk k))
    · rcases List.mem_append.mp hd with hd | hd
      · simp only [List.mem_cons, List.not_mem_nil, or_false] at hd
        rcases hd with rfl | rfl <;> exact plain_of (oth (by simp [safeLoad, safeStore])) (all1 rfl)
      · split at hd <;> simp only [List.mem_cons, List.not_mem_nil, or_false] at hd <;>
          rcases hd with rfl | rfl <;> exact plain_of (oth (by simp [rawLoad, rawStore])) (all2 rfl rfl)
  · unfold fpExtractDecls at hd
    split at hd
    · obtain ⟨k, _, rfl⟩ := List.mem_map.mp hd
      exact plain_of (in_other (show "$extractvalue" ∈ _ by decide)) (all1 (simple_fk k))
    · rw [List.mem_singleton.mp hd]; exact plain_of (in_other (show "$extractvalue" ∈ _ by decide)) (all1 rfl)

end Smack.PreludeTy
