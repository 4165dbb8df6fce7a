import Verif.PreludeTy.Typing

namespace Smack.PreludeTy

variable {m : Mode}

/-- A number that decreases along calls. -/
def rank (s : Sym) : Nat :=
  if s.base ∈ ["$tou", "$tos"] then 1
  else if s.base ∈ predNames then
    (match s.idx with
    | [.ty .ref, .ty .bool] => 6
    | [.ty .ref] => 7
    | [_, .ty .bool] => 2
    | _ => 3)
  else if s.base ∈ ["$smin", "$smax", "$umin", "$umax", "$bv2int"] then 3
  else if s.base ∈ ["$srem", "$urem", "$sdiv", "$udiv"] then 4
  else if s.base ∈ arNames then (if s.idx = [.ty .ref] then 5 else 0)
  else if s.base ∈ ["$trunc", "$zext", "$sext"] then 2
  else if s.base ∈ ["$p2i", "$i2p"] then 5
  else if s.base ∈ ["$load", "$store"] then
    (match s.idx with
    | [.bytes, .ty (.bv _)] => 6
    | [.ty _] => 6
    | _ => 7)
  else if s.base = "$isExternal" then 8
  else if s.base = "$funo" then 1
  else if s.base ∈ ["$ford", "$fueq", "$fugt", "$fuge", "$fult", "$fule"] then 2
  else if s.base = "$fone" then 3
  else if s.base = "$fune" then 4
  else 0

/-- The functions applied in an expression have smaller ranks. -/
def Low (k : Nat) (e : Ex) : Prop := ∀ f ∈ e.calls, rank f < k
def Lows (k : Nat) (es : List Ex) : Prop := ∀ f ∈ callsAll es, rank f < k

theorem low_nil {k : Nat} : Lows k [] := by intro f h; cases h
theorem low_cons {k : Nat} {e : Ex} {es : List Ex} (h : Low k e) (hs : Lows k es) : Lows k (e :: es) := by
  intro f hf
  simp only [callsAll, List.mem_append] at hf
  rcases hf with hf | hf
  · exact h f hf
  · exact hs f hf
theorem low_var {k : Nat} {x : String} : Low k (v x) := by intro f h; simp [v, Ex.calls] at h
theorem low_int {k n : Nat} : Low k (.int n) := by intro f h; simp [Ex.calls] at h
theorem low_negInt {k n : Nat} : Low k (.negInt n) := by intro f h; simp [Ex.calls] at h
theorem low_bv {k n w : Nat} : Low k (.bv n w) := by intro f h; simp [Ex.calls] at h
theorem low_bool {k : Nat} {b : Bool} : Low k (.bool b) := by intro f h; simp [Ex.calls] at h
theorem low_fn {k : Nat} {s : Sym} {es : List Ex} (h : rank s < k) (hs : Lows k es) : Low k (.fn s es) := by
  intro f hf
  simp only [Ex.calls, List.mem_cons] at hf
  rcases hf with rfl | hf
  · exact h
  · exact hs f hf
theorem low_fn1 {k : Nat} {s : Sym} {a : Ex} (h : rank s < k) (ha : Low k a) : Low k (.fn s [a]) := low_fn h (low_cons ha low_nil)
theorem low_fn2 {k : Nat} {s : Sym} {a b : Ex} (h : rank s < k) (ha : Low k a) (hb : Low k b) : Low k (.fn s [a, b]) :=
  low_fn h (low_cons ha (low_cons hb low_nil))
theorem low_fn3 {k : Nat} {s : Sym} {a b c : Ex} (h : rank s < k) (ha : Low k a) (hb : Low k b) (hc : Low k c) : Low k (.fn s [a, b, c]) :=
  low_fn h (low_cons ha (low_cons hb (low_cons hc low_nil)))
theorem low_bin {k : Nat} {op : Bin} {a b : Ex} (ha : Low k a) (hb : Low k b) : Low k (.bin op a b) := by
  intro f hf
  simp only [Ex.calls, List.mem_append] at hf
  exact hf.elim (ha f) (hb f)
theorem low_concat {k : Nat} {a b : Ex} (ha : Low k a) (hb : Low k b) : Low k (.concat a b) := by
  intro f hf
  simp only [Ex.calls, List.mem_append] at hf
  exact hf.elim (ha f) (hb f)
theorem low_sel {k : Nat} {a b : Ex} (ha : Low k a) (hb : Low k b) : Low k (.sel a b) := by
  intro f hf
  simp only [Ex.calls, List.mem_append] at hf
  exact hf.elim (ha f) (hb f)
theorem low_not {k : Nat} {a : Ex} (ha : Low k a) : Low k (.not a) := by
  intro f hf; exact ha f (by simpa [Ex.calls] using hf)
theorem low_extract {k i j : Nat} {a : Ex} (ha : Low k a) : Low k (.extract a i j) := by
  intro f hf; exact ha f (by simpa [Ex.calls] using hf)
theorem low_ite {k : Nat} {a b c : Ex} (ha : Low k a) (hb : Low k b) (hc : Low k c) : Low k (.ite a b c) := by
  intro f hf
  simp only [Ex.calls, List.mem_append] at hf
  exact hf.elim (fun hf => hf.elim (ha f) (hb f)) (hc f)
theorem low_upd {k : Nat} {a b c : Ex} (ha : Low k a) (hb : Low k b) (hc : Low k c) : Low k (.upd a b c) := by
  intro f hf
  simp only [Ex.calls, List.mem_append] at hf
  exact hf.elim (fun hf => hf.elim (ha f) (hb f)) (hc f)

macro "rk" : tactic => `(tactic| (simp [rank, predNames, arNames]))

theorem low_wrapped {k n : Nat} {e : Ex} (u : Bool) (hk : 1 < k) (he : Low k e) : Low k (wrapped m n e u) := by
  unfold wrapped; split
  · refine low_fn1 ?_ he
    cases u <;> simpa [rank] using hk
  · exact he

theorem low_pLit {k n : Nat} : Low k (pLit m n) := by
  unfold pLit; split
  · exact low_bv
  · exact low_int

theorem low_iLit {k n w : Nat} : Low k (iLit m n w) := by
  unfold iLit; split
  · exact low_bv
  · exact low_int

/-- The body of a declaration calls functions of smaller rank. -/
def DeclLow (d : Fun) : Prop := ∀ b, d.body = some b → Low (rank d.sym) b

theorem dl_none {d : Fun} (h : d.body = none) : DeclLow d := by intro b hb; rw [h] at hb; cases hb

theorem dl_declare {k : OpKind} {n : Nat} {s : Sym} {ps : List (String × TName)} {r : TName} {d : Fun}
    (hd : d ∈ declare k n s ps r) (hk : ∀ b, k = .inlined b → Low (rank s) (b n)) : DeclLow d := by
  cases k with
  | absent => cases hd
  | builtin a => rw [List.mem_singleton.mp hd]; exact dl_none rfl
  | inlined b => rw [List.mem_singleton.mp hd]; intro b' hb; cases hb; exact hk _ rfl
  | uninterpreted => rw [List.mem_singleton.mp hd]; exact dl_none rfl

theorem arith_low {d : Fun} (hd : d ∈ arithDecls m) : DeclLow d := by
  obtain ⟨o, ho, hd⟩ := List.mem_flatMap.mp hd
  obtain ⟨n, hn, hd⟩ := List.mem_flatMap.mp hd
  have row : (∀ b, o.intOp = .inlined b → Low (rank ⟨"$" ++ o.name, [.ty (.i n)]⟩) (b n)) ∧
      (∀ b, o.bvOp = .inlined b → Low (rank ⟨"$" ++ o.name, [.ty (.bv n)]⟩) (b n)) := by
    simp only [arithTable, List.mem_cons, List.not_mem_nil, or_false] at ho
    have ar : ∀ {k : Nat} (op : Bin), Low k (intArith op n) := fun op => low_bin low_var low_var
    have mi : ∀ a b, Low 3 (intMinMax a b n) := by
      intro a b; refine low_ite (low_fn2 ?_ low_var low_var) low_var low_var
      cases a <;> cases b <;> rk
    have mb : ∀ a b, Low 3 (bvMinMax a b n) := by
      intro a b; refine low_ite (low_fn2 ?_ low_var low_var) low_var low_var
      cases a <;> cases b <;> rk
    have dv : ∀ s, Low 4 (divBody m s n) := fun s => low_fn2 (by rk) (low_wrapped _ (by decide) low_var) (low_wrapped _ (by decide) low_var)
    have to' : Low 1 (tosBody n) := by
      refine low_ite (low_bin (low_bin low_var low_negInt) (low_bin low_var low_int)) low_var
        (low_fn2 (by rk) (low_fn2 (by rk) (low_fn2 (by rk) low_var low_int) low_int) low_int)
    have tu : Low 1 (touBody n) := by
      exact low_ite (low_bin (low_bin low_var low_int) (low_bin low_var low_int)) low_var (low_fn2 (by rk) low_var low_int)
    have sr : Low 4 (sremBody m n) := by
      have hw : ∀ x, Low 4 (wrapped m n (v x) false) := fun x => low_wrapped _ (by decide) low_var
      have md := low_fn2 (k := 4) (s := ⟨"$smod", [.ty (.i n)]⟩) (by rk) (hw "i1") (hw "i2")
      exact low_ite (low_bin (low_fn2 (by rk) md low_int) (low_fn2 (by rk) (hw "i1") low_int))
        (low_fn2 (by rk) md (low_fn2 (by rk) (hw "i2") (low_fn2 (by rk) low_int (hw "i2")))) md
    have ur : Low 4 (uremBody m n) := low_fn2 (by rk) (low_wrapped _ (by decide) low_var) (low_wrapped _ (by decide) low_var)
    have wr : ∀ {f b : Nat → Ex} {k : Nat}, Low k (f n) → (if m.wrap = true then OpKind.inlined f else .absent) = .inlined b → Low k (b n) := by
      intro f b k hf e
      split at e
      · cases e; exact hf
      · cases e
    rcases ho with rfl | rfl | rfl | rfl | rfl | rfl | rfl | rfl | rfl | rfl | rfl | rfl | rfl | rfl | rfl | rfl | rfl | rfl | rfl |
      rfl | rfl | rfl | rfl
    · exact ⟨fun b h => by cases h; exact ar _, fun b h => nomatch h⟩
    · exact ⟨fun b h => by cases h; exact ar _, fun b h => nomatch h⟩
    · exact ⟨fun b h => by cases h; exact ar _, fun b h => nomatch h⟩
    · exact ⟨fun b h => (nomatch h), fun b h => (nomatch h)⟩
    · exact ⟨fun b h => by cases h; exact dv _, fun b h => nomatch h⟩
    · exact ⟨fun b h => by cases h; exact dv _, fun b h => nomatch h⟩
    · exact ⟨fun b h => (nomatch h), fun b h => (nomatch h)⟩
    · exact ⟨fun b h => by cases h; exact sr, fun b h => nomatch h⟩
    · exact ⟨fun b h => by cases h; exact ur, fun b h => nomatch h⟩
    · exact ⟨fun b h => (nomatch h), fun b h => (nomatch h)⟩
    · exact ⟨fun b h => (nomatch h), fun b h => (nomatch h)⟩
    · exact ⟨fun b h => (nomatch h), fun b h => (nomatch h)⟩
    · exact ⟨fun b h => (nomatch h), fun b h => (nomatch h)⟩
    · exact ⟨fun b h => (nomatch h), fun b h => (nomatch h)⟩
    · exact ⟨fun b h => (nomatch h), fun b h => (nomatch h)⟩
    · exact ⟨fun b h => (nomatch h), fun b h => (nomatch h)⟩
    · exact ⟨fun b h => (nomatch h), fun b h => (nomatch h)⟩
    · exact ⟨fun b h => wr to' h, fun b h => nomatch h⟩
    · exact ⟨fun b h => wr tu h, fun b h => nomatch h⟩
    · exact ⟨fun b h => by cases h; exact mi _ _, fun b h => by cases h; exact mb _ _⟩
    · exact ⟨fun b h => by cases h; exact mi _ _, fun b h => by cases h; exact mb _ _⟩
    · exact ⟨fun b h => by cases h; exact mi _ _, fun b h => by cases h; exact mb _ _⟩
    · exact ⟨fun b h => by cases h; exact mi _ _, fun b h => by cases h; exact mb _ _⟩
  unfold ArithOp.funs at hd
  rcases List.mem_append.mp hd with hd | hd
  · split at hd
    · exact dl_declare hd row.1
    · cases hd
  · split at hd
    · exact dl_declare hd row.2
    · cases hd

theorem rank_pred {b : String} (hb : b ∈ predNames) (i : List Comp) : rank ⟨b, i⟩ = rank ⟨"$eq", i⟩ := by
  have : ∀ b ∈ predNames, b ∉ ["$tou", "$tos"] := by decide
  unfold rank
  dsimp only
  rw [if_neg (this b hb), if_pos hb, if_neg (by decide), if_pos (by decide)]

theorem pred_low {d : Fun} (hd : d ∈ predDecls m) : DeclLow d := by
  obtain ⟨o, ho, hd⟩ := List.mem_flatMap.mp hd
  obtain ⟨n, hn, hd⟩ := List.mem_flatMap.mp hd
  obtain ⟨hname, ⟨op, s, hop, hk⟩, hbv⟩ := pred_row ho
  have low : ∀ op s, Low 2 (intPred m op s n) := fun op s => low_bin (low_wrapped _ (by decide) low_var) (low_wrapped _ (by decide) low_var)
  unfold PredOp.funs at hd
  rcases List.mem_append.mp hd with hd | hd
  · split at hd
    · simp only [PredOp.intFuns, List.mem_cons, List.not_mem_nil, or_false] at hd
      rcases hd with rfl | rfl
      · intro b hb; cases hb
        show Low (rank ⟨_, _⟩) _
        rw [rank_pred hname, hop]; exact low _ _
      · intro b hb; cases hb
        show Low (rank ⟨_, _⟩) _
        rw [rank_pred hname]
        refine low_ite (low_fn2 ?_ low_var low_var) low_int low_int
        rw [rank_pred hname]; rk
    · cases hd
  · split at hd
    · rcases List.mem_append.mp hd with hd | hd
      · refine dl_declare hd fun b hb => ?_
        rcases hbv with ⟨a, hbv⟩ | ⟨op, hnm, heq, hbv⟩
        · rw [hbv] at hb; cases hb
        · rw [hbv] at hb; cases hb
          rw [rank_pred hname]; exact low _ _
      · rw [List.mem_singleton.mp hd]
        intro b hb; cases hb
        show Low (rank ⟨_, _⟩) _
        rw [rank_pred hname]
        refine low_ite (low_fn2 ?_ low_var low_var) low_bv low_bv
        rw [rank_pred hname]; rk
    · cases hd

theorem conv_low {d : Fun} (hd : d ∈ convDecls m) : DeclLow d := by
  have ext : ∀ s p, DeclLow (convExt m s p) := by
    intro s p
    unfold convExt
    dsimp only
    split
    · exact dl_none rfl
    · intro b hb; cases hb
      have : rank ⟨if s = true then "$sext" else "$zext", [.ty (.i p.1), .ty (.i p.2)]⟩ = 2 := by cases s <;> rk
      rw [this]; exact low_wrapped _ (by decide) low_var
  unfold convDecls at hd
  rcases List.mem_append.mp hd with hd | hd
  · rcases List.mem_append.mp hd with hd | hd
    · obtain ⟨p, hp, rfl⟩ := List.mem_map.mp hd
      unfold convTrunc; split
      · intro b hb; cases hb; exact low_extract low_var
      · intro b hb; cases hb
        have : rank ⟨"$trunc", [.ty (.i p.2), .ty (.i p.1)]⟩ = 2 := by rk
        rw [this]; exact low_wrapped _ (by decide) low_var
    · obtain ⟨p, hp, rfl⟩ := List.mem_map.mp hd; exact ext true p
  · obtain ⟨p, hp, rfl⟩ := List.mem_map.mp hd; exact ext false p

theorem low_mapSel {k : Nat} (hk : 5 < k) (j : Nat) : Low k (mapSel m j) := by
  refine low_sel low_var ?_
  split
  · exact low_var
  · refine low_fn2 ?_ low_var low_pLit
    have : rank ⟨"$add", [.ty .ref]⟩ = 5 := by decide
    omega

theorem low_mapUpd {k : Nat} (hk : 5 < k) (j : Nat) {x M : Ex} (hx : Low k x) (hM : Low k M) : Low k (mapUpd m j x M) := by
  refine low_upd hM ?_ hx
  split
  · exact low_var
  · refine low_fn2 ?_ low_var low_pLit
    have : rank ⟨"$add", [.ty .ref]⟩ = 5 := by decide
    omega

theorem low_loadBytes : ∀ k, Low 6 (loadBytes m k)
  | 0 => low_mapSel (by decide) 0
  | k + 1 => low_concat (low_mapSel (by decide) _) (low_loadBytes k)

theorem low_storeBytes : ∀ k, Low 6 (storeBytes m k)
  | 0 => low_mapUpd (by decide) 0 (low_extract low_var) low_var
  | k + 1 => low_mapUpd (by decide) _ (low_extract low_var) (low_storeBytes k)

theorem safeLoad_low (t : TName) : DeclLow (safeLoad m t) := by
  intro b hb; cases hb; exact low_mapSel (show 5 < rank ⟨"$load", [.ty t]⟩ by rk) 0
theorem safeStore_low (x : String) (t : TName) : DeclLow (safeStore m x t) := by
  intro b hb; cases hb; exact low_mapUpd (show 5 < rank ⟨"$store", [.ty t]⟩ by rk) 0 low_var low_var

theorem mem_low {d : Fun} (hd : d ∈ memDecls m) : DeclLow d := by
  obtain ⟨n, _, hd⟩ := List.mem_flatMap.mp hd
  have r1 : rank ⟨"$load", [.bytes, .ty (.bv n)]⟩ = 6 := by rk
  have r2 : rank ⟨"$store", [.bytes, .ty (.bv n)]⟩ = 6 := by rk
  have L : ∀ {b}, Low 6 b → DeclLow (rawLoad true (.bv n) b) := by
    intro b hb b' hb'; cases hb'; show Low (rank ⟨"$load", [.bytes, .ty (.bv n)]⟩) _; rw [r1]; exact hb
  have S : ∀ {b}, Low 6 b → DeclLow (rawStore true "i" (.bv n) b) := by
    intro b hb b' hb'; cases hb'; show Low (rank ⟨"$store", [.bytes, .ty (.bv n)]⟩) _; rw [r2]; exact hb
  unfold memFuns at hd
  split at hd
  · rcases List.mem_append.mp hd with hd | hd
    · simp only [List.mem_cons, List.not_mem_nil, or_false] at hd
      rcases hd with rfl | rfl
      · exact safeLoad_low _
      · exact safeStore_low _ _
    · split at hd
      · simp only [List.mem_cons, List.not_mem_nil, or_false] at hd
        rcases hd with rfl | rfl
        · exact L (low_fn1 (by rk) (low_mapSel (by decide) 0))
        · exact S (low_mapUpd (by decide) 0 (low_fn1 (by rk) low_var) low_var)
      · split at hd <;> simp only [List.mem_cons, List.not_mem_nil, or_false] at hd <;> rcases hd with rfl | rfl
        · exact L (low_mapSel (by decide) 0)
        · exact S (low_mapUpd (by decide) 0 low_var low_var)
        · exact L (low_loadBytes _)
        · exact S (low_storeBytes _)
  · simp only [List.mem_cons, List.not_mem_nil, or_false] at hd
    rcases hd with rfl | rfl
    · exact safeLoad_low _
    · exact safeStore_low _ _

theorem bvInt_low {d : Fun} (hd : d ∈ bvIntDecls m) : DeclLow d := by
  unfold bvIntDecls at hd
  rcases List.mem_append.mp hd with hd | hd
  · rw [List.mem_singleton.mp hd]; exact dl_none rfl
  · split at hd
    · simp only [List.mem_cons, List.not_mem_nil, or_false] at hd
      rcases hd with rfl | rfl
      · exact dl_none rfl
      · intro b hb; cases hb
        have : rank ⟨"$bv2int", [.num m.ptr]⟩ = 3 := by rk
        rw [this]
        have u : Low 3 (.fn ⟨"$bv2uint", [.num m.ptr]⟩ [v "i"]) := low_fn1 (by rk) low_var
        exact low_ite (low_fn2 (by rk) low_var low_bv) (low_fn2 (by rk) u low_int) u
    · rw [List.mem_singleton.mp hd]; exact dl_none rfl

theorem rank_ptrT (b : String) (hb : b ∈ arNames) : rank ⟨b, [.ty (ptrT m)]⟩ = 0 := by
  simp only [arNames, List.mem_cons, List.not_mem_nil, or_false] at hb
  unfold ptrT
  rcases hb with rfl | rfl | rfl <;> split <;> rk

theorem low_bitConversion {k : Nat} (hk : 3 < k) {e : Ex} (he : Low k e) (s t : Bool) : Low k (bitConversion m e s t) := by
  unfold bitConversion
  split
  · exact he
  · refine low_fn1 (Nat.lt_of_le_of_lt ?_ hk) he
    cases s <;> rk

theorem ptrNum_low {d : Fun} (hd : d ∈ ptrNumDecls m) : DeclLow d := by
  obtain ⟨n, _, hd⟩ := List.mem_flatMap.mp hd
  simp only [List.mem_cons, List.not_mem_nil, or_false] at hd
  rcases hd with rfl | rfl
  · intro b hb; cases hb
    have : rank ⟨"$p2i", [.ty .ref, .ty (intT m n)]⟩ = 5 := by rk
    rw [this]
    have hb := low_bitConversion (m := m) (k := 5) (by decide) (low_var (x := "p")) m.bpp m.bp
    unfold pointerToInteger
    dsimp only
    split
    · exact low_fn1 (by rk) hb
    · split
      · exact low_fn1 (by rk) hb
      · exact hb
  · intro b hb; cases hb
    have : rank ⟨"$i2p", [.ty (intT m n), .ty .ref]⟩ = 5 := by rk
    rw [this]
    unfold integerToPointer
    dsimp only
    refine low_bitConversion (by decide) ?_ _ _
    split
    · exact low_fn1 (by rk) low_var
    · split
      · exact low_fn1 (by rk) low_var
      · exact low_var

theorem ptr_low {d : Fun} (hd : d ∈ ptrPredDecls m) : DeclLow d := by
  obtain ⟨o, ho, hd⟩ := List.mem_flatMap.mp hd
  have hn : o.1 ∈ predNames := by
    have : ∀ o ∈ ptrPredTable, o.1 ∈ predNames := by decide
    exact this o ho
  have r1 : rank ⟨"$eq", [.ty .ref, .ty .bool]⟩ = 6 := by decide
  have r2 : rank ⟨"$eq", [.ty .ref]⟩ = 7 := by decide
  simp only [List.mem_cons, List.not_mem_nil, or_false] at hd
  rcases hd with rfl | rfl
  · intro b hb; cases hb
    show Low (rank ⟨_, _⟩) _
    rw [rank_pred hn, r1]
    split
    · refine low_fn2 ?_ low_var low_var
      rw [rank_pred hn]
      unfold ptrT; split <;> rk
    · exact low_bin low_var low_var
  · intro b hb; cases hb
    show Low (rank ⟨_, _⟩) _
    rw [rank_pred hn, r2]
    refine low_ite (low_fn2 ?_ low_var low_var) low_iLit low_iLit
    rw [rank_pred hn, r1]; decide

theorem ptrMem_low {d : Fun} (hd : d ∈ ptrMemDecls m) : DeclLow d := by
  unfold ptrMemDecls at hd
  rcases List.mem_append.mp hd with hd | hd
  · split at hd
    · simp only [List.mem_cons, List.not_mem_nil, or_false] at hd
      rcases hd with rfl | rfl
      · intro b hb; cases hb
        have : rank ⟨"$load", [.bytes, .ty .ref]⟩ = 7 := by decide
        show Low (rank ⟨"$load", [.bytes, .ty .ref]⟩) _
        rw [this]; exact low_fn1 (by rk) (low_fn2 (by rk) low_var low_var)
      · intro b hb; cases hb
        have : rank ⟨"$store", [.bytes, .ty .ref]⟩ = 7 := by decide
        show Low (rank ⟨"$store", [.bytes, .ty .ref]⟩) _
        rw [this]; exact low_fn3 (by rk) low_var low_var (low_fn1 (by rk) low_var)
    · cases hd
  · simp only [List.mem_cons, List.not_mem_nil, or_false] at hd
    rcases hd with rfl | rfl
    · exact safeLoad_low _
    · exact safeStore_low _ _

theorem fpPred_low {d : Fun} (hd : d ∈ fpPredDecls m) : DeclLow d := by
  obtain ⟨o, ho, hd⟩ := List.mem_flatMap.mp hd
  split at hd
  · obtain ⟨k, _, rfl⟩ := List.mem_map.mp hd
    simp only [fpPredTable, List.mem_cons, List.not_mem_nil, or_false] at ho
    have rr : ∀ b, rank ⟨b, [.ty k.name, .ty .bool]⟩ = rank ⟨b, [.ty .single, .ty .bool]⟩ := by
      intro b; cases k <;> simp [rank, FK.name]
    have un : ∀ {j}, 0 < j → Low j (funoBody k) := by
      intro j hj
      have : rank ⟨"$isnan", [.ty k.name, .ty .bool]⟩ < j := by rw [rr]; exact hj
      exact low_bin (low_fn1 this low_var) (low_fn1 this low_var)
    have ng : ∀ {j b}, rank ⟨b, [.ty .single, .ty .bool]⟩ < j → Low j (negBody b k) := by
      intro j b hj; exact low_not (low_fn2 (by rw [rr]; exact hj) low_var low_var)
    have dj : ∀ {j b}, 0 < j → rank ⟨b, [.ty .single, .ty .bool]⟩ < j → Low j (disjBody b k) := by
      intro j b h0 hj; exact low_bin (un h0) (low_fn2 (by rw [rr]; exact hj) low_var low_var)
    intro b hb
    show Low (rank ⟨_, _⟩) _
    rw [rr]
    rcases ho with rfl | rfl | rfl | rfl | rfl | rfl | rfl | rfl | rfl | rfl | rfl | rfl | rfl | rfl | rfl | rfl | rfl | rfl |
      rfl | rfl | rfl | rfl | rfl <;> cases hb <;>
      first
      | exact low_bool
      | exact ng (by decide)
      | exact dj (by decide) (by decide)
      | exact un (by decide)
  · split at hd
    · rw [List.mem_singleton.mp hd]; exact dl_none rfl
    · cases hd

theorem fpMem_low {d : Fun} (hd : d ∈ fpMemDecls m) : DeclLow d := by
  have r : ∀ c t, c ∈ [Comp.bytes, .unsf] → t ∈ [TName.half, .single, .double, .longdouble, .ufloat] →
      rank ⟨"$load", [c, .ty t]⟩ = 7 ∧ rank ⟨"$store", [c, .ty t]⟩ = 7 := by
    intro c t hc
    have : ∀ c ∈ [Comp.bytes, .unsf], ∀ t ∈ [TName.half, .single, .double, .longdouble, .ufloat],
      rank ⟨"$load", [c, .ty t]⟩ = 7 ∧ rank ⟨"$store", [c, .ty t]⟩ = 7 := by decide
    exact this c hc t
  have hc : ∀ b : Bool, (if b then Comp.bytes else .unsf) ∈ [Comp.bytes, .unsf] := by decide
  have hk : ∀ k : FK, k.name ∈ [TName.half, .single, .double, .longdouble, .ufloat] := by intro k; cases k <;> decide
  have hu : TName.ufloat ∈ [TName.half, .single, .double, .longdouble, .ufloat] := by decide
  have L : ∀ {b t} {by' : Bool}, t ∈ [TName.half, .single, .double, .longdouble, .ufloat] → Low 7 b → DeclLow (rawLoad by' t b) := by
    intro b t by' ht hb b' hb'; cases hb'
    show Low (rank ⟨"$load", [if by' then .bytes else .unsf, .ty t]⟩) _
    rw [(r _ _ (hc by') ht).1]; exact hb
  have S : ∀ {b t} {by' : Bool}, t ∈ [TName.half, .single, .double, .longdouble, .ufloat] → Low 7 b → DeclLow (rawStore by' "f" t b) := by
    intro b t by' ht hb b' hb'; cases hb'
    show Low (rank ⟨"$store", [if by' then .bytes else .unsf, .ty t]⟩) _
    rw [(r _ _ (hc by') ht).2]; exact hb
  unfold fpMemDecls at hd
  split at hd
  · obtain ⟨k, _, hd⟩ := List.mem_flatMap.mp hd
    rcases List.mem_append.mp hd with hd | hd
    · simp only [List.mem_cons, List.not_mem_nil, or_false] at hd
      rcases hd with rfl | rfl
      · exact safeLoad_low _
      · exact safeStore_low _ _
    · split at hd <;> simp only [List.mem_cons, List.not_mem_nil, or_false] at hd <;> rcases hd with rfl | rfl
      · exact L (hk k) (low_fn1 (by rk) (low_fn2 (by rk) low_var low_var))
      · exact S (hk k) (low_fn3 (by rk) low_var low_var (low_fn1 (by rk) low_var))
      · exact L (hk k) (low_fn1 (by rk) (low_fn2 (by rk) low_var low_var))
      · exact S (hk k) (low_fn3 (by rk) low_var low_var (low_fn1 (by rk) low_var))
  · rcases List.mem_append.mp hd with hd | hd
    · simp only [List.mem_cons, List.not_mem_nil, or_false] at hd
      rcases hd with rfl | rfl
      · exact safeLoad_low _
      · exact safeStore_low _ _
    · split at hd <;> simp only [List.mem_cons, List.not_mem_nil, or_false] at hd <;> rcases hd with rfl | rfl
      · exact L hu (low_fn1 (by rk) (low_mapSel (by decide) 0))
      · exact S hu (low_mapUpd (by decide) 0 (low_fn1 (by rk) low_var) low_var)
      · exact L hu (low_fn1 (by rk) (low_mapSel (by decide) 0))
      · exact S hu (low_mapUpd (by decide) 0 (low_fn1 (by rk) low_var) low_var)

theorem decls_low {d : Fun} (hd : d ∈ decls m) : DeclLow d := by
  obtain ⟨g, hg, hd⟩ := List.mem_flatten.mp hd
  simp only [groups, List.mem_cons, List.not_mem_nil, or_false] at hg
  rcases hg with rfl | rfl | rfl | rfl | rfl | rfl | rfl | rfl | rfl | rfl | rfl | rfl | rfl | rfl | rfl | rfl | rfl | rfl | rfl
  · rw [List.mem_singleton.mp hd]; intro b hb; cases hb
    have : rank ⟨"$isExternal", []⟩ = 8 := by decide
    rw [this]; exact low_fn2 (by rk) low_var low_var
  · exact bvInt_low hd
  · exact arith_low hd
  · exact pred_low hd
  · exact mem_low hd
  · exact conv_low hd
  · obtain ⟨n, _, rfl⟩ := List.mem_map.mp hd; exact dl_none rfl
  · obtain ⟨op, ho, rfl⟩ := List.mem_map.mp hd; intro b hb; cases hb
    have h5 : rank ⟨op, [.ty .ref]⟩ = 5 := by
      have : ∀ o ∈ ["$add", "$sub", "$mul"], rank ⟨o, [.ty .ref]⟩ = 5 := by decide
      exact this op ho
    rw [h5]
    exact low_fn2 (by rw [rank_ptrT op ho]; decide) low_var low_var
  · exact ptr_low hd
  · exact ptrMem_low hd
  · simp only [ptrConvDecls, List.mem_cons, List.not_mem_nil, or_false] at hd
    rcases hd with rfl | rfl
    · intro b hb; cases hb; exact low_var
    · exact dl_none rfl
  · exact ptrNum_low hd
  · unfold fpCtorDecls at hd
    split at hd
    · cases hd
    · rw [List.mem_singleton.mp hd]; exact dl_none rfl
  · obtain ⟨o, _, hd⟩ := List.mem_flatMap.mp hd
    split at hd
    · obtain ⟨k, _, rfl⟩ := List.mem_map.mp hd; exact dl_none rfl
    · rw [List.mem_singleton.mp hd]; exact dl_none rfl
  · exact fpPred_low hd
  · obtain ⟨c, _, hd⟩ := List.mem_flatMap.mp hd
    split at hd
    · obtain ⟨k, _, hd⟩ := List.mem_flatMap.mp hd
      obtain ⟨n, _, hd⟩ := List.mem_flatMap.mp hd
      split at hd
      · rw [List.mem_singleton.mp hd]; exact dl_none rfl
      · cases hd
    · obtain ⟨n, _, hd⟩ := List.mem_flatMap.mp hd
      split at hd
      · rw [List.mem_singleton.mp hd]; exact dl_none rfl
      · cases hd
  · unfold fpConvDecls at hd
    split at hd
    · obtain ⟨s, _, hd⟩ := List.mem_flatMap.mp hd
      obtain ⟨e, _, hd⟩ := List.mem_flatMap.mp hd
      split at hd
      · rw [List.mem_singleton.mp hd]; exact dl_none rfl
      · cases hd
    · simp only [List.mem_cons, List.not_mem_nil, or_false] at hd
      rcases hd with rfl | rfl <;> exact dl_none rfl
  · exact fpMem_low hd
  · unfold fpExtractDecls at hd
    split at hd
    · obtain ⟨n, _, rfl⟩ := List.mem_map.mp hd; exact dl_none rfl
    · rw [List.mem_singleton.mp hd]; exact dl_none rfl

end Smack.PreludeTy
