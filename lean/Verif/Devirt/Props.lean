import Verif.Devirt.Spec

/-
C40: the bounce function calls the function whose address it gets. C41: reuse of bounce functions.
-/

namespace Smack.Devirt

/-! ### Casts -/

theorem castTo_ok {a b : Ty} (h : a = b ∨ castable a b = true) (v : Val) (hv : v.w = a.width) :
    ∃ w, castTo a b v = some w ∧ Converted v b w := by
  unfold castTo
  by_cases hab : a = b
  · subst hab
    exact ⟨v, by simp, hv, rfl⟩
  · rw [if_neg hab]
    have hc : castable a b = true := h.resolve_left hab
    simp only [castable, Bool.or_eq_true] at hc
    cases hz : zextValid a b with
    | true =>
      cases a <;> cases b <;> simp [zextValid] at hz
      rename_i x y
      rw [if_neg (by simp only [Ty.scalarBits]; omega)]
      refine ⟨_, rfl, rfl, ?_⟩
      simp only [Ty.width] at hv ⊢
      rw [BitVec.toNat_setWidth, Nat.mod_eq_of_lt]
      have := v.bits.isLt
      have h2 : 2 ^ v.w ≤ 2 ^ y := Nat.pow_le_pow_right (by omega) (by omega)
      omega
    | false =>
      have hb : bitcastValid a b = true := by simpa [hz] using hc
      have hs : a.scalarBits = b.scalarBits ∧ a.width = b.width := by
        cases a <;> cases b <;> simp_all [bitcastValid, Ty.scalarBits, Ty.width]
      rw [if_pos hs.1]
      exact ⟨v, by simp [hb], by rw [hv, hs.2], rfl⟩

/-- Casting a whole argument list. -/
theorem castAll_ok (as bs : List Ty) (vs : List Val) (hl : bs.length ≤ as.length)
    (hty : Typed vs as) (hc : ∀ (i : Nat) a b, as[i]? = some a → bs[i]? = some b → a = b ∨ castable a b = true) :
    ∃ ws, ((as.zip bs).zip vs).mapM (fun x => castTo x.1.1 x.1.2 x.2) = some ws ∧
      ConvertedAll (vs.take bs.length) bs ws := by
  induction as generalizing bs vs with
  | nil =>
    cases bs with
    | nil => exact ⟨[], rfl, by simp [ConvertedAll]⟩
    | cons => simp at hl
  | cons a as ih =>
    cases vs with
    | nil => have := hty.1; simp at this
    | cons v vs =>
      cases bs with
      | nil => exact ⟨[], rfl, by simp [ConvertedAll]⟩
      | cons b bs =>
        obtain ⟨w, hw, hcv⟩ := castTo_ok (hc 0 a b rfl rfl) v (hty.2 0 v a rfl rfl)
        obtain ⟨ws, hws, h1, h2, h3⟩ := ih bs vs (by simpa using hl)
          ⟨by have := hty.1; simpa using this, fun i v' t' hv ht => hty.2 (i + 1) v' t' hv ht⟩
          (fun i a' b' ha hb => hc (i + 1) a' b' ha hb)
        refine ⟨w :: ws, ?_, ?_, ?_, ?_⟩
        · rw [List.zip_cons_cons, List.zip_cons_cons, List.mapM_cons]
          dsimp only
          rw [hw, hws]
          rfl
        · simpa using h1
        · simpa using h2
        · intro i v' t' w' hv ht hw'
          cases i with
          | zero => simp at hv ht hw'; subst hv ht hw'; exact hcv
          | succ i => exact h3 i v' t' w' (by simpa using hv) (by simpa using ht) (by simpa using hw')

theorem zip_all {as bs : List Ty} (h : (as.zip bs).all (fun (a, p) => a == p || castable a p) = true) :
    ∀ (i : Nat) a b, as[i]? = some a → bs[i]? = some b → a = b ∨ castable a b = true := by
  intro i a b ha hb
  have hm : (a, b) ∈ as.zip bs := List.mem_of_getElem? (i := i) (by
    rw [List.getElem?_zip_eq_some]
    exact ⟨ha, hb⟩)
  have := List.all_eq_true.1 h (a, b) hm
  simpa using this

theorem match_spec {s : Site} {f : Fn} (h : match_ s f = true) :
    f.ty.params.length ≤ s.args.length ∧ (f.ty.vararg = false → f.ty.params.length = s.args.length) ∧
    (∀ (i : Nat) a b, s.args[i]? = some a → f.ty.params[i]? = some b → a = b ∨ castable a b = true) := by
  simp only [match_, Bool.and_eq_true, Bool.not_eq_true', decide_eq_false_iff_not, Bool.and_eq_false_iff,
    Bool.not_eq_false'] at h
  obtain ⟨⟨⟨_, h1⟩, h2⟩, h3⟩ := h
  refine ⟨by omega, ?_, zip_all h3⟩
  intro hv
  rcases h2 with h2 | h2
  · omega
  · rw [hv] at h2; cases h2

/-! ### Dispatch -/

theorem run_foldl (addr : Fn → Nat) (p : Nat) (vs : List Val) (params : List Ty) (ts : List Fn) :
    ∀ tail : Node, (ts.foldl (fun tail f => .test f (block params f) tail) tail).run addr p vs =
      match ts.reverse.find? (fun f => addr f == p) with
      | some f => runBlock (block params f) vs
      | none => tail.run addr p vs := by
  induction ts with
  | nil => intro tail; rfl
  | cons t ts ih =>
    intro tail
    rw [List.foldl_cons, ih, List.reverse_cons, List.find?_append]
    cases h : ts.reverse.find? (fun f => addr f == p) with
    | some f => rfl
    | none =>
      simp only [Option.none_or, Node.run]
      by_cases ha : addr t = p
      · simp [ha]
      · simp [ha]

theorem find_target (addr : Fn → Nat) (ts : List Fn) (t : Fn) (ht : t ∈ ts)
    (hinj : ∀ f ∈ ts, addr f = addr t → f = t) : ts.reverse.find? (fun f => addr f == addr t) = some t := by
  cases h : ts.reverse.find? (fun f => addr f == addr t) with
  | none =>
    have := List.find?_eq_none.1 h t (by simpa using ht)
    simp at this
  | some f =>
    have h1 := List.find?_some h
    have h2 := List.mem_of_find?_eq_some h
    rw [hinj f (by simpa using h2) (by simpa using h1)]

theorem callArgs_self {s : Site} {b : Bounce} (hb : b.params = s.args) {vs : List Val} (hty : Typed vs s.args) :
    callArgs s b vs = some vs := by
  unfold callArgs
  rw [hb]
  have hl := hty.1
  clear hty
  generalize s.args = as at hl
  induction as generalizing vs with
  | nil => cases vs with
    | nil => rfl
    | cons => simp at hl
  | cons a as ih =>
    cases vs with
    | nil => simp at hl
    | cons v vs =>
      rw [List.zip_cons_cons, List.zip_cons_cons, List.mapM_cons]
      dsimp only
      rw [ih (by simpa using hl)]
      simp [castTo]

/-- C40. For every call site, every list of matching targets in any order, and every argument list: a new bounce function
that gets the address of one of its targets calls exactly that target, with the arguments converted to the target's
parameter types. Function addresses are distinct (see C16). The target must not receive variadic arguments; see
`c40_vararg_fails`. -/
theorem c40_dispatch_partial (addr : Fn → Nat) (s : Site) (targets : List Fn) (hm : ∀ f ∈ targets, match_ s f = true)
    (t : Fn) (ht : t ∈ targets) (hinj : ∀ f ∈ targets, addr f = addr t → f = t) (vs : List Val)
    (hty : Typed vs s.args) (hfix : t.ty.vararg = false ∨ s.args.length = t.ty.params.length) :
    ∃ ws, runCall addr s (buildBounce s targets) (addr t) vs = .called t ws ∧ ConvertedAll vs t.ty.params ws := by
  obtain ⟨h1, h2, h3⟩ := match_spec (hm t ht)
  obtain ⟨ws, hw, hc⟩ := castAll_ok s.args t.ty.params vs h1 hty h3
  refine ⟨ws, ?_, ?_⟩
  · unfold runCall
    rw [callArgs_self rfl hty]
    show (buildBounce s targets).entry.run addr (addr t) vs = _
    unfold buildBounce
    rw [run_foldl, find_target addr targets t ht hinj]
    unfold runBlock block
    dsimp only
    rw [hw]
  · have hl : t.ty.params.length = vs.length := by
      rw [hty.1]
      rcases hfix with h | h
      · exact h2 h
      · exact h.symm
    rwa [hl, List.take_length] at hc

/-- C40 for other pointers: if no target has the address, the bounce function is undefined behaviour and calls
nothing. -/
theorem c40_no_target (addr : Fn → Nat) (s : Site) (targets : List Fn) (hne : targets ≠ []) (p : Nat)
    (hp : ∀ f ∈ targets, addr f ≠ p) (vs : List Val) (hty : Typed vs s.args) :
    runCall addr s (buildBounce s targets) p vs = .undefined := by
  unfold runCall
  rw [callArgs_self rfl hty]
  show (buildBounce s targets).entry.run addr p vs = _
  unfold buildBounce
  rw [run_foldl]
  have : targets.reverse.find? (fun f => addr f == p) = none := by
    rw [List.find?_eq_none]
    intro f hf
    simpa using hp f (by simpa using hf)
  rw [this]
  have hl : targets.length ≠ 0 := by
    intro h
    exact hne (List.eq_nil_of_length_eq_zero h)
  simp [hl, Node.run]

/-- C40 fails for variadic targets: whenever the call passes more arguments than the target has fixed parameters, the
extra arguments are dropped. -/
theorem c40_vararg_fails (addr : Fn → Nat) (s : Site) (targets : List Fn) (hm : ∀ f ∈ targets, match_ s f = true)
    (t : Fn) (ht : t ∈ targets) (hinj : ∀ f ∈ targets, addr f = addr t → f = t) (vs : List Val)
    (hty : Typed vs s.args) (hlen : t.ty.params.length < s.args.length) :
    ∃ ws, runCall addr s (buildBounce s targets) (addr t) vs = .called t ws ∧ ws.length < vs.length := by
  obtain ⟨h1, h2, h3⟩ := match_spec (hm t ht)
  obtain ⟨ws, hw, hc⟩ := castAll_ok s.args t.ty.params vs h1 hty h3
  refine ⟨ws, ?_, ?_⟩
  · unfold runCall
    rw [callArgs_self rfl hty]
    show (buildBounce s targets).entry.run addr (addr t) vs = _
    unfold buildBounce
    rw [run_foldl, find_target addr targets t ht hinj]
    unfold runBlock block
    dsimp only
    rw [hw]
  · rw [hc.2.1, hty.1]
    exact hlen

/-- `match` accepts targets whose result type differs from the call's but is bit-castable, and the call block returns the
uncast value: the built function returns a value of the wrong type. -/
theorem c40_return_type_fails : ∃ (s : Site) (f : Fn), match_ s f = true ∧
    (buildBounce s [f]).ret ≠ f.ty.ret :=
  ⟨⟨.int 32, 0, .ptr 0, []⟩, ⟨0, ⟨.flt 0 32, [], false⟩⟩, by decide, by decide⟩

/-! ### The cache -/

/-- Every cache entry was built for some well-typed call site and its own target set. -/
def CacheOk (env : Nat → FnTy) (c : Cache) : Prop :=
  ∀ e ∈ c, ∃ s targets, WellTyped env s ∧ (∀ f ∈ targets, match_ s f = true) ∧ e = (buildBounce s targets, targets)

theorem mem_insertAt {k : Nat} {e x : Bounce × List Fn} {c : Cache} : x ∈ insertAt k e c ↔ x = e ∨ x ∈ c := by
  unfold insertAt
  rw [List.mem_append, List.mem_cons]
  constructor
  · rintro (h | h | h)
    · exact Or.inr (List.mem_of_mem_take h)
    · exact Or.inl h
    · exact Or.inr (List.mem_of_mem_drop h)
  · rintro (h | h)
    · exact Or.inr (Or.inl h)
    · rw [← List.take_append_drop k c, List.mem_append] at h
      rcases h with h | h
      · exact Or.inl h
      · exact Or.inr (Or.inr h)

theorem makeDirectCall_ok {env : Nat → FnTy} {c : Cache} (hc : CacheOk env c) {s : Site} (hs : WellTyped env s)
    (cands : List Fn) (k : Nat) : CacheOk env (makeDirectCall env c s cands k).1 := by
  unfold makeDirectCall
  dsimp only
  split
  · exact hc
  · intro e he
    rcases mem_insertAt.1 he with rfl | h
    · exact ⟨s, _, hs, fun f hf => (List.mem_filter.1 hf).2, rfl⟩
    · exact hc e h

theorem history_ok (env : Nat → FnTy) (h : List (Site × List Fn × Nat)) (hs : ∀ x ∈ h, WellTyped env x.1) :
    CacheOk env (history env h) := by
  induction h with
  | nil => intro e he; simp [history] at he
  | cons x rest ih =>
    exact makeDirectCall_ok (ih fun y hy => hs y (List.mem_cons_of_mem _ hy)) (hs x (List.mem_cons_self ..)) _ _

theorem findInCache_spec {env : Nat → FnTy} {c : Cache} {s : Site} {targets : List Fn} {b : Bounce}
    (h : findInCache env c s targets = some b) : ∃ ts, (b, ts) ∈ c ∧ usable env s targets (b, ts) = true := by
  unfold findInCache at h
  cases hf : c.find? (usable env s targets) with
  | none => rw [hf] at h; cases h
  | some e =>
    rw [hf] at h
    obtain ⟨b', ts⟩ := e
    cases h
    exact ⟨ts, List.mem_of_find?_eq_some hf, List.find?_some hf⟩

theorem sameSet_iff {a b : List Fn} : sameSet a b = true ↔ ∀ f, f ∈ a ↔ f ∈ b := by
  simp only [sameSet, Bool.and_eq_true, List.all_eq_true, decide_eq_true_eq]
  constructor
  · rintro ⟨h1, h2⟩ f; exact ⟨h1 f, h2 f⟩
  · intro h; exact ⟨fun f => (h f).1, fun f => (h f).2⟩

/-- C41, what holds. After any sequence of devirtualised, well-typed calls: a bounce function found for a call whose
called operand is not a cast was built by `buildBounce` for a target list with the same set of functions, has the same
result type and function pointer type, as many parameters as the call has arguments, and every argument can be cast
to its parameter; it is even the same type unless the function type is variadic. -/
theorem c41_reuse_partial (env : Nat → FnTy) (h : List (Site × List Fn × Nat)) (hs : ∀ x ∈ h, WellTyped env x.1)
    (s : Site) (hst : WellTyped env s) (hp : Plain s) (targets : List Fn) (b : Bounce)
    (hf : findInCache env (history env h) s targets = some b) :
    ∃ s0 ts, b = buildBounce s0 ts ∧ (∀ f ∈ ts, match_ s0 f = true) ∧ (∀ f, f ∈ targets ↔ f ∈ ts) ∧
      b.ret = s.ret ∧ b.callee = s.callee ∧ b.params.length = s.args.length ∧
      (∀ (i : Nat) a p, s.args[i]? = some a → b.params[i]? = some p → a = p ∨ castable a p = true) ∧
      ((env s.callee).vararg = false → b.params = s.args) := by
  obtain ⟨ts, hmem, hu⟩ := findInCache_spec hf
  obtain ⟨s0, ts0, hw0, hm0, he⟩ := history_ok env h hs _ hmem
  cases he
  simp only [usable, Bool.and_eq_true, beq_iff_eq, Bool.not_eq_true', Bool.and_eq_false_iff] at hu
  obtain ⟨⟨⟨hr, hstr⟩, hva⟩, hset⟩ := hu
  rw [hp] at hstr
  have hcal : s.callee = s0.callee := by injection hstr
  refine ⟨s0, ts, rfl, hm0, sameSet_iff.1 hset, hr.symm, hcal.symm, ?_⟩
  have hbc : (buildBounce s0 ts).callee = s0.callee := rfl
  have hbp : (buildBounce s0 ts).params = s0.args := rfl
  rw [hbc] at hva
  rw [hbp]
  cases hv : (env s0.callee).vararg with
  | false =>
    have e1 := hw0.2
    have e2 := hst.2
    rw [hcal, hv] at e2
    rw [hv] at e1
    simp only [Bool.false_eq_true, if_false] at e1 e2
    have : s0.args = s.args := e1.trans e2.symm
    rw [this]
    exact ⟨rfl, fun i a p ha hp => Or.inl (by rw [ha] at hp; cases hp; rfl), fun _ => rfl⟩
  | true =>
    rw [hv] at hva
    rcases hva with hva | hva
    · cases hva
    · have hca : checkArgs s (buildBounce s0 ts) = true := by simpa using hva
      simp only [checkArgs, Bool.and_eq_true, beq_iff_eq, hbp] at hca
      refine ⟨by omega, zip_all hca.2, ?_⟩
      intro h'
      rw [hcal, hv] at h'
      cases h'

theorem callArgs_cast {s : Site} {b : Bounce} (hl : b.params.length = s.args.length)
    (hc : ∀ (i : Nat) a p, s.args[i]? = some a → b.params[i]? = some p → a = p ∨ castable a p = true)
    {vs : List Val} (hty : Typed vs s.args) : ∃ ws, callArgs s b vs = some ws ∧ ConvertedAll vs b.params ws := by
  obtain ⟨ws, h1, h2⟩ := castAll_ok s.args b.params vs (by omega) hty hc
  refine ⟨ws, h1, ?_⟩
  have : b.params.length = vs.length := by rw [hty.1, hl]
  rwa [this, List.take_length] at h2

/-- C40 and C41 together: after any history, the replaced call with a pointer to one of the matching candidates calls
that candidate with converted arguments, whether the bounce function is new or reused. -/
theorem c40_devirt_partial (env : Nat → FnTy) (h : List (Site × List Fn × Nat)) (hs : ∀ x ∈ h, WellTyped env x.1)
    (s : Site) (hst : WellTyped env s) (hp : Plain s) (cands : List Fn) (k : Nat) (addr : Fn → Nat) (t : Fn)
    (ht : t ∈ cands) (hm : match_ s t = true)
    (hinj : ∀ f ∈ cands, addr f = addr t → f = t) (vs : List Val) (hty : Typed vs s.args)
    (hfix : t.ty.vararg = false ∨ s.args.length = t.ty.params.length) :
    ∃ ws, runCall addr s (makeDirectCall env (history env h) s cands k).2 (addr t) vs = .called t ws ∧
      ConvertedAll vs t.ty.params ws := by
  have htar : t ∈ cands.filter (match_ s) := List.mem_filter.2 ⟨ht, hm⟩
  unfold makeDirectCall
  dsimp only
  split
  · rename_i b hf
    obtain ⟨s0, ts, rfl, hm0, hset, _, _, hlen, hcast, _⟩ := c41_reuse_partial env h hs s hst hp _ b hf
    obtain ⟨us, hu, hcu⟩ := callArgs_cast hlen hcast hty
    have htts : t ∈ ts := (hset t).1 htar
    have hlen0 : s0.args.length = s.args.length := hlen
    obtain ⟨ws, hw, hcw⟩ := c40_dispatch_partial addr s0 ts hm0 t htts
      (fun f hf' he => hinj f (List.mem_filter.1 ((hset f).2 hf')).1 he) us
      ⟨by have := hcu.2.1; exact this, by
        intro i u ty hui hti
        have hlv : i < vs.length := by
          have h1 := hcu.1
          have h2 := hcu.2.1
          have : i < us.length := by
            rcases Nat.lt_or_ge i us.length with hh | hh
            · exact hh
            · rw [List.getElem?_eq_none hh] at hui; cases hui
          omega
        exact (hcu.2.2 i vs[i] ty u (List.getElem?_eq_getElem hlv) hti hui).1⟩
      (hfix.imp id fun e => by rw [hlen0]; exact e)
    refine ⟨ws, ?_, ?_⟩
    · have hself : callArgs s0 (buildBounce s0 ts) us = some us :=
        callArgs_self rfl ⟨hcu.2.1, by
          intro i u ty hui hti
          have hlv : i < vs.length := by
            have h1 := hcu.1
            have h2 := hcu.2.1
            have : i < us.length := by
              rcases Nat.lt_or_ge i us.length with hh | hh
              · exact hh
              · rw [List.getElem?_eq_none hh] at hui; cases hui
            omega
          exact (hcu.2.2 i vs[i] ty u (List.getElem?_eq_getElem hlv) hti hui).1⟩
      unfold runCall at hw ⊢
      rw [hself] at hw
      rw [hu]
      exact hw
    · have l1 := hcu.1
      have l2 := hcu.2.1
      refine ⟨by have := hcw.1; omega, hcw.2.1, ?_⟩
      intro i v t' w hv ht' hw'
      have hlv : i < us.length := by
        have h1 := hcw.1
        have : i < t.ty.params.length := by
          rcases Nat.lt_or_ge i t.ty.params.length with hh | hh
          · exact hh
          · rw [List.getElem?_eq_none hh] at ht'; cases ht'
        omega
      have hlp : i < (buildBounce s0 ts).params.length := by omega
      have c1 := hcu.2.2 i v _ us[i] hv (List.getElem?_eq_getElem hlp) (List.getElem?_eq_getElem hlv)
      have c2 := hcw.2.2 i us[i] t' w (List.getElem?_eq_getElem hlv) ht' hw'
      exact ⟨c2.1, c2.2.trans c1.2⟩
  · exact c40_dispatch_partial addr s _ (fun f hf => (List.mem_filter.1 hf).2) t htar
      (fun f hf => hinj f (List.mem_filter.1 hf).1) vs hty hfix

/-- C41 fails when the called operand is a cast: the stripped type is compared, not the type the call uses. Call 1 passes an
`i8` through a pointer of type 0; call 2 has a pointer of type 0 cast to type 1 and passes an `i32`. The bounce function
of call 1 is reused for call 2 although its parameter is an `i8`, and the cast of the argument is invalid. -/
theorem c41_cast_fails : ∃ (env : Nat → FnTy) (s1 s2 : Site) (f : Fn) (b : Bounce),
    WellTyped env s1 ∧ WellTyped env s2 ∧ Plain s1 ∧ match_ s1 f = true ∧ match_ s2 f = true ∧
    findInCache env (history env [(s1, [f], 0)]) s2 [f] = some b ∧
    (∀ addr p v, runCall addr s2 b p [v] = .invalid) := by
  refine ⟨fun n => if n = 0 then ⟨.void, [.int 8], false⟩ else ⟨.void, [.int 32], false⟩,
    ⟨.void, 0, .ptr 0, [.int 8]⟩, ⟨.void, 1, .ptr 0, [.int 32]⟩, ⟨0, ⟨.void, [.int 32], false⟩⟩,
    buildBounce ⟨.void, 0, .ptr 0, [.int 8]⟩ [⟨0, ⟨.void, [.int 32], false⟩⟩], ?_, ?_, rfl, by decide, by decide, rfl, ?_⟩
  · exact ⟨rfl, by simp⟩
  · exact ⟨rfl, by simp⟩
  · intro addr p v
    have : callArgs ⟨.void, 1, .ptr 0, [.int 32]⟩
        (buildBounce ⟨.void, 0, .ptr 0, [.int 8]⟩ [⟨0, ⟨.void, [.int 32], false⟩⟩]) [v] = none := by
      simp [callArgs, buildBounce, castTo, Ty.scalarBits, zextValid]
    unfold runCall
    rw [this]

/-- Two targets, one of which takes a wider integer; the second is found although it is tested second. -/
example : runCall (fun f => 100 + f.id) ⟨.int 32, 0, .ptr 0, [.int 8]⟩
    (buildBounce ⟨.int 32, 0, .ptr 0, [.int 8]⟩
      [⟨1, ⟨.int 32, [.int 32], false⟩⟩, ⟨2, ⟨.int 32, [.int 8], false⟩⟩]) 101 [⟨8, 255#8⟩] =
    .called ⟨1, ⟨.int 32, [.int 32], false⟩⟩ [⟨32, 255#32⟩] := by decide
example : match_ ⟨.int 32, 0, .ptr 0, [.int 8]⟩ ⟨1, ⟨.int 32, [.int 32], false⟩⟩ = true := by decide
/-- The second identical call reuses the bounce function. -/
example : (history (fun _ => ⟨.void, [.int 8], false⟩)
    [(⟨.void, 0, .ptr 0, [.int 8]⟩, [⟨0, ⟨.void, [.int 32], false⟩⟩], 0),
     (⟨.void, 0, .ptr 0, [.int 8]⟩, [⟨0, ⟨.void, [.int 32], false⟩⟩], 0)]).length = 1 := by decide

/-- Pointers have 64 bits in the values of the model. -/
example : (∀ n, (Ty.ptr n).width = 64) ∧ (Ty.int 17).width = 17 := ⟨fun _ => rfl, rfl⟩

end Smack.Devirt
