/-
C68: every call in the generated program names exactly one declared procedure, with arguments and results of the declared types.
-/
import Verif.Calls.Lemmas

namespace Smack.Calls

open Smack.Naming (Str dec)

/-! ### findCallers -/

/-- The worklist of `findCallers` is empty after at most as many rounds as the module has values. -/
theorem c68_terminates {md : Module} (hw : Wf md) {f : Nat} (hf : f < md.size) : (rounds md md.size ⟨[f], [f], []⟩).queue = [] := by
  obtain ⟨_, _, h⟩ := rounds_inv hw hf md.size [] _ (start_inv md f) (by simp)
  exact h

/-- `findCallers` returns exactly the call instructions that use the function, directly or through values that are not calls. -/
theorem c68_callers {md : Module} (hw : Wf md) {f : Nat} (hf : f < md.size) (c : Nat) :
    c ∈ findCallers md f ↔ ∃ u, Reached md f u ∧ md.callAt u = some c := findCallers_iff hw hf c

/-! ### Names -/

/-- The names of two versions of a variadic function are equal exactly if the Boogie types of the arguments are. -/
theorem c68_names {m : Mode} {f : Func} (hv : f.varArg = true) (ts ts' : List Ty) :
    procName m f ts = procName m f ts' ↔ ts.map (type m) = ts'.map (type m) := by
  constructor
  · intro h
    unfold procName at h
    simp only [hv, if_true] at h
    exact suffix_inj m ts ts' (List.append_cancel_left h)
  · intro h
    have : ∀ ts : List Ty, procName m f ts = f.name ++ (ts.map (type m)).flatMap (fun t => '.' :: t) := by
      intro ts
      unfold procName
      simp only [hv, if_true, List.flatMap_map]
    rw [this, this, h]

/-- No two declarations have the same name. -/
theorem c68_distinct {md : Module} (hn : NamesOk md) : (declarations md).Pairwise (·.name ≠ ·.name) := declarations_pairwise hn

/-! ### Calls -/

theorem legal_of_mem {md : Module} (hn : NamesOk md) {d : Proc} {c : Call} (hd : d ∈ declarations md) (h1 : d.name = c.name)
    (h2 : d.params.map (·.2) = c.args) (h3 : d.rets = c.rets) : Legal (declarations md) c :=
  ⟨d, by rw [← h1]; exact filter_single _ (declarations_pairwise hn) d hd, h2, h3⟩

theorem fixed_types (md : Module) (f : Func) : (f.params.map fun p => (p.1, type md.mode p.2)).map (·.2) = (f.params.map (·.2)).map (type md.mode) := by
  simp [Function.comp_def]

/-- Calls of functions, other than `__SMACK_value` and `__SMACK_return_value`. Of invokes only those of functions that are not variadic; see
`c68_invoke_fails`. -/
theorem c68_calls_partial {md : Module} (hw : Wf md) (hn : NamesOk md) {k : Nat} {f : Func} (hf : md.funcs[k]? = some f) {c : Nat} {s : Site}
    (hs : md.sites[c]? = some s) (hok : SiteOk s f) (hcall : f.varArg = true → s.invoke = false ∧ ∃ u, Reached md k u ∧ md.callAt u = some c)
    (hv : f.value = false) (hr : f.returnValue = false) (hc : ¬ "$expr".toList <+: f.name) (hsp : f.varArg = true → ¬ Special f) :
    Legal (declarations md) (call md f s) := by
  have hk : k < md.size := Nat.lt_of_lt_of_le (List.getElem?_eq_some_iff.1 hf).1 hw.funcs
  cases hva : f.varArg with
  | false =>
    refine legal_of_mem (d := procedure md f none) hn (mem_declarations.2 ⟨k, f, hf, ?_⟩) ?_ ?_ ?_
    · rw [procedures_eq, hva]; simp
    · rw [procedure_none_name]
      simp [call, procName, hva]
    · have : (procedure md f none).params = f.params.map fun p => (p.1, type md.mode p.2) := by
        unfold procedure
        simp only
        split
        · rfl
        · rw [if_neg (by unfold isContractExpr; rw [List.isPrefixOf_iff_prefix]; exact hc)]
      rw [this, fixed_types]
      have : f.params.map (·.2) = s.args := hok.fixed.eq_of_length (by rw [List.length_map, hok.arity hva])
      rw [this]; rfl
    · have : (procedure md f none).rets = (f.ret.map (type md.mode)).toList := by
        unfold procedure
        simp only
        split
        · rfl
        · split <;> rfl
      rw [this, ← hok.ret]; rfl
  | true =>
    obtain ⟨hi, u, hu, hcu⟩ := hcall hva
    have hcallers : callersOf md k f = findCallers md k := by unfold callersOf; rw [hv]; simp
    have hmem : c ∈ findCallers md k := (findCallers_iff hw hk c).2 ⟨u, hu, hcu⟩
    have hsp := hsp hva
    have hin : procedure md f (some s) ∈ (callersOf md k f).filterMap fun c => (md.sites[c]?).map fun s => procedure md f (some s) := by
      rw [List.mem_filterMap]
      exact ⟨c, by rw [hcallers]; exact hmem, by rw [hs]; rfl⟩
    obtain ⟨d, hd, hdn⟩ := dedup_mem _ [] _ hin (by simp)
    have hd0 := (dedup_sub _ _ d hd).1
    rw [List.mem_filterMap] at hd0
    obtain ⟨c', hc', hd0⟩ := hd0
    rw [Option.map_eq_some_iff] at hd0
    obtain ⟨s', hs', hd0⟩ := hd0
    rw [hcallers, findCallers_iff hw hk] at hc'
    obtain ⟨u', hu', hcu'⟩ := hc'
    have hi' : s'.invoke = false := by
      obtain ⟨s'', h1, h2⟩ := hw.site _ _ hcu'
      rw [hs'] at h1
      rw [Option.some.inj h1]; exact h2
    have notRet : ∀ {u c s}, Reached md k u → md.callAt u = some c → md.sites[c]? = some s → ¬ IsReturnValue md s := by
      intro u c s h1 h2 h3 h4
      have := hw.returnValue k f u c s hf h1 h2 h3 h4
      rw [hr] at this; cases this
    have e1 := procedure_var hva hsp hi (notRet hu hcu hs)
    have e2 := procedure_var hva hsp hi' (notRet hu' hcu' hs')
    rw [e2] at hd0
    rw [e1] at hdn
    have hargs : s'.args.map (type md.mode) = s.args.map (type md.mode) := by
      subst hd0
      exact suffix_inj _ _ _ (List.append_cancel_left hdn)
    refine legal_of_mem (d := d) hn (mem_declarations.2 ⟨k, f, hf, ?_⟩) ?_ ?_ ?_
    · rw [procedures_eq, if_neg]
      · exact hd
      · rw [hcallers, hva]
        simp only [Bool.not_true, Bool.or_false, List.isEmpty_iff]
        intro h; rw [h] at hmem; cases hmem
    · rw [hdn]
      simp [call, procName, hva, operandTypes, hi]
    · subst hd0
      simp only [List.map_append, fixed_types, extra_types, call]
      rw [List.map_drop, hargs, ← List.map_drop, ← List.map_append]
      congr 1
      obtain ⟨t, ht⟩ := hok.fixed
      rw [← ht]
      simp
    · subst hd0
      simp only [call, hok.ret]

/-- `__SMACK_value(x)` and `__SMACK_return_value()` both call the version of `__SMACK_value` for the type of the value. -/
theorem c68_value {md : Module} (hw : Wf md) (hn : NamesOk md) {k : Nat} {f : Func} (hf : md.funcs[k]? = some f) (hname : f.name = "__SMACK_value".toList)
    (hparams : f.params = []) (hva : f.varArg = true) (hv : f.value = true) (hr : f.returnValue = false)
    {c u : Nat} {s : Site} (hs : md.sites[c]? = some s) (hret : s.ret = f.ret) (hcu : md.callAt u = some c) {cl : Call}
    (hcl : (Reached md k u ∧ s.args.length = 1 ∧ valueCall md s = some cl) ∨
      (∃ r g, md.funcs.findIdx? (·.returnValue) = some r ∧ md.funcs[r]? = some g ∧ Reached md r u ∧ s.direct = true ∧ s.callee = r ∧
        returnValueCall md s = cl)) : Legal (declarations md) cl := by
  have hk : k < md.size := Nat.lt_of_lt_of_le (List.getElem?_eq_some_iff.1 hf).1 hw.funcs
  have hsp : ¬ Special f := by unfold Special; rw [hname]; decide
  -- the declaration for a call, by the value it is about
  have shape : ∀ s : Site, s.invoke = false → (IsReturnValue md s ∨ s.args.length = 1) → ∃ t, procedure md f (some s) =
      ⟨f.name ++ '.' :: type md.mode t, [(paramName 0, type md.mode t)], (f.ret.map (type md.mode)).toList⟩ := by
    intro s hi h
    rcases Classical.em (IsReturnValue md s) with h1 | h1
    · exact ⟨_, by rw [procedure_ret hva hsp h1, hparams]; rfl⟩
    · rcases h with h | h
      · exact absurd h h1
      · obtain ⟨t, ht⟩ := List.length_eq_one_iff.1 h
        exact ⟨t, by rw [procedure_var hva hsp hi h1, hparams, ht]; simp [extra]⟩
  have hi : s.invoke = false := by
    obtain ⟨s'', h1, h2⟩ := hw.site _ _ hcu
    rw [hs] at h1
    rw [Option.some.inj h1]; exact h2
  -- the call
  have hmain : c ∈ callersOf md k f ∧ ∃ t, cl = ⟨f.name ++ '.' :: type md.mode t, [type md.mode t], (f.ret.map (type md.mode)).toList⟩ ∧
      procedure md f (some s) = ⟨f.name ++ '.' :: type md.mode t, [(paramName 0, type md.mode t)], (f.ret.map (type md.mode)).toList⟩ := by
    rcases hcl with ⟨h1, h2, h3⟩ | ⟨r, g, h1, h2, h3, h4, h5, h6⟩
    · refine ⟨List.mem_append_left _ ((findCallers_iff hw hk c).2 ⟨u, h1, hcu⟩), ?_⟩
      obtain ⟨t, ht⟩ := List.length_eq_one_iff.1 h2
      have hnr : ¬ IsReturnValue md s := fun h => by
        have := hw.returnValue k f u c s hf h1 hcu hs h
        rw [hr] at this; cases this
      refine ⟨t, ?_, by rw [procedure_var hva hsp hi hnr, hparams, ht]; simp [extra]⟩
      simp only [valueCall, ht, Option.some.injEq] at h3
      rw [← h3, hname, hret]
    · have hr' : r < md.size := Nat.lt_of_lt_of_le (List.getElem?_eq_some_iff.1 h2).1 hw.funcs
      have hg : g.returnValue = true := by
        have := List.findIdx?_eq_some_iff_getElem.1 h1
        obtain ⟨hlt, h, _⟩ := this
        rw [List.getElem?_eq_getElem hlt] at h2
        rw [← Option.some.inj h2]; exact h
      refine ⟨List.mem_append_right _ ?_, s.parentRet.getD .other, ?_, ?_⟩
      · rw [hv, h1]
        exact (findCallers_iff hw hr' c).2 ⟨u, h3, hcu⟩
      · rw [← h6, hname, ← hret]; rfl
      · rw [procedure_ret hva hsp ⟨h4, g, by rw [h5]; exact h2, hg⟩, hparams]; rfl
  obtain ⟨hmem, t, ecl, eproc⟩ := hmain
  have hin : procedure md f (some s) ∈ (callersOf md k f).filterMap fun c => (md.sites[c]?).map fun s => procedure md f (some s) := by
    rw [List.mem_filterMap]
    exact ⟨c, hmem, by rw [hs]; rfl⟩
  obtain ⟨d, hd, hdn⟩ := dedup_mem _ [] _ hin (by simp)
  have hd0 := (dedup_sub _ _ d hd).1
  rw [List.mem_filterMap] at hd0
  obtain ⟨c', hc', hd0⟩ := hd0
  rw [Option.map_eq_some_iff] at hd0
  obtain ⟨s', hs', hd0⟩ := hd0
  have hi' : s'.invoke = false := by
    have : ∃ u', md.callAt u' = some c' := by
      unfold callersOf at hc'
      rcases List.mem_append.1 hc' with h | h
      · obtain ⟨u', _, h⟩ := (findCallers_iff hw hk c').1 h; exact ⟨u', h⟩
      · rw [if_pos hv] at h
        cases hfi : md.funcs.findIdx? (·.returnValue) with
        | none => rw [hfi] at h; cases h
        | some r =>
          rw [hfi] at h
          obtain ⟨hlt, _, _⟩ := List.findIdx?_eq_some_iff_getElem.1 hfi
          obtain ⟨u', _, h⟩ := (findCallers_iff hw (Nat.lt_of_lt_of_le hlt hw.funcs) c').1 h
          exact ⟨u', h⟩
    obtain ⟨u', hu'⟩ := this
    obtain ⟨s'', h1, h2⟩ := hw.site _ _ hu'
    rw [hs'] at h1
    rw [Option.some.inj h1]; exact h2
  have hd1 : d.name = f.name ++ '.' :: type md.mode t ∧ d.params.map (·.2) = [type md.mode t] ∧ d.rets = (f.ret.map (type md.mode)).toList := by
    rw [eproc] at hdn
    refine ⟨hdn, ?_⟩
    rcases Classical.em (IsReturnValue md s') with h1 | h1
    · rw [procedure_ret hva hsp h1, hparams] at hd0
      subst hd0
      refine ⟨?_, rfl⟩
      have := List.append_cancel_left hdn
      simp only [List.cons.injEq, true_and] at this
      simp [this]
    · rw [procedure_var hva hsp hi' h1, hparams] at hd0
      subst hd0
      refine ⟨?_, rfl⟩
      have := suffix_inj md.mode s'.args [t] (by rw [List.append_cancel_left hdn]; simp)
      simp only [List.map_nil, List.length_nil, List.drop_zero, List.nil_append, extra_types, this, List.map_cons]
  refine legal_of_mem (d := d) hn (mem_declarations.2 ⟨k, f, hf, ?_⟩) ?_ ?_ ?_
  · rw [procedures_eq, if_neg]
    · exact hd
    · rw [hva]
      simp only [Bool.not_true, Bool.or_false, List.isEmpty_iff]
      intro h; rw [h] at hmem; cases hmem
  · rw [ecl]; exact hd1.1
  · rw [ecl]; exact hd1.2.1
  · rw [ecl]; exact hd1.2.2

/-- An invoke of a variadic function is never legal: its name counts the two destinations as arguments. -/
theorem c68_invoke_fails {md : Module} (hw : Wf md) (hn : NamesOk md) {k : Nat} {f : Func} (hf : md.funcs[k]? = some f) {s : Site}
    (hi : s.invoke = true) (hva : f.varArg = true) (hsp : ¬ Special f) (hv : f.value = false) (hr : f.returnValue = false) :
    ¬ Legal (declarations md) (call md f s) := by
  have hk : k < md.size := Nat.lt_of_lt_of_le (List.getElem?_eq_some_iff.1 hf).1 hw.funcs
  rintro ⟨d, hd, hp, _⟩
  have hmem : d ∈ (declarations md).filter fun d => d.name = (call md f s).name := by rw [hd]; simp
  rw [List.mem_filter, mem_declarations] at hmem
  obtain ⟨⟨j, g, hg, hdg⟩, hname⟩ := hmem
  simp only [decide_eq_true_eq] at hname
  have hcn : (call md f s).name = f.name ++ (s.args ++ [Ty.other, Ty.other]).flatMap (fun t => '.' :: type md.mode t) := by
    simp [call, procName, operandTypes, hi, hva]
  have hj : j = k := by
    obtain ⟨x, h1, h2⟩ := procedures_name hdg
    rw [hname, hcn] at h1
    refine Classical.byContradiction fun hne => ?_
    exact apart (.inr ⟨hva, suffix_dotted _ _⟩) h2 h1 (fun h => hne (hn.distinct _ _ _ _ hf hg h).symm) (hn.noExtension _ _ _ _ hf hg)
      (hn.noExtension _ _ _ _ hg hf)
  subst hj
  rw [hf] at hg
  obtain rfl := Option.some.inj hg
  have hcallers : callersOf md j f = findCallers md j := by unfold callersOf; rw [hv]; simp
  rw [procedures_eq] at hdg
  split at hdg
  · rw [List.mem_singleton] at hdg
    subst hdg
    rw [procedure_none_name, hcn] at hname
    simp at hname
  · have hd0 := (dedup_sub _ _ d hdg).1
    rw [List.mem_filterMap] at hd0
    obtain ⟨c', hc', hd0⟩ := hd0
    rw [Option.map_eq_some_iff] at hd0
    obtain ⟨s', hs', hd0⟩ := hd0
    rw [hcallers, findCallers_iff hw hk] at hc'
    obtain ⟨u', hu', hcu'⟩ := hc'
    have hi' : s'.invoke = false := by
      obtain ⟨s'', h1, h2⟩ := hw.site _ _ hcu'
      rw [hs'] at h1
      rw [Option.some.inj h1]; exact h2
    rw [procedure_var hva hsp hi' (fun h => by
      have := hw.returnValue j f u' c' s' hf hu' hcu' hs' h
      rw [hr] at this; cases this)] at hd0
    subst hd0
    rw [hcn] at hname
    have h1 := congrArg List.length (suffix_inj _ _ _ (List.append_cancel_left hname))
    have h2 := congrArg List.length hp
    simp only [List.map_append, fixed_types, extra_types, call, List.length_map, List.length_append, List.length_drop, List.length_cons,
      List.length_nil] at h1 h2
    omega

/-! ### Parameters -/

theorem extra_names (m : Mode) : ∀ (ts : List Ty) (i : Nat), ∀ p ∈ extra m i ts, ∃ j, i ≤ j ∧ p.1 = paramName j
  | [], _, p, h => by cases h
  | t :: ts, i, p, h => by
    simp only [extra] at h
    rcases List.mem_cons.1 h with rfl | h
    · exact ⟨i, Nat.le_refl i, rfl⟩
    · obtain ⟨j, h1, h2⟩ := extra_names m ts (i + 1) p h
      exact ⟨j, by omega, h2⟩

theorem paramName_inj {i j : Nat} (h : paramName i = paramName j) : i = j := Naming.dec_inj (List.append_cancel_left h)

theorem extra_nodup (m : Mode) : ∀ (ts : List Ty) (i : Nat), ((extra m i ts).map (·.1)).Nodup
  | [], _ => .nil
  | t :: ts, i => by
    simp only [extra, List.map_cons, List.nodup_cons]
    refine ⟨fun h => ?_, extra_nodup m ts (i + 1)⟩
    rw [List.mem_map] at h
    obtain ⟨p, hp, he⟩ := h
    obtain ⟨j, h1, h2⟩ := extra_names m ts (i + 1) p hp
    rw [h2] at he
    have := paramName_inj he
    omega

/-- The parameters of a declaration have distinct names, if those of the function have and none of them is `p.` and a number. -/
theorem c68_params_partial {md : Module} {f : Func} (hd : (f.params.map (·.1)).Nodup) (hp : ∀ p ∈ f.params, ∀ i, p.1 ≠ paramName i) (s : Site)
    (hc : ¬ Special f) : ((procedure md f (some s)).params.map (·.1)).Nodup := by
  have hfix : ∀ l : List (Str × Str), (l.map (·.1)).Nodup → (∀ p ∈ l, ∃ i, p.1 = paramName i) →
      (((f.params.map fun p => (p.1, type md.mode p.2)) ++ l).map (·.1)).Nodup := by
    intro l h1 h2
    rw [List.map_append, List.nodup_append, List.map_map]
    refine ⟨hd, h1, ?_⟩
    intro a ha b hb he
    obtain ⟨p, hp', rfl⟩ := List.mem_map.1 ha
    obtain ⟨q, hq, rfl⟩ := List.mem_map.1 hb
    obtain ⟨i, hi⟩ := h2 q hq
    exact hp p hp' i (by rw [← hi]; exact he)
  rw [special_iff] at hc
  unfold procedure
  simp only
  rw [if_neg fun h => hc (.inl h), if_neg fun h => hc (.inr h)]
  generalize (s.direct && _) = b
  cases b
  · exact hfix _ (extra_nodup _ _ _) fun p h => by obtain ⟨j, _, h⟩ := extra_names _ _ _ p h; exact ⟨j, h⟩
  · exact hfix _ (by simp) fun p h => by rw [List.mem_singleton] at h; subst h; exact ⟨0, rfl⟩

/-! ### A module -/

namespace Ex

def f : Func := ⟨"f".toList, [("x".toList, .elem (.int 32))], some (.elem (.int 32)), true, false, false⟩
def g : Func := ⟨"g".toList, [("a".toList, .elem .ptr)], none, false, false, false⟩
def value : Func := ⟨"__SMACK_value".toList, [], some (.elem .ptr), true, true, false⟩
def returnValue : Func := ⟨"__SMACK_return_value".toList, [], some (.elem .ptr), false, false, true⟩

/-- `f(x, y)`, the same through a cast with a vector, an invoke of `g`, `__SMACK_value(x)` and `__SMACK_return_value()`. -/
def sites : List Site := [⟨0, true, false, [.elem (.int 32), .elem (.int 64)], some (.elem (.int 32)), none⟩,
  ⟨0, false, false, [.elem (.int 32), .vec 4 (.fp .float)], some (.elem (.int 32)), none⟩,
  ⟨1, true, true, [.elem .ptr], none, none⟩,
  ⟨2, true, false, [.elem (.int 32)], some (.elem .ptr), some (.elem (.int 64))⟩,
  ⟨3, true, false, [], some (.elem .ptr), some (.elem (.int 64))⟩,
  ⟨0, true, true, [.elem (.int 32)], some (.elem (.int 32)), none⟩]

/-- Values 0 to 3 are the functions, 4 is a cast of `f`, 5, 6, 8 and 9 are calls, 7 and 10 are invokes. -/
def users : Nat → List Nat
  | 0 => [5, 4, 10]
  | 1 => [7]
  | 2 => [8]
  | 3 => [9]
  | 4 => [6]
  | _ => []

def callAt : Nat → Option Nat
  | 5 => some 0
  | 6 => some 1
  | 8 => some 3
  | 9 => some 4
  | _ => none

def md : Module := ⟨⟨false, true⟩, [f, g, value, returnValue], sites, users, callAt, 11, []⟩

theorem reached3 {k u : Nat} (h : Reached md k u) (hk : k < 4) : u = 3 ∨ u = 9 → k = 3 := by
  induction h with
  | self => omega
  | step u v _ _ hv ih =>
    have hv : v ∈ users u := hv
    match u with
    | 0 | 1 | 2 | 4 => simp only [users, List.mem_cons, List.not_mem_nil, or_false] at hv; omega
    | 3 => exact fun _ => ih (.inl rfl)
    | n + 5 => simp [users] at hv

theorem wf : Wf md where
  bound := by decide
  funcs := by decide
  notCall := by decide
  site := by
    intro u c h
    have h : callAt u = some c := h
    unfold callAt at h
    split at h <;> first | cases h | skip
    all_goals exact ⟨_, rfl, rfl⟩
  returnValue := by
    intro k fn u c s hf hu hc hs hr
    have hk : k < 4 := (List.getElem?_eq_some_iff.1 hf).1
    have hc : callAt u = some c := hc
    unfold callAt at hc
    split at hc
    · cases hc
      obtain ⟨_, g, h1, h2⟩ := hr
      cases Option.some.inj hs
      cases Option.some.inj h1
      cases h2
    · cases hc
      obtain ⟨h, g, h1, h2⟩ := hr
      cases Option.some.inj hs
      cases h
    · cases hc
      obtain ⟨h, g, h1, h2⟩ := hr
      cases Option.some.inj hs
      cases Option.some.inj h1
      cases h2
    · have := reached3 hu hk (.inr rfl)
      subst this
      cases Option.some.inj hf
      rfl
    · cases hc

theorem namesOk : NamesOk md where
  distinct := by
    have : ∀ j < 4, ∀ k < 4, (md.funcs[j]?).map (·.name) = (md.funcs[k]?).map (·.name) → j = k := by decide
    intro j k f g hj hk h
    exact this j (List.getElem?_eq_some_iff.1 hj).1 k (List.getElem?_eq_some_iff.1 hk).1 (by rw [hj, hk]; simp [h])
  noExtension := by
    have : ∀ f ∈ md.funcs, ∀ g ∈ md.funcs, f.varArg = true → ¬ f.name ++ ['.'] <+: g.name := by decide
    intro j k f g hj hk
    exact this f (List.mem_of_getElem? hj) g (List.mem_of_getElem? hk)

/-- The hypotheses of `c68_calls_partial` hold for the call of the variadic function through a cast, -/
example : Legal (declarations md) (call md f ⟨0, false, false, [.elem (.int 32), .vec 4 (.fp .float)], some (.elem (.int 32)), none⟩) :=
  c68_calls_partial wf namesOk (k := 0) (c := 1) rfl rfl ⟨by decide, by decide, rfl⟩
    (fun _ => ⟨rfl, 6, .step 4 6 (.step 0 4 .self rfl (by decide)) rfl (by decide), rfl⟩) rfl rfl (by decide) (fun _ => by unfold Special; decide)

/-- and for the invoke; those of `c68_value` hold for both annotations; -/
example : Legal (declarations md) (call md g ⟨1, true, true, [.elem .ptr], none, none⟩) :=
  c68_calls_partial wf namesOk (k := 1) (c := 2) rfl rfl ⟨by decide, by decide, rfl⟩ (fun h => by cases h) rfl rfl (by decide) (fun h => by cases h)

example : Legal (declarations md) ⟨"__SMACK_value.i32".toList, ["i32".toList], ["ref".toList]⟩ :=
  c68_value wf namesOk (k := 2) (c := 3) (u := 8) rfl rfl rfl rfl rfl rfl rfl rfl rfl
    (.inl ⟨.step 2 8 .self rfl (by decide), rfl, by decide⟩)

example : Legal (declarations md) ⟨"__SMACK_value.i64".toList, ["i64".toList], ["ref".toList]⟩ :=
  c68_value wf namesOk (k := 2) (c := 4) (u := 9) rfl rfl rfl rfl rfl rfl rfl rfl rfl
    (.inr ⟨3, returnValue, by decide, rfl, .step 3 9 .self rfl (by decide), rfl, rfl, by decide⟩)

/-- those of `c68_invoke_fails` for the invoke of `f`, -/
example : ¬ Legal (declarations md) (call md f ⟨0, true, true, [.elem (.int 32)], some (.elem (.int 32)), none⟩) :=
  c68_invoke_fails wf namesOk (k := 0) rfl rfl rfl (by unfold Special; decide) rfl rfl

/-- and the declarations are these. -/
example : (declarations md).map (fun d => (String.ofList d.name, d.params.map fun p => (String.ofList p.1, String.ofList p.2))) =
    [("f.i32.i64", [("x", "i32"), ("p.1", "i64")]), ("f.i32.vec.4xbvfloat", [("x", "i32"), ("p.1", "vec.4xbvfloat")]), ("g", [("a", "ref")]),
      ("__SMACK_value.i32", [("p.0", "i32")]), ("__SMACK_value.i64", [("p.0", "i64")]), ("__SMACK_return_value", [])] := by decide +kernel

example : ((procedure md f (some ⟨0, true, false, [.elem (.int 32), .elem .ptr, .elem .ptr], none, none⟩)).params.map (·.1)).Nodup :=
  c68_params_partial (by decide) (by
    intro p hp i
    have : p.1 = ['x'] := by
      have : p ∈ [("x".toList, Ty.elem (.int 32))] := hp
      rw [List.mem_singleton] at this; subst this; rfl
    rw [this]; simp [paramName]) _ (by unfold Special; decide)

end Ex

/-! ### Where the code fails -/

/-- A module of functions and their direct calls only: function `k` is called at the site `k`. -/
def direct (fs : List Func) (ss : List Site) : Module :=
  ⟨⟨false, false⟩, fs, ss, fun u => if u < fs.length then [fs.length + u] else [],
    fun u => if fs.length ≤ u ∧ u < fs.length + ss.length then some (u - fs.length) else none, fs.length + ss.length, []⟩

def iv : Func := ⟨"f".toList, [], none, true, false, false⟩

/-- A function named like the version of a variadic function: two procedures of one name. -/
theorem c68_name_clash_fails : ∃ md : Module, ∃ s, md.sites[0]? = some s ∧ md.funcs[0]? = some iv ∧ SiteOk s iv ∧
    (∀ (j k : Nat) (f g : Func), md.funcs[j]? = some f → md.funcs[k]? = some g → f.name = g.name → j = k) ∧ ¬ Legal (declarations md) (call md iv s) := by
  refine ⟨direct [iv, ⟨"f.i32".toList, [("a".toList, .elem (.int 32))], none, false, false, false⟩]
    [⟨0, true, false, [.elem (.int 32)], none, none⟩, ⟨1, true, false, [.elem (.int 32)], none, none⟩], _, rfl, rfl, ⟨by decide, by decide, rfl⟩, ?_, ?_⟩
  · intro j k f g hj hk h
    have hj' : j < 2 := (List.getElem?_eq_some_iff.1 hj).1
    have hk' : k < 2 := (List.getElem?_eq_some_iff.1 hk).1
    match j, k, hj', hk' with
    | 0, 0, _, _ => rfl
    | 1, 1, _, _ => rfl
    | 0, 1, _, _ => cases hj; cases hk; simp [iv] at h
    | 1, 0, _, _ => cases hj; cases hk; simp [iv] at h
  · rintro ⟨d, h, _⟩
    have := congrArg List.length h
    rw [List.length_singleton] at this
    clear h
    revert this
    decide +kernel

/-- A function that is not variadic, called through a cast with more arguments than it has parameters: the call has more arguments than the
procedure has parameters. -/
theorem c68_cast_fails : ∃ md : Module, ∃ s f, md.sites[0]? = some s ∧ s.callee = 0 ∧ md.funcs = [f] ∧ f.varArg = false ∧
    ¬ Legal (declarations md) (call md f s) := by
  refine ⟨direct [⟨"f".toList, [], none, false, false, false⟩] [⟨0, false, false, [.elem (.int 32)], none, none⟩], _, _, rfl, rfl, rfl, rfl, ?_⟩
  rintro ⟨d, h, h2, _⟩
  have h1 : (declarations (direct [⟨"f".toList, [], none, false, false, false⟩] [⟨0, false, false, [.elem (.int 32)], none, none⟩])) = [d] := by
    rw [← h]; decide +kernel
  have : d = ⟨"f".toList, [], []⟩ := by
    have : [d] = [⟨"f".toList, [], []⟩] := by rw [← h1]; decide +kernel
    exact List.cons.inj this |>.1
  subst this
  revert h2
  decide

/-- `__SMACK_return_value` in a module that has no `__SMACK_value`: the procedure called is not declared. -/
theorem c68_return_value_fails : ∃ md : Module, ∃ s, md.sites[0]? = some s ∧ md.funcs = [Ex.returnValue] ∧ SiteOk s Ex.returnValue ∧
    ¬ Legal (declarations md) (returnValueCall md s) := by
  refine ⟨direct [Ex.returnValue] [⟨0, true, false, [], some (.elem .ptr), some (.elem (.int 32))⟩], _, rfl, rfl, ⟨by decide, by decide, rfl⟩, ?_⟩
  rintro ⟨d, h, _⟩
  have := congrArg List.length h
  rw [List.length_singleton] at this
  clear h
  revert this
  decide +kernel

/-- A parameter named `p.1` of a variadic function clashes with the one for the second argument. -/
theorem c68_params_fails : ∃ (md : Module) (f : Func) (s : Site), (f.params.map (·.1)).Nodup ∧ SiteOk s f ∧
    ¬ ((procedure md f (some s)).params.map (·.1)).Nodup :=
  ⟨Ex.md, ⟨"f".toList, [("p.1".toList, .elem (.int 32))], none, true, false, false⟩,
    ⟨0, true, false, [.elem (.int 32), .elem (.int 32)], none, none⟩, by decide, ⟨by decide, by decide, rfl⟩, by decide +kernel⟩

end Smack.Calls
