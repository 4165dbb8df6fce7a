import Verif.Dispatch.Spec
import Verif.Graphs.Props
import Verif.Naming.Props

namespace Smack.Dispatch

open Naming (Str Rx shouldCheckFunction isRustPanic isRustNameMatch ident)
open Spec

theorem contains_iff (p s : Str) : contains p s = true ↔ p <:+: s := by
  unfold contains
  rw [Graphs.hasInfix_iff]
  constructor
  · rintro ⟨a, b, h⟩; exact ⟨a, b, h.symm⟩
  · rintro ⟨a, b, h⟩; exact ⟨a, b, h.symm⟩

theorem not_contains_iff (p s : Str) : contains p s = false ↔ ¬ p <:+: s := by
  rw [← contains_iff, Bool.not_eq_true]

theorem startsWith_iff (p s : Str) : startsWith p s = true ↔ p <+: s := List.isPrefixOf_iff_prefix

theorem not_startsWith_iff (p s : Str) : p.isPrefixOf s = false ↔ ¬ p <+: s := by
  rw [← List.isPrefixOf_iff_prefix, Bool.not_eq_true]

theorem check_iff (o : Opts) (fn : Str) : shouldCheckFunction o.checked fn = true ↔ Wanted o fn := Naming.c59_should_check _ _

theorem check_false (o : Opts) (fn : Str) : shouldCheckFunction o.checked fn = false ↔ ¬ Wanted o fn := by
  rw [← check_iff, Bool.not_eq_true]

theorem panic_iff (f : Str) : isRustPanic f = true ↔ Panics f := by
  rw [Naming.c62_panic_iff]
  unfold Panics Naming.rustPanics
  constructor
  · rintro ⟨p, hp, h⟩
    obtain ⟨q, hq, rfl⟩ := List.mem_map.1 hp
    exact ⟨q, hq, h⟩
  · rintro ⟨p, hp, h⟩
    exact ⟨_, List.mem_map.2 ⟨p, hp, rfl⟩, h⟩

theorem externalPart_eq (s : Site) [Decidable (External s)] : externalPart s = if External s then [.assumeExternal] else [] := by
  have : (s.isDecl && !externalIgnore (ident s.callee) && isExternal s) = true ↔ External s := by
    unfold externalIgnore isExternal External
    simp only [Bool.and_eq_true, Bool.not_eq_true', Bool.or_eq_false_iff, beq_iff_eq, beq_eq_false_iff_ne, ne_eq]
    constructor
    · rintro ⟨⟨a, b, c⟩, d, e⟩; exact ⟨a, d, e, b, c⟩
    · rintro ⟨a, d, e, b, c⟩; exact ⟨⟨a, b, c⟩, d, e⟩
  unfold externalPart
  by_cases h : External s
  · rw [if_pos h, if_pos (this.2 h)]
  · rw [if_neg h, if_neg fun e => h (this.1 e)]

theorem recordPart_eq (s : Site) [Decidable (Recorded s)] : recordPart s = if Recorded s then [.record (ident s.callee)] else [] := by
  have : ((startsWith "__SMACK".toList (ident s.callee) || startsWith "__VERIFIER".toList (ident s.callee)) && s.ret != .void) = true
      ↔ Recorded s := by
    unfold Recorded
    rw [Bool.and_eq_true, Bool.or_eq_true, startsWith_iff, startsWith_iff, bne_iff_ne, and_comm]
  unfold recordPart
  by_cases h : Recorded s
  · rw [if_pos h, if_pos (this.2 h)]
  · rw [if_neg h, if_neg fun e => h (this.1 e)]

theorem after_eq (s : Site) : externalPart s ++ recordPart s = after s := by
  classical
  unfold after
  rw [externalPart_eq, recordPart_eq]

theorem no_call_after (s : Site) (f : Str) : Act.call f ∉ after s := by
  unfold after
  split <;> split <;> simp

theorem no_panic_after (s : Site) : Act.assertPanic ∉ after s := by
  unfold after
  split <;> split <;> simp

theorem visitCall_of (o : Opts) (s : Site) (h : s.asm = false) {a : List Act} (hc : choose o s = some (some a)) :
    visitCall o s = some (a ++ after s) := by
  unfold visitCall
  rw [h, hc, ← after_eq, ← List.append_assoc]
  rfl

/-! ## Allocation names -/

theorem foldl_none (l : List (Str × Str)) (f c : Str) (h : ∀ kv ∈ l, isRustNameMatch kv.1 f = false) :
    l.foldl (fun cur kv => if isRustNameMatch kv.1 f then kv.2 else cur) c = c := by
  induction l generalizing c with
  | nil => rfl
  | cons kv l ih =>
    rw [List.foldl_cons, h kv (List.mem_cons_self ..)]
    exact ih c fun x hx => h x (List.mem_cons_of_mem _ hx)

theorem foldl_some (l : List (Str × Str)) (f c v : Str) (h : ∀ kv ∈ l, isRustNameMatch kv.1 f = true → kv.2 = v)
    (he : c = v ∨ ∃ kv ∈ l, isRustNameMatch kv.1 f = true) :
    l.foldl (fun cur kv => if isRustNameMatch kv.1 f then kv.2 else cur) c = v := by
  induction l generalizing c with
  | nil =>
    rcases he with he | ⟨_, hx, _⟩
    · exact he
    · cases hx
  | cons kv l ih =>
    rw [List.foldl_cons]
    refine ih _ (fun x hx => h x (List.mem_cons_of_mem _ hx)) ?_
    cases hm : isRustNameMatch kv.1 f with
    | true => exact .inl (h kv (List.mem_cons_self ..) hm)
    | false =>
      rcases he with he | ⟨x, hx, hxm⟩
      · exact .inl he
      · rcases List.mem_cons.1 hx with rfl | hx
        · rw [hm] at hxm; cases hxm
        · exact .inr ⟨x, hx, hxm⟩

theorem allocFns_keys : ∀ kv ∈ allocFns, kv.1 ∈ Naming.allocKeys := by decide +kernel

theorem allocFns_fun : ∀ a ∈ allocFns, ∀ b ∈ allocFns, a.1 = b.1 → a.2 = b.2 := by decide +kernel

theorem std_suffix : ∀ k ∈ ["_ZN5alloc5alloc5alloc17h", "_ZN5alloc5alloc12alloc_zeroed17h", "_ZN5alloc5alloc7dealloc17h",
    "_ZN5alloc5alloc7realloc17h"], ("17h".toList).isSuffixOf k.toList = true := by decide +kernel

theorem prim_suffix : ∀ k ∈ ["__rust_alloc", "__rust_alloc_zeroed", "__rust_dealloc", "__rust_realloc"],
    ("17h".toList).isSuffixOf k.toList = false := by decide +kernel

theorem allocFor_iff (f k : Str) : AllocFor f k ↔ ∃ kv ∈ allocFns, isRustNameMatch kv.1 f = true ∧ kv.2 = k := by
  constructor
  · rintro (⟨k, r, h, hk, hh⟩ | ⟨k, r, hk⟩)
    · have hmem : (k.toList, r.toList) ∈ allocFns := by
        unfold allocFns
        exact List.mem_map.2 ⟨(k, r), by simp only [List.mem_cons] at hk ⊢; rcases hk with hk | hk | hk | hk | hk <;> simp_all, rfl⟩
      refine ⟨_, hmem, ?_, rfl⟩
      rw [Naming.c62_alloc_iff]
      rcases hh with hh | rfl
      · right
        refine ⟨?_, h, hh, rfl⟩
        rw [← List.isSuffixOf_iff_suffix]
        refine std_suffix k ?_
        simp only [List.mem_cons, Prod.mk.injEq] at hk ⊢
        rcases hk with hk | hk | hk | hk | hk <;> simp_all
      · left; simp
    · have hmem : (k.toList, r.toList) ∈ allocFns := by
        unfold allocFns
        exact List.mem_map.2 ⟨(k, r), by simp only [List.mem_cons] at hk ⊢; rcases hk with hk | hk | hk | hk | hk <;> simp_all, rfl⟩
      refine ⟨_, hmem, ?_, rfl⟩
      rw [Naming.c62_alloc_iff]
      exact .inl rfl
  · rintro ⟨⟨a, b⟩, hm, hmatch, rfl⟩
    unfold allocFns at hm
    obtain ⟨⟨ks, rs⟩, hp, he⟩ := List.mem_map.1 hm
    have ea : ks.toList = a := congrArg Prod.fst he
    have eb : rs.toList = b := congrArg Prod.snd he
    subst ea eb
    rw [Naming.c62_alloc_iff] at hmatch
    simp only [List.mem_cons, Prod.mk.injEq, List.not_mem_nil, or_false] at hp
    have split : (ks, rs) ∈ [("_ZN5alloc5alloc5alloc17h", "__smack_rust_std_alloc"),
        ("_ZN5alloc5alloc12alloc_zeroed17h", "__smack_rust_std_alloc_zeroed"), ("_ZN5alloc5alloc7dealloc17h", "__smack_rust_std_dealloc"),
        ("_ZN5alloc5alloc7realloc17h", "__smack_rust_std_realloc")] ∨ (ks, rs) ∈ [("__rust_alloc", "__smack_rust_prim_alloc"),
        ("__rust_alloc_zeroed", "__smack_rust_prim_alloc_zeroed"), ("__rust_dealloc", "__smack_rust_prim_dealloc"),
        ("__rust_realloc", "__smack_rust_prim_realloc")] := by
      simp only [List.mem_cons, Prod.mk.injEq, List.not_mem_nil, or_false]
      rcases hp with h | h | h | h | h | h | h | h <;> simp [h]
    rcases split with hs | hs
    · rcases hmatch with hmatch | ⟨_, h, hl, hmatch⟩
      · rw [hmatch]
        have := AllocFor.std ks rs [] hs (.inr rfl)
        rwa [List.append_nil] at this
      · rw [hmatch]
        exact AllocFor.std ks rs h hs (.inl hl)
    · rcases hmatch with hmatch | ⟨hsuf, _⟩
      · rw [hmatch]
        exact AllocFor.prim ks rs hs
      · rw [← List.isSuffixOf_iff_suffix, prim_suffix ks] at hsuf
        · cases hsuf
        · simp only [List.mem_cons, Prod.mk.injEq, List.not_mem_nil, or_false] at hs ⊢
          rcases hs with h | h | h | h <;> simp [h.1]

theorem allocCallee_for {f k : Str} (h : AllocFor f k) : allocCallee f = k := by
  obtain ⟨kv, hkv, hm, rfl⟩ := (allocFor_iff f k).1 h
  unfold allocCallee
  refine foldl_some _ _ _ _ ?_ (.inr ⟨kv, hkv, hm⟩)
  intro x hx hxm
  exact allocFns_fun x hx kv hkv (Naming.c62_alloc_unique f _ _ (allocFns_keys x hx) (allocFns_keys kv hkv) hxm hm)

theorem allocCallee_none {f : Str} (h : ∀ k, ¬ AllocFor f k) : allocCallee f = f := by
  unfold allocCallee
  refine foldl_none _ _ _ ?_
  intro kv hkv
  cases hm : isRustNameMatch kv.1 f with
  | false => rfl
  | true => exact absurd ((allocFor_iff f kv.2).2 ⟨kv, hkv, hm, rfl⟩) (h _)

/-- No name is both. -/
theorem panic_not_alloc {f k : Str} (hp : Panics f) (ha : AllocFor f k) : False := by
  obtain ⟨p, hp, h, -, rfl⟩ := hp
  obtain ⟨kv, hkv, hm, -⟩ := (allocFor_iff _ _).1 ha
  have h1 : kv.1 <+: p.toList ++ h := by
    rcases (Naming.c62_alloc_iff _ _).1 hm with e | ⟨-, t, -, e⟩
    · rw [← e]; exact List.prefix_refl _
    · rw [e]; exact List.prefix_append _ _
  have key : ∀ q ∈ panicPrefixes, ∀ kv ∈ allocFns, kv.1.isPrefixOf q.toList = false ∧ q.toList.isPrefixOf kv.1 = false := by decide +kernel
  obtain ⟨k1, k2⟩ := key p hp kv hkv
  rcases List.prefix_or_prefix_of_prefix h1 (List.prefix_append p.toList h) with h | h
  · rw [← List.isPrefixOf_iff_prefix, k1] at h; cases h
  · rw [← List.isPrefixOf_iff_prefix, k2] at h; cases h

theorem fixInst_panic {f : Str} (n : Nat) (g : Option (Str × Ret)) (r : Ret) (h : isRustPanic f = true) :
    fixInst (.call n f g r) = .call n RUST_PANIC_MARKER none .void := by
  show (if isRustPanic f = true then _ else _) = _
  rw [h]; rfl

theorem fixInst_call {f : Str} (n : Nat) (g : Option (Str × Ret)) (r : Ret) (h : isRustPanic f = false) :
    fixInst (.call n f g r) = .call n (allocCallee f) g r := by
  show (if isRustPanic f = true then _ else _) = _
  rw [h]; rfl

theorem fixInst_fixed (i : Inst) : Fixed false i [fixInst i] := by
  cases i with
  | call n f g r =>
    cases hp : isRustPanic f with
    | true => rw [fixInst_panic n g r hp]; exact .panic _ _ _ _ _ ((panic_iff f).1 hp) (fun h => nomatch h)
    | false =>
      rw [fixInst_call n g r hp]
      have hnp : ¬ Panics f := fun h => by rw [(panic_iff f).2 h] at hp; cases hp
      by_cases ha : ∃ k, AllocFor f k
      · obtain ⟨k, ha⟩ := ha
        rw [allocCallee_for ha]
        exact .alloc _ _ _ _ _ _ ha (fun h => nomatch h)
      · have ha' : ∀ k, ¬ AllocFor f k := fun k h => ha ⟨k, h⟩
        rw [allocCallee_none ha']
        exact .call _ _ _ _ _ hnp ha' (fun h => nomatch h)
  | zero n => exact .zero _ _
  | invoke n f => exact .invoke _ _ _
  | other n => exact .other _ _

theorem fixed_of_not {i : Inst} {l : List Inst} (h : Fixed false i l) (hn : ∀ n f g r, i = .call n f g r → ¬ LangStart f) :
    Fixed true i l := by
  cases h with
  | panic _ n f g r hp _ => exact .panic _ _ _ _ _ hp fun _ => hn _ _ _ _ rfl
  | alloc _ n f g r k ha _ => exact .alloc _ _ _ _ _ _ ha fun _ => hn _ _ _ _ rfl
  | call _ n f g r hp ha _ => exact .call _ _ _ _ _ hp ha fun _ => hn _ _ _ _ rfl
  | zero _ n => exact .zero _ _
  | invoke _ n f => exact .invoke _ _ _
  | other _ n => exact .other _ _

theorem fixEntryInst_start {f : Str} (n : Nat) (m : Str × Ret) (r : Ret) (h : contains RUST_ENTRY f = true) :
    fixEntryInst (.call n f (some m) r) = [.zero n, .call n m.1 none m.2] := by
  show (if contains RUST_ENTRY f = true then _ else _) = _
  rw [h]; rfl

theorem fixEntryInst_none {f : Str} (n : Nat) (r : Ret) : fixEntryInst (.call n f none r) = [.call n f none r] := by
  show (if contains RUST_ENTRY f = true then [Inst.call n f none r] else [Inst.call n f none r]) = _
  split <;> rfl

theorem fixEntryInst_other {f : Str} (n : Nat) (g : Option (Str × Ret)) (r : Ret) (h : contains RUST_ENTRY f = false) :
    fixEntryInst (.call n f g r) = [.call n f g r] := by
  unfold fixEntryInst
  simp only [h]
  rfl

theorem fixEntryInst_fixed (i : Inst) : Fixed true i ((fixEntryInst i).map fixInst) := by
  cases i with
  | call n f g r =>
    cases hc : contains RUST_ENTRY f with
    | true =>
      have hl : LangStart f := (contains_iff _ _).1 hc
      cases g with
      | none => rw [fixEntryInst_none]; exact .noMain _ _ _ _ hl (fixInst_fixed _)
      | some m => rw [fixEntryInst_start n m r hc]; exact .entry _ _ m.1 m.2 _ _ hl (fixInst_fixed (.call n m.1 none m.2))
    | false =>
      rw [fixEntryInst_other n g r hc]
      refine fixed_of_not (fixInst_fixed _) ?_
      intro _ _ _ _ e
      cases e
      exact (not_contains_iff _ _).1 hc
  | zero n => exact .zero _ _
  | invoke n f => exact .invoke _ _ _
  | other n => exact .other _ _

theorem replace_each (b : List Inst) : ∃ ls, Each (Fixed false) b ls ∧ replaceSpecial b = ls.flatten := by
  induction b with
  | nil => exact ⟨[], .nil, rfl⟩
  | cons i b ih =>
    obtain ⟨ls, h1, h2⟩ := ih
    refine ⟨[fixInst i] :: ls, .cons (fixInst_fixed i) h1, ?_⟩
    show fixInst i :: replaceSpecial b = _
    rw [h2]; rfl

theorem main_each (b : List Inst) : ∃ ls, Each (Fixed true) b ls ∧ replaceSpecial (fixEntry b) = ls.flatten := by
  induction b with
  | nil => exact ⟨[], .nil, rfl⟩
  | cons i b ih =>
    obtain ⟨ls, h1, h2⟩ := ih
    refine ⟨(fixEntryInst i).map fixInst :: ls, .cons (fixEntryInst_fixed i) h1, ?_⟩
    unfold replaceSpecial fixEntry at h2 ⊢
    rw [List.flatMap_cons, List.map_append, h2]; rfl

end Smack.Dispatch
