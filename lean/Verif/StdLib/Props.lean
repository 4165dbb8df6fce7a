/-
C78: `strtok` splits a string into its tokens. C79: the other functions of stdlib.c, and `strerror`.
-/
import Verif.StdLib.Step

namespace Smack.StdLib

open CString (Mem Byte wr strlen strspn strpbrk Str Apart Frame Room)
open Spec

theorem split_cases {D x : List Byte} {ts : List (Nat × Nat)} (h : Tokens D x ts) (hne : ts ≠ []) :
    ∃ pre t r, x = pre ++ (t ++ r) ∧ (∀ b ∈ pre, b ∈ D) ∧ (∀ b ∈ t, b ∉ D) ∧ t ≠ [] ∧ (r = [] ∨ ∃ c r', r = c :: r' ∧ c ∈ D) := by
  rcases split_string D x with h' | h'
  · exact absurd (tokens_unique h (tokens_all h')) hne
  · exact h'

theorem tokens_nil {D x : List Byte} (h : Tokens D x []) : ∀ b ∈ x, b ∈ D := by
  rcases split_string D x with h' | ⟨pre, t, r, rfl, hp, ht, hne, hr⟩
  · exact h'
  · exact absurd ((h.mem _ _).2 (isTok_head hp ht hne hr)) (by simp)

/-- C78: every string has exactly one list of tokens. -/
theorem c78_tokens_exist (D x : List Byte) : ∃ ts, Tokens D x ts ∧ ∀ ts', Tokens D x ts' → ts' = ts := by
  have h : ∀ n, ∀ x : List Byte, x.length = n → ∃ ts, Tokens D x ts := by
    intro n
    induction n using Nat.strongRecOn with
    | ind n ih =>
      intro x hn
      rcases split_string D x with h' | ⟨pre, t, r, rfl, hp, ht, hne, rfl | ⟨c, r', rfl, hc⟩⟩
      · exact ⟨_, tokens_all h'⟩
      · exact ⟨_, by simpa using tokens_last hp ht hne⟩
      · obtain ⟨ts, hts⟩ := ih r'.length (by simp only [List.length_append, List.length_cons] at hn; omega) r' rfl
        exact ⟨_, tokens_more hp ht hne hc hts⟩
  obtain ⟨ts, hts⟩ := h _ x rfl
  exact ⟨ts, hts, fun ts' h' => tokens_unique h' hts⟩

theorem results_get (s n : Nat) (ts : List (Nat × Nat)) (k : Nat) (hk : k < n) :
    (results s n ts)[k]? = some (ts[k]?.map fun t => s + t.1) := by
  unfold results
  rw [List.getElem?_take_of_lt hk]
  rcases Nat.lt_or_ge k ts.length with h | h
  · rw [List.getElem?_append_left (by simpa using h), List.getElem?_map, List.getElem?_eq_getElem h]
    rfl
  · rw [List.getElem?_append_right (by simpa using h), List.getElem?_eq_none h, List.getElem?_replicate]
    simp only [List.length_map, Option.map_none]
    rw [if_pos (by omega)]

theorem tokenise_further {m : Mem} {o : Option Nat} {s d n : Nat} {x y : List Byte} {ts : List (Nat × Nat)} (hx : Str m s x)
    (hy : Str m d y) (ht : Tokens y x ts) (ho : ts ≠ []) : tokenise m o s d n = further d m (some s) (n + 1) := by
  obtain ⟨pre, t, r, rfl, hp, h2, h3, h4⟩ := split_cases ht ho
  have k1 := strtok_tok (olds := o) (str := some s) rfl hx hy hp h2 h3
  have k2 := strtok_tok (olds := some s) (str := none) rfl hx hy hp h2 h3
  have : strtok m o (some s) d = strtok m (some s) none d := by
    rcases h4 with h4 | h4
    · rw [k1.1 h4, k2.1 h4]
    · obtain ⟨m1, e1, f1⟩ := k1.2 h4
      obtain ⟨m2, e2, f2⟩ := k2.2 h4
      have : m1 = m2 := by funext a; rw [f1, f2]
      rw [e1, e2, this]
  unfold tokenise
  rw [this]
  rfl

/-- C78: calling `strtok` with a string and then with a null pointer returns the tokens from left to right and after the last one null; every
returned token is a string; the only bytes that change are the delimiters that end the returned tokens. -/
theorem c78_tokens_partial (m : Mem) (o : Option Nat) (s d n : Nat) (x y : List Byte) (ts : List (Nat × Nat)) (hx : Str m s x)
    (hy : Str m d y) (hap : Apart s (x.length + 1) d (y.length + 1)) (ht : Tokens y x ts) (ho : ts ≠ [] ∨ o = none) :
    ∃ m' o' rs, tokenise m o s d n = some (m', o', rs) ∧ rs.length = n + 1 ∧
      (∀ k, k ≤ n → rs[k]? = some (ts[k]?.map fun t => s + t.1)) ∧ Cut m m' s x.length (ts.take (n + 1)) ∧
      ∀ t ∈ ts.take (n + 1), Str m' (s + t.1) ((x.drop t.1).take t.2) := by
  have main : ∃ m' o', tokenise m o s d n = some (m', o', results s (n + 1) ts) ∧ Cut m m' s x.length (ts.take (n + 1)) := by
    rcases Decidable.em (ts = []) with h | h
    · subst h
      have ho' : o = none := by rcases ho with h | h; exact absurd rfl h; exact h
      subst ho'
      refine ⟨m, none, ?_, by simpa using cut_refl m s x.length⟩
      unfold tokenise
      rw [strtok_all rfl hx hy (tokens_nil ht), Option.bind_some, further_none, Option.bind_some, results_nil, List.replicate_succ]
    · rw [tokenise_further hx hy ht h]
      obtain ⟨ts', hts', m', o', h1, h2⟩ := further_spec (n + 1) hx hy hap
      rw [tokens_unique hts' ht] at h1 h2
      exact ⟨m', o', h1, h2⟩
  obtain ⟨m', o', h1, h2⟩ := main
  refine ⟨m', o', _, h1, ?_, fun k hk => results_get s (n + 1) ts k (by omega), h2, ?_⟩
  · unfold results
    rw [List.length_take]
    simp
  · rintro ⟨i, l⟩ htk
    have htok : IsTok y x i l := (ht.mem i l).1 (List.mem_of_mem_take htk)
    have hw := htok.within
    show Str m' (s + i) ((x.drop i).take l)
    refine ⟨?_, fun h0 => hx.nonzero (List.mem_of_mem_drop (List.mem_of_mem_take h0))⟩
    have hl : ((x.drop i).take l).length = l := by
      rw [List.length_take, List.length_drop]; omega
    intro k b hb
    have hk : k < l + 1 := by
      have := (List.getElem?_eq_some_iff.1 hb).1
      rw [List.length_append, hl] at this
      exact this
    rcases Nat.lt_or_ge k l with hlt | hge
    · rw [List.getElem?_append_left (by omega), List.getElem?_take_of_lt hlt, List.getElem?_drop] at hb
      have hm : m (s + (i + k)) = some b := hx.bytes (i + k) b (by
        rw [List.getElem?_append_left (by omega)]; exact hb)
      rw [Nat.add_assoc, (h2 (s + (i + k))).2, hm]
      rintro ⟨⟨i', l'⟩, ht', e, hlt'⟩
      have htok' : IsTok y x i' l' := (ht.mem i' l').1 (List.mem_of_mem_take ht')
      have := htok'.after hlt'
      refine htok.free (i + k) (by omega) (by omega) ?_
      rw [show i + k = i' + l' by dsimp only at e; omega]
      exact this
    · have hkl : k = l := by omega
      subst hkl
      rw [List.getElem?_append_right (by omega), hl, Nat.sub_self] at hb
      cases hb
      rcases Nat.lt_or_ge (i + k) x.length with hin | hend
      · rw [Nat.add_assoc]
        exact (h2 (s + (i + k))).1 ⟨(i, k), htk, rfl, hin⟩
      · have hend' : i + k = x.length := by omega
        rw [Nat.add_assoc, (h2 _).2]
        · rw [hend']
          exact str_stop hx
        · rintro ⟨⟨i', l'⟩, ht', e, hlt'⟩
          dsimp only at e hlt'
          omega

/-- C78: one call, with any delimiters (they may differ from call to call), continuing from `o` or beginning with a string. -/
theorem c78_call (m : Mem) (o str : Option Nat) (s d : Nat) (x y : List Byte) (hs : str = some s ∨ str = none ∧ o = some s) (hx : Str m s x)
    (hy : Str m d y) :
    ((∀ b ∈ x, b ∈ y) ∧ strtok m o str d = some (m, o, none)) ∨
    ∃ i n, IsTok y x i n ∧ (∀ j k, IsTok y x j k → i ≤ j) ∧
      ((i + n = x.length ∧ strtok m o str d = some (m, none, some (s + i))) ∨
        (i + n < x.length ∧ strtok m o str d =
          some (fun a => if a = s + (i + n) then some 0 else m a, some (s + (i + n + 1)), some (s + i)))) := by
  have hst : start o str = some s := by
    rcases hs with rfl | ⟨rfl, rfl⟩ <;> rfl
  rcases split_string y x with h | ⟨pre, t, r, rfl, hp, ht, hne, hr⟩
  · exact .inl ⟨h, strtok_all hst hx hy h⟩
  · right
    have hk := strtok_tok hst hx hy hp ht hne
    refine ⟨pre.length, t.length, isTok_head hp ht hne hr, ?_, ?_⟩
    · intro j k hj
      rcases Nat.lt_or_ge j (pre.length + t.length) with hlt | hge
      · rw [(isTok_first hp ht hr hj hlt).1]
        exact Nat.le_refl _
      · omega
    · rcases hr with rfl | hr
      · exact .inl ⟨by simp, hk.1 rfl⟩
      · obtain ⟨m', e, hm'⟩ := hk.2 hr
        obtain ⟨c, r', rfl, hc⟩ := hr
        refine .inr ⟨by simp only [List.length_append, List.length_cons]; omega, ?_⟩
        rw [e]
        congr 2
        funext a
        exact hm' a

/-- C78: with no string to continue, null is returned and nothing changes. -/
theorem c78_null (m : Mem) (d n : Nat) : further d m none n = some (m, none, List.replicate n none) := further_none d m n

/-- C78 fails for a string that has no tokens when an earlier string was not finished: the call with the new string returns null, but the
next call with a null pointer returns a token of the earlier string. -/
theorem c78_stale_fails (m : Mem) (s p d : Nat) (x y z : List Byte) (ts : List (Nat × Nat)) (hx : Str m s x) (hy : Str m d y)
    (hz : Str m p z) (h1 : Tokens y x []) (h2 : Tokens y z ts) (hne : ts ≠ []) :
    ∃ m' o' t, ts.head? = some t ∧ tokenise m (some p) s d 1 = some (m', o', [none, some (p + t.1)]) := by
  have e1 := strtok_all (olds := some p) (str := some s) rfl hx hy (tokens_nil h1)
  obtain ⟨pre, t, r, rfl, hp, ht, hn, hr⟩ := split_cases h2 hne
  have hk := strtok_tok (olds := some p) (str := none) rfl hz hy hp ht hn
  have hhead : ts.head? = some (pre.length, t.length) := by
    rcases hr with rfl | ⟨c, r', rfl, hc⟩
    · rw [tokens_unique h2 (by simpa using tokens_last hp ht hn)]
      rfl
    · obtain ⟨ts', h', _⟩ := c78_tokens_exist y r'
      rw [tokens_unique h2 (tokens_more hp ht hn hc h')]
      rfl
  rcases hr with hr | hr
  · refine ⟨m, none, _, hhead, ?_⟩
    simp only [tokenise, e1, Option.bind_some, further, hk.1 hr]
  · obtain ⟨m', e, _⟩ := hk.2 hr
    refine ⟨m', some (p + (pre.length + t.length + 1)), _, hhead, ?_⟩
    simp only [tokenise, e1, Option.bind_some, further, e]

/-- The memory of the examples: `l` at 100. -/
private def at100 (l : List Byte) : Mem := fun a => if a < 100 then none else l[a - 100]?

private theorem at100_bytes (l : List Byte) (p : Nat) (x : List Byte) (h : (l.drop p).take x.length = x) :
    CString.Bytes (at100 l) (100 + p) x := by
  intro i b hb
  rw [← h] at hb
  have hi : i < x.length := by
    have := (List.getElem?_eq_some_iff.1 hb).1
    rw [h] at this
    exact this
  rw [List.getElem?_take_of_lt hi, List.getElem?_drop] at hb
  show (if _ then _ else _) = _
  rw [if_neg (by omega), show 100 + p + i - 100 = p + i by omega, hb]

-- `",a,,bc"` (44 is the comma) at 100, `","` at 107, `",,"` at 109
private def exM : Mem := at100 [44, 97, 44, 44, 98, 99, 0, 44, 0, 44, 44, 0]

private theorem ex_s : Str exM 100 [44, 97, 44, 44, 98, 99] := ⟨at100_bytes _ 0 _ rfl, by decide⟩
private theorem ex_d : Str exM 107 [44] := ⟨at100_bytes _ 7 _ rfl, by decide⟩
private theorem ex_c : Str exM 109 [44, 44] := ⟨at100_bytes _ 9 _ rfl, by decide⟩
private theorem ex_t : Tokens [44] [44, 97, 44, 44, 98, 99] [(1, 1), (4, 2)] := by
  have h2 : Tokens [44] [44, 98, 99] [(1, 2)] := tokens_last (pre := [44]) (t := [98, 99]) (by decide) (by decide) (by decide)
  exact tokens_more (pre := [44]) (t := [97]) (c := 44) (by decide) (by decide) (by decide) (by decide) h2
private theorem ex_n : Tokens [44] [44, 44] [] := tokens_all (by decide)

-- the hypotheses of `c78_tokens_partial`; the results are `a` at 101, `bc` at 104, then null
example : (tokenise exM none 100 107 3).map (·.2.2) = some [some 101, some 104, none, none] := by
  obtain ⟨m', o', rs, h, hl, hr, _⟩ := c78_tokens_partial exM none 100 107 3 _ _ _ ex_s ex_d (.inl (by decide)) ex_t (.inr rfl)
  rw [h]
  show some rs = _
  congr 1
  apply List.ext_getElem?
  intro k
  rcases Nat.lt_or_ge k 4 with h4 | h4
  · rw [hr k (by omega)]
    match k, h4 with
    | 0, _ => rfl
    | 1, _ => rfl
    | 2, _ => rfl
    | 3, _ => rfl
  · rw [List.getElem?_eq_none (by omega), List.getElem?_eq_none (by simpa using h4)]

-- the hypotheses of `c78_stale_fails`: after the `a` of the first string, the string `",,"` is begun; the next result is `bc`
example : ∃ m' o' t, [((1 : Nat), (1 : Nat)), (4, 2)].head? = some t ∧ tokenise exM (some 100) 109 107 1 = some (m', o', [none, some (100 + t.1)]) :=
  c78_stale_fails exM 109 100 107 _ _ _ _ ex_c ex_d ex_s ex_n ex_t (by simp)

/-! ### C79 -/

/-- C79, the numeric conversions (strtol, strtoul, strtoull, strtod): whatever value and whatever end of the number the standard prescribes, there
is an execution with them, when the position fits in 32 bits; only `*endptr` is written. -/
theorem c79_strto_possible_partial {α : Type} (m : Mem) (pm : Nat → Option Nat) (nptr : Nat) (endptr : Option Nat) (x : List Byte)
    (hx : Str m nptr x) (v : α) (k : Nat) (hk : k ≤ x.length) (h32 : k < 2 ^ 32) :
    ∃ nondet pm', strto m pm nptr endptr nondet v = some (.ret (pm', v)) ∧ ∀ a, pm' a = if endptr = some a then some (nptr + k) else pm a := by
  refine ⟨BitVec.ofNat 32 k, ?_⟩
  cases endptr with
  | none => exact ⟨pm, rfl, fun a => by simp⟩
  | some e =>
    refine ⟨fun a => if a = e then some (nptr + k) else pm a, ?_, fun a => by simp [eq_comm]⟩
    have hn : (BitVec.ofNat 32 k).toNat = k := by rw [BitVec.toNat_ofNat, Nat.mod_eq_of_lt h32]
    have hl := CString.c54_strlen m nptr x hx
    simp only [strto, hl, hn]
    show (if k ≤ x.length then _ else _) = _
    rw [if_pos hk]

/-- C79: the end of the number is never outside the string, and nothing else is written. -/
theorem c79_strto_sound {α : Type} (m : Mem) (pm pm' : Nat → Option Nat) (nptr : Nat) (endptr : Option Nat) (x : List Byte)
    (hx : Str m nptr x) (nondet : BitVec 32) (v v' : α) (h : strto m pm nptr endptr nondet v = some (.ret (pm', v'))) :
    ∃ k, k ≤ x.length ∧ k < 2 ^ 32 ∧ ∀ a, pm' a = if endptr = some a then some (nptr + k) else pm a := by
  cases endptr with
  | none =>
    cases h
    exact ⟨0, Nat.zero_le _, by decide, fun a => by simp⟩
  | some e =>
    have hl := CString.c54_strlen m nptr x hx
    simp only [strto, hl] at h
    replace h : (if nondet.toNat ≤ x.length then some (Res.ret ((fun y => if y = e then some (nptr + nondet.toNat) else pm y), v))
      else some .block) = some (.ret (pm', v')) := h
    by_cases hle : nondet.toNat ≤ x.length
    · rw [if_pos hle] at h
      cases h
      exact ⟨nondet.toNat, hle, nondet.isLt, fun a => by simp [eq_comm]⟩
    · rw [if_neg hle] at h
      cases h

/-- C79: the conversion of a string never fails and never accesses memory outside of it. -/
theorem c79_strto_defined {α : Type} (m : Mem) (pm : Nat → Option Nat) (nptr : Nat) (endptr : Option Nat) (x : List Byte)
    (hx : Str m nptr x) (nondet : BitVec 32) (v : α) : ∃ r, strto m pm nptr endptr nondet v = some r ∧ r ≠ .fail := by
  cases endptr with
  | none => exact ⟨_, rfl, nofun⟩
  | some e =>
    have hl := CString.c54_strlen m nptr x hx
    simp only [strto, hl]
    show ∃ r, (if nondet.toNat ≤ x.length then some (Res.ret ((fun y => if y = e then some (nptr + nondet.toNat) else pm y), v))
      else some .block) = some r ∧ r ≠ .fail
    by_cases hle : nondet.toNat ≤ x.length
    · rw [if_pos hle]; exact ⟨_, rfl, nofun⟩
    · rw [if_neg hle]; exact ⟨_, rfl, nofun⟩

/-- C79 fails for numbers that end 2^32 bytes or more after the beginning of the string: no execution has that end. -/
theorem c79_strto_long_fails {α : Type} (m : Mem) (pm pm' : Nat → Option Nat) (nptr e : Nat) (x : List Byte) (hx : Str m nptr x) (k : Nat)
    (h32 : 2 ^ 32 ≤ k) (v v' : α) (nondet : BitVec 32) (h : strto m pm nptr (some e) nondet v = some (.ret (pm', v'))) :
    pm' e ≠ some (nptr + k) := by
  obtain ⟨j, _, hj, h'⟩ := c79_strto_sound m pm pm' nptr (some e) x hx nondet v v' h
  rw [h' e, if_pos rfl]
  intro he
  have : nptr + j = nptr + k := Option.some.inj he
  omega

/-- C79, getenv: null, and every string of at most two bytes, are possible results; only the two bytes of the buffer are written. -/
theorem c79_getenv_possible_partial (m : Mem) (buf : Nat) (hb : Room m buf 2) (h0 : m (buf + 2) = some 0) :
    (∃ nd c0 c1, getenv m buf nd c0 c1 = some (m, none)) ∧
    ∀ x : List Byte, x.length ≤ 2 → (0 : Byte) ∉ x → ∃ nd c0 c1 m', getenv m buf nd c0 c1 = some (m', some buf) ∧ Str m' buf x ∧
      Frame m m' buf 2 := by
  refine ⟨⟨1, 0, 0, rfl⟩, ?_⟩
  intro x hl hz
  have hw : ∀ c0 c1, ∃ m', getenv m buf 0 c0 c1 = some (m', some buf) ∧ m' buf = some c0 ∧ m' (buf + 1) = some c1 ∧ Frame m m' buf 2 := by
    intro c0 c1
    have r0 := hb 0 (by decide)
    have r1 := hb 1 (by decide)
    obtain ⟨m1, e1, v1, f1, s1⟩ := CString.wr_some (m := m) (a := buf) (b := c0) r0
    obtain ⟨m2, e2, v2, f2, s2⟩ := CString.wr_some (m := m1) (a := buf + 1) (b := c1) (by rw [s1]; exact r1)
    refine ⟨m2, ?_, ?_, v2, ?_⟩
    · unfold getenv
      rw [if_neg (by decide), e1]
      show (wr m1 (buf + 1) c1).bind _ = _
      rw [e2]
      rfl
    · rw [f2 buf (.inl (by omega)), v1]
    · intro a ha
      rw [f2 a (by omega), f1 a (by omega)]
  have h2 : ∀ m', Frame m m' buf 2 → m' (buf + 2) = some 0 := fun m' f => by rw [f (buf + 2) (.inr (Nat.le_refl _)), h0]
  match x, hl, hz with
  | [], _, hz =>
    obtain ⟨m', e, a0, a1, f⟩ := hw 0 0
    refine ⟨0, 0, 0, m', e, ⟨?_, hz⟩, f⟩
    intro i b hi
    match i with
    | 0 => cases hi; exact a0
    | i + 1 => cases hi
  | [c], _, hz =>
    obtain ⟨m', e, a0, a1, f⟩ := hw c 0
    refine ⟨0, c, 0, m', e, ⟨?_, hz⟩, f⟩
    intro i b hi
    match i with
    | 0 => cases hi; exact a0
    | 1 => cases hi; exact a1
    | i + 2 => cases hi
  | [c, c'], _, hz =>
    obtain ⟨m', e, a0, a1, f⟩ := hw c c'
    refine ⟨0, c, c', m', e, ⟨?_, hz⟩, f⟩
    intro i b hi
    match i with
    | 0 => cases hi; exact a0
    | 1 => cases hi; exact a1
    | 2 => cases hi; exact h2 m' f
    | i + 3 => cases hi

theorem str_length_le {m : Mem} {p k : Nat} {x : List Byte} (h : Str m p x) (h0 : m (p + k) = some 0) : x.length ≤ k := by
  rcases Nat.lt_or_ge k x.length with hlt | hge
  · exfalso
    have := h.bytes k x[k] (by rw [List.getElem?_append_left hlt]; exact List.getElem?_eq_getElem hlt)
    rw [h0] at this
    exact h.nonzero (by rw [Option.some.inj this]; exact List.getElem_mem hlt)
  · exact hge

theorem two_writes {m m' : Mem} {buf : Nat} {c0 c1 : Byte} {m1 : Mem} (e1 : wr m buf c0 = some m1) (e2 : wr m1 (buf + 1) c1 = some m') :
    m' (buf + 2) = m (buf + 2) := by
  have key : ∀ {m m' : Mem} {a : Nat} {b : Byte} {x : Nat}, wr m a b = some m' → x ≠ a → m' x = m x := by
    intro m m' a b x h hx
    unfold wr at h
    cases hm : m a with
    | none => rw [hm] at h; cases h
    | some c => rw [hm] at h; cases h; exact if_neg hx
  rw [key e2 (by omega), key e1 (by omega)]

/-- C79 fails for getenv: no execution returns a value of more than two bytes. -/
theorem c79_getenv_long_fails (m m' : Mem) (buf p : Nat) (h0 : m (buf + 2) = some 0) (nd : Int) (c0 c1 : Byte)
    (h : getenv m buf nd c0 c1 = some (m', some p)) (x : List Byte) (hx : Str m' p x) : x.length ≤ 2 := by
  unfold getenv at h
  by_cases hnd : nd ≠ 0
  · rw [if_pos hnd] at h; cases h
  · rw [if_neg hnd] at h
    cases e1 : wr m buf c0 with
    | none => rw [e1] at h; cases h
    | some m1 =>
      cases e2 : wr m1 (buf + 1) c1 with
      | none => rw [e1] at h; replace h : (wr m1 (buf + 1) c1).bind _ = _ := h; rw [e2] at h; cases h
      | some m2 =>
        rw [e1] at h
        replace h : (wr m1 (buf + 1) c1).bind _ = _ := h
        rw [e2] at h
        cases h
        exact str_length_le hx (by rw [two_writes e1 e2, h0])

/-- C79: `strerror` returns a string (never null); no message has more than two bytes, so the standard's messages are not among them. -/
theorem c79_strerror_fails (m : Mem) (buf : Nat) (hb : Room m buf 2) (h0 : m (buf + 2) = some 0) (c0 c1 : Byte) :
    ∃ m', strerror m buf c0 c1 = some (m', buf) ∧ Frame m m' buf 2 ∧ (∃ x, Str m' buf x) ∧ ∀ x, Str m' buf x → x.length ≤ 2 := by
  have r0 := hb 0 (by decide)
  have r1 := hb 1 (by decide)
  obtain ⟨m1, e1, v1, f1, s1⟩ := CString.wr_some (m := m) (a := buf) (b := c0) r0
  obtain ⟨m2, e2, v2, f2, s2⟩ := CString.wr_some (m := m1) (a := buf + 1) (b := c1) (by rw [s1]; exact r1)
  have z := two_writes e1 e2
  rw [h0] at z
  have a0 : m2 buf = some c0 := by rw [f2 buf (.inl (by omega)), v1]
  refine ⟨m2, ?_, ?_, ?_, fun x hx => str_length_le hx z⟩
  · unfold strerror
    rw [e1]
    show (wr m1 (buf + 1) c1).bind _ = _
    rw [e2]
    rfl
  · intro a ha
    rw [f2 a (by omega), f1 a (by omega)]
  · by_cases h1 : c0 = 0
    · refine ⟨[], ?_, by simp⟩
      intro i b hi
      match i with
      | 0 => cases hi; rw [← h1]; exact a0
      | i + 1 => cases hi
    · by_cases h2 : c1 = 0
      · refine ⟨[c0], ?_, by simpa using fun h => h1 h.symm⟩
        intro i b hi
        match i with
        | 0 => cases hi; exact a0
        | 1 => cases hi; rw [← h2]; exact v2
        | i + 2 => cases hi
      · refine ⟨[c0, c1], ?_, by simpa using ⟨fun h => h1 h.symm, fun h => h2 h.symm⟩⟩
        intro i b hi
        match i with
        | 0 => cases hi; exact a0
        | 1 => cases hi; exact v2
        | 2 => cases hi; exact z
        | i + 3 => cases hi

/-- C79, exit and abort: they never return; they fail exactly when memory safety is checked and memory is still allocated. -/
theorem c79_exit (ms : Bool) (counter : Int) :
    (∀ u, exit ms counter ≠ .ret u) ∧ (exit ms counter = .fail ↔ ms = true ∧ counter ≠ 0) ∧ (exit ms counter = .block ↔ ms = false ∨ counter = 0) := by
  unfold exit
  cases ms <;> by_cases h : counter = 0 <;> simp [h]

-- the string `",a,,bc"` as the argument of strtol, the buffer of getenv and strerror at 109
example : ∃ nondet pm', strto exM (fun _ => none) 100 (some 500) nondet (7 : Int) = some (.ret (pm', 7)) ∧
    ∀ a, pm' a = if some 500 = some a then some (100 + 3) else none :=
  c79_strto_possible_partial exM _ 100 (some 500) _ ex_s 7 3 (by decide) (by decide)
example : Room exM 109 2 ∧ exM (109 + 2) = some 0 := ⟨by intro i hi; match i, hi with | 0, _ => rfl | 1, _ => rfl, rfl⟩

end Smack.StdLib
