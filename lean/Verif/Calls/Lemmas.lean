import Verif.Calls.Spec
import Verif.Naming.Lemmas
import Verif.Printer.Lemmas
import Verif.Graphs.Props

namespace Smack.Calls

open Smack.Naming (Str dec)

/-! ### findCallers -/

structure Inv (md : Module) (f : Nat) (done : List Nat) (s : Bfs) : Prop where
  sound : ∀ u ∈ s.covered, Reached md f u
  start : f ∈ s.covered
  split : ∀ u, u ∈ s.covered ↔ u ∈ done ∨ u ∈ s.queue
  nodup : (done ++ s.queue).Nodup
  closed : ∀ u ∈ done, md.callAt u = none → ∀ v ∈ md.users u, v ∈ s.covered
  callers : ∀ c, c ∈ s.callers ↔ ∃ u ∈ done, md.callAt u = some c

theorem push_spec (vs : List Nat) : ∀ (s : Bfs) (done : List Nat), (∀ u, u ∈ s.covered ↔ u ∈ done ∨ u ∈ s.queue) → (done ++ s.queue).Nodup →
    (∀ u, u ∈ (push vs s).covered ↔ u ∈ s.covered ∨ u ∈ vs) ∧ (∀ u, u ∈ (push vs s).covered ↔ u ∈ done ∨ u ∈ (push vs s).queue) ∧
    (done ++ (push vs s).queue).Nodup ∧ (push vs s).callers = s.callers := by
  induction vs with
  | nil => intro s done h1 h2; exact ⟨fun u => by simp [push], h1, h2, rfl⟩
  | cons v vs ih =>
    intro s done h1 h2
    simp only [push]
    split
    · next hc =>
      obtain ⟨q1, q2, q3, q4⟩ := ih s done h1 h2
      refine ⟨fun u => ?_, q2, q3, q4⟩
      rw [q1, List.mem_cons]
      constructor
      · rintro (h | h)
        · exact .inl h
        · exact .inr (.inr h)
      · rintro (h | rfl | h)
        · exact .inl h
        · exact .inl (by simpa using hc)
        · exact .inr h
    · next hc =>
      have hv : v ∉ s.covered := by simpa using hc
      obtain ⟨q1, q2, q3, q4⟩ := ih { s with queue := s.queue ++ [v], covered := v :: s.covered } done (fun u => by
        simp only [List.mem_cons, List.mem_append, h1, List.not_mem_nil, or_false]
        constructor
        · rintro (h | h | h)
          · exact .inr (.inr h)
          · exact .inl h
          · exact .inr (.inl h)
        · rintro (h | h | h)
          · exact .inr (.inl h)
          · exact .inr (.inr h)
          · exact .inl h) (by
        rw [← List.append_assoc, List.nodup_append]
        refine ⟨h2, by simp, ?_⟩
        intro a ha b hb he
        rw [List.mem_singleton] at hb
        subst hb; subst he
        rw [List.mem_append, ← h1] at ha
        exact hv ha)
      refine ⟨fun u => ?_, q2, q3, q4⟩
      rw [q1]
      simp only [List.mem_cons]
      constructor
      · rintro ((h | h) | h)
        · exact .inr (.inl h)
        · exact .inl h
        · exact .inr (.inr h)
      · rintro (h | h | h)
        · exact .inl (.inr h)
        · exact .inl (.inl h)
        · exact .inr h

theorem round_inv {md : Module} {f : Nat} {done : List Nat} {s : Bfs} {u : Nat} {q : List Nat} (h : Inv md f done s) (hq : s.queue = u :: q) :
    Inv md f (done ++ [u]) (round md s) := by
  have hu : u ∈ s.covered := (h.split u).2 (.inr (by rw [hq]; simp))
  have hsplit : ∀ x, x ∈ s.covered ↔ x ∈ done ++ [u] ∨ x ∈ q := by
    intro x
    rw [h.split, hq]
    simp only [List.mem_cons, List.mem_append, List.not_mem_nil, or_false, or_assoc]
  have hnd : ((done ++ [u]) ++ q).Nodup := by
    have := h.nodup
    rw [hq] at this
    simpa using this
  cases hc : md.callAt u with
  | some c =>
    have hr : round md s = { s with queue := q, callers := s.callers ++ [c] } := by unfold round; rw [hq]; simp only [hc]
    rw [hr]
    exact {
      sound := h.sound
      start := h.start
      split := hsplit
      nodup := hnd
      closed := by
        intro x hx hn
        rcases List.mem_append.1 hx with hx | hx
        · exact h.closed x hx hn
        · rw [List.mem_singleton] at hx; subst hx; rw [hc] at hn; cases hn
      callers := by
        intro c'
        simp only [List.mem_append, List.mem_singleton, h.callers]
        constructor
        · rintro (⟨x, hx, hcx⟩ | rfl)
          · exact ⟨x, .inl hx, hcx⟩
          · exact ⟨u, .inr rfl, hc⟩
        · rintro ⟨x, hx | rfl, hcx⟩
          · exact .inl ⟨x, hx, hcx⟩
          · rw [hc] at hcx; exact .inr (Option.some.inj hcx).symm }
  | none =>
    have hr : round md s = push (md.users u) { s with queue := q } := by unfold round; rw [hq]; simp only [hc]
    rw [hr]
    obtain ⟨q1, q2, q3, q4⟩ := push_spec (md.users u) { s with queue := q } (done ++ [u]) hsplit hnd
    exact {
      sound := by
        intro x hx
        rcases (q1 x).1 hx with hx | hx
        · exact h.sound x hx
        · exact .step u x (h.sound u hu) hc hx
      start := (q1 f).2 (.inl h.start)
      split := q2
      nodup := q3
      closed := by
        intro x hx hn v hv
        rw [q1]
        rcases List.mem_append.1 hx with hx | hx
        · exact .inl (h.closed x hx hn v hv)
        · rw [List.mem_singleton] at hx; subst hx; exact .inr hv
      callers := by
        intro c'
        rw [q4]
        show c' ∈ s.callers ↔ _
        rw [h.callers]
        constructor
        · rintro ⟨x, hx, hcx⟩; exact ⟨x, by simp [hx], hcx⟩
        · rintro ⟨x, hx, hcx⟩
          rcases List.mem_append.1 hx with hx | hx
          · exact ⟨x, hx, hcx⟩
          · rw [List.mem_singleton] at hx; subst hx; rw [hc] at hcx; cases hcx }

theorem reached_lt {md : Module} (hw : Wf md) {f u : Nat} (hf : f < md.size) (h : Reached md f u) : u < md.size := by
  induction h with
  | self => exact hf
  | step u v _ _ hv ih => exact hw.bound u ih v hv

theorem rounds_inv {md : Module} (hw : Wf md) {f : Nat} (hf : f < md.size) (n : Nat) : ∀ (done : List Nat) (s : Bfs), Inv md f done s →
    md.size ≤ done.length + n → ∃ done', Inv md f done' (rounds md n s) ∧ (rounds md n s).queue = [] := by
  induction n with
  | zero =>
    intro done s h hn
    refine ⟨done, h, ?_⟩
    show s.queue = []
    cases hq : s.queue with
    | nil => rfl
    | cons u q =>
      have := Graphs.nodup_length_le h.nodup (n := md.size) (fun x hx => reached_lt hw hf (h.sound x ((h.split x).2 (List.mem_append.1 hx))))
      rw [hq] at this
      simp only [List.length_append, List.length_cons] at this
      omega
  | succ n ih =>
    intro done s h hn
    simp only [rounds]
    cases hq : s.queue with
    | nil =>
      have : round md s = s := by unfold round; rw [hq]
      have hr : ∀ k, rounds md k s = s := by
        intro k
        induction k with
        | zero => rfl
        | succ k ihk => simp only [rounds, this, ihk]
      rw [this, hr]
      exact ⟨done, h, hq⟩
    | cons u q =>
      refine ih _ _ (round_inv h hq) ?_
      simp only [List.length_append, List.length_singleton]
      omega

theorem start_inv (md : Module) (f : Nat) : Inv md f [] ⟨[f], [f], []⟩ where
  sound := fun u hu => by rw [List.mem_singleton] at hu; subst hu; exact .self
  start := by simp
  split := fun u => by simp
  nodup := by simp
  closed := fun u hu => by cases hu
  callers := fun c => by simp

theorem findCallers_iff {md : Module} (hw : Wf md) {f : Nat} (hf : f < md.size) (c : Nat) :
    c ∈ findCallers md f ↔ ∃ u, Reached md f u ∧ md.callAt u = some c := by
  obtain ⟨done, h, hq⟩ := rounds_inv hw hf md.size [] _ (start_inv md f) (by simp)
  unfold findCallers
  rw [h.callers]
  have hcov : ∀ u, u ∈ (rounds md md.size ⟨[f], [f], []⟩).covered ↔ u ∈ done := by
    intro u; rw [h.split, hq]; simp
  constructor
  · rintro ⟨u, hu, hc⟩; exact ⟨u, h.sound u ((hcov u).2 hu), hc⟩
  · rintro ⟨u, hu, hc⟩
    refine ⟨u, ?_, hc⟩
    clear hc
    induction hu with
    | self => exact (hcov f).1 h.start
    | step u v _ hn hv ih => exact (hcov v).1 (h.closed u ih hn v hv)

/-! ### Type names -/

/-- Nothing, or a dot and something. -/
def Dotted (r : Str) : Prop := r = [] ∨ ∃ t, r = '.' :: t

theorem split_dot : ∀ (a b r r' : Str), '.' ∉ a → '.' ∉ b → Dotted r → Dotted r' → a ++ r = b ++ r' → a = b ∧ r = r'
  | [], [], _, _, _, _, _, _, h => ⟨rfl, h⟩
  | [], y :: b, r, r', _, hb, hr, _, h => by
    rcases hr with rfl | ⟨t, rfl⟩
    · cases h
    · simp only [List.nil_append, List.cons_append, List.cons.injEq] at h
      exact absurd (h.1 ▸ List.mem_cons_self) hb
  | x :: a, [], r, r', ha, _, _, hr', h => by
    rcases hr' with rfl | ⟨t, rfl⟩
    · cases h
    · simp only [List.nil_append, List.cons_append, List.cons.injEq] at h
      exact absurd (h.1 ▸ List.mem_cons_self) ha
  | x :: a, y :: b, r, r', ha, hb, hr, hr', h => by
    simp only [List.cons_append, List.cons.injEq] at h
    obtain ⟨q1, q2⟩ := split_dot a b r r' (fun h => ha (.tail _ h)) (fun h => hb (.tail _ h)) hr hr' h.2
    exact ⟨by rw [h.1, q1], q2⟩

theorem dec_no_dot (n : Nat) : '.' ∉ dec n := fun h => absurd (Printer.digits_dec n _ h) (by decide)

theorem intType_no_dot (m : Mode) (w : Nat) : '.' ∉ intType m w := by
  unfold intType
  intro h
  rcases List.mem_append.1 h with h | h
  · revert h; cases m.bitPrecise <;> decide
  · exact dec_no_dot w h

theorem fp_names (m : Mode) (k : Fp) : '.' ∉ elemType m (.fp k) ∧ elemType m (.fp k) ≠ ['v', 'e', 'c'] := by
  obtain ⟨b, fl⟩ := m
  cases b <;> cases fl <;> cases k <;> decide

theorem elemType_no_dot (m : Mode) (e : Elem) : '.' ∉ elemType m e := by
  cases e with
  | int w => exact intType_no_dot m w
  | ptr => show '.' ∉ ptrType; decide
  | fp k => exact (fp_names m k).1

theorem elemType_head (m : Mode) (e : Elem) : elemType m e ≠ ['v', 'e', 'c'] := by
  cases e with
  | int w =>
    show intType m w ≠ _
    unfold intType
    cases m.bitPrecise <;> simp
  | ptr => show ptrType ≠ _; decide
  | fp k => exact (fp_names m k).2

/-- A name is one segment, or `vec` and a second segment. -/
theorem type_shape (m : Mode) (t : Ty) : ('.' ∉ type m t ∧ type m t ≠ ['v', 'e', 'c']) ∨
    ∃ u, '.' ∉ u ∧ type m t = ['v', 'e', 'c'] ++ '.' :: u := by
  cases t with
  | elem e => exact .inl ⟨elemType_no_dot m e, elemType_head m e⟩
  | other => exact .inl (by show '.' ∉ ptrType ∧ ptrType ≠ _; decide)
  | vec n e =>
    refine .inr ⟨_, ?_, rfl⟩
    intro h
    rcases List.mem_append.1 h with h | h
    · exact dec_no_dot n h
    · rcases List.mem_cons.1 h with h | h
      · cases h
      · exact elemType_no_dot m e h

theorem type_split (m : Mode) {t t' : Ty} {r r' : Str} (hr : Dotted r) (hr' : Dotted r') (h : type m t ++ r = type m t' ++ r') :
    type m t = type m t' ∧ r = r' := by
  have vec : '.' ∉ ['v', 'e', 'c'] := by decide
  have dot : ∀ u : Str, Dotted ('.' :: u) := fun u => .inr ⟨u, rfl⟩
  rcases type_shape m t with ⟨h1, h2⟩ | ⟨u, hu, e⟩ <;> rcases type_shape m t' with ⟨h1', h2'⟩ | ⟨u', hu', e'⟩
  · exact split_dot _ _ _ _ h1 h1' hr hr' h
  · rw [e', List.append_assoc, List.cons_append] at h
    exact absurd (split_dot _ _ _ _ h1 vec hr (dot _) h).1 h2
  · rw [e, List.append_assoc, List.cons_append] at h
    exact absurd (split_dot _ _ _ _ vec h1' (dot _) hr' h).1.symm h2'
  · rw [e, e', List.append_assoc, List.append_assoc, List.cons_append, List.cons_append] at h
    have := (split_dot _ _ _ _ vec vec (dot _) (dot _) h).2
    simp only [List.cons.injEq, true_and] at this
    obtain ⟨q1, q2⟩ := split_dot _ _ _ _ hu hu' hr hr' this
    exact ⟨by rw [e, e', q1], q2⟩

theorem suffix_dotted (m : Mode) (ts : List Ty) : Dotted (ts.flatMap fun t => '.' :: type m t) := by
  cases ts with
  | nil => exact .inl rfl
  | cons t ts => exact .inr ⟨_, rfl⟩

theorem suffix_inj (m : Mode) : ∀ ts ts' : List Ty, (ts.flatMap fun t => '.' :: type m t) = (ts'.flatMap fun t => '.' :: type m t) →
    ts.map (type m) = ts'.map (type m)
  | [], [], _ => rfl
  | [], _ :: _, h => by simp at h
  | _ :: _, [], h => by simp at h
  | t :: ts, t' :: ts', h => by
    simp only [List.flatMap_cons, List.cons_append, List.cons.injEq, true_and] at h
    obtain ⟨q1, q2⟩ := type_split m (suffix_dotted m ts) (suffix_dotted m ts') h
    simp only [List.map_cons, q1, suffix_inj m ts ts' q2]

/-! ### Declarations -/

theorem special_iff (f : Func) : Special f ↔ ((f.name = "malloc".toList ∨ f.name = "free_".toList) ∨ isContractExpr f.name = true) := by
  unfold Special isContractExpr
  rw [List.isPrefixOf_iff_prefix, or_assoc]

theorem procedure_none_name (md : Module) (f : Func) : (procedure md f none).name = f.name := by
  unfold procedure
  simp only
  split
  · rfl
  · split <;> rfl

theorem procedure_name (md : Module) (f : Func) (c : Option Site) : ∃ x, (procedure md f c).name = f.name ++ x ∧
    (x = [] ∨ (f.varArg = true ∧ Dotted x)) := by
  have key : ∀ ts, ∃ x, procName md.mode f ts = f.name ++ x ∧ (x = [] ∨ (f.varArg = true ∧ Dotted x)) := by
    intro ts
    refine ⟨_, rfl, ?_⟩
    cases hv : f.varArg with
    | false => exact .inl rfl
    | true => exact .inr ⟨rfl, suffix_dotted _ _⟩
  unfold procedure
  simp only
  split
  · exact ⟨[], by simp, .inl rfl⟩
  · split
    · exact ⟨[], by simp, .inl rfl⟩
    · cases c with
      | none => exact ⟨[], by simp, .inl rfl⟩
      | some c =>
        simp only
        generalize (c.direct && _) = b
        cases b
        · exact key _
        · exact key _

theorem dedup_sub : ∀ (ds : List Proc) (names : List Str), ∀ d ∈ dedup names ds, d ∈ ds ∧ d.name ∉ names
  | [], _, d, h => by cases h
  | e :: ds, names, d, h => by
    simp only [dedup] at h
    split at h
    · next hc =>
      obtain ⟨h1, h2⟩ := dedup_sub ds names d h
      exact ⟨.tail _ h1, h2⟩
    · next hc =>
      rcases List.mem_cons.1 h with rfl | h
      · exact ⟨.head _, by simpa using hc⟩
      · obtain ⟨h1, h2⟩ := dedup_sub ds _ d h
        exact ⟨.tail _ h1, fun h => h2 (.tail _ h)⟩

theorem dedup_pairwise : ∀ (ds : List Proc) (names : List Str), (dedup names ds).Pairwise (·.name ≠ ·.name)
  | [], _ => .nil
  | e :: ds, names => by
    simp only [dedup]
    split
    · exact dedup_pairwise ds names
    · refine .cons (fun d hd he => ?_) (dedup_pairwise ds _)
      exact (dedup_sub ds _ d hd).2 (by rw [← he]; exact .head _)

theorem dedup_mem : ∀ (ds : List Proc) (names : List Str), ∀ d ∈ ds, d.name ∉ names → ∃ d' ∈ dedup names ds, d'.name = d.name
  | [], _, d, h, _ => by cases h
  | e :: ds, names, d, h, hn => by
    simp only [dedup]
    split
    · next hc =>
      rcases List.mem_cons.1 h with rfl | h
      · exact absurd (by simpa using hc) hn
      · exact dedup_mem ds names d h hn
    · next hc =>
      rcases List.mem_cons.1 h with rfl | h
      · exact ⟨d, .head _, rfl⟩
      · by_cases hd : d.name = e.name
        · exact ⟨e, .head _, hd.symm⟩
        · obtain ⟨d', h1, h2⟩ := dedup_mem ds (e.name :: names) d h (by
            rw [List.mem_cons]; rintro (h | h)
            · exact hd h
            · exact hn h)
          exact ⟨d', .tail _ h1, h2⟩

/-- The calls for which a function is declared. -/
def callersOf (md : Module) (k : Nat) (f : Func) : List Nat :=
  findCallers md k ++
    if f.value then
      match md.funcs.findIdx? (·.returnValue) with
      | some r => findCallers md r
      | none => []
    else []

theorem procedures_eq (md : Module) (k : Nat) (f : Func) : procedures md k f =
    if (callersOf md k f).isEmpty || !f.varArg then [procedure md f none]
    else dedup [] ((callersOf md k f).filterMap fun c => (md.sites[c]?).map fun s => procedure md f (some s)) := rfl

theorem procedures_name {md : Module} {k : Nat} {f : Func} {d : Proc} (h : d ∈ procedures md k f) :
    ∃ x, d.name = f.name ++ x ∧ (x = [] ∨ (f.varArg = true ∧ Dotted x)) := by
  rw [procedures_eq] at h
  split at h
  · rw [List.mem_singleton] at h; subst h; exact procedure_name _ _ _
  · have := (dedup_sub _ _ d h).1
    rw [List.mem_filterMap] at this
    obtain ⟨c, _, hc⟩ := this
    rw [Option.map_eq_some_iff] at hc
    obtain ⟨s, _, rfl⟩ := hc
    exact procedure_name _ _ _

theorem procedures_pairwise (md : Module) (k : Nat) (f : Func) : (procedures md k f).Pairwise (·.name ≠ ·.name) := by
  rw [procedures_eq]
  split
  · exact List.pairwise_singleton _ _
  · exact dedup_pairwise _ _

theorem apart {f g : Func} {x y : Str} (hx : x = [] ∨ (f.varArg = true ∧ Dotted x)) (hy : y = [] ∨ (g.varArg = true ∧ Dotted y))
    (h : f.name ++ x = g.name ++ y) (hn : f.name ≠ g.name) (h1 : f.varArg = true → ¬ f.name ++ ['.'] <+: g.name)
    (h2 : g.varArg = true → ¬ g.name ++ ['.'] <+: f.name) : False := by
  rcases List.append_eq_append_iff.1 h with ⟨z, hz, hz'⟩ | ⟨z, hz, hz'⟩
  · cases z with
    | nil => simp at hz; exact hn hz.symm
    | cons a z =>
      rcases hx with rfl | ⟨hv, rfl | ⟨t, rfl⟩⟩
      · simp at hz'
      · simp at hz'
      · simp only [List.cons_append, List.cons.injEq] at hz'
        apply h1 hv
        rw [hz, ← hz'.1]
        exact ⟨z, by simp⟩
  · cases z with
    | nil => simp at hz; exact hn hz
    | cons a z =>
      rcases hy with rfl | ⟨hv, rfl | ⟨t, rfl⟩⟩
      · simp at hz'
      · simp at hz'
      · simp only [List.cons_append, List.cons.injEq] at hz'
        apply h2 hv
        rw [hz, ← hz'.1]
        exact ⟨z, by simp⟩

theorem mem_declarations {md : Module} {d : Proc} : d ∈ declarations md ↔ ∃ (k : Nat) (f : Func), md.funcs[k]? = some f ∧ d ∈ procedures md k f := by
  unfold declarations
  rw [List.mem_flatMap]
  constructor
  · rintro ⟨⟨f, k⟩, h, hd⟩
    rw [List.mem_zipIdx_iff_getElem?] at h
    exact ⟨k, f, h, hd⟩
  · rintro ⟨k, f, h, hd⟩
    exact ⟨(f, k), by rw [List.mem_zipIdx_iff_getElem?]; exact h, hd⟩

theorem declarations_pairwise {md : Module} (hn : NamesOk md) : (declarations md).Pairwise (·.name ≠ ·.name) := by
  unfold declarations
  rw [List.pairwise_flatMap]
  refine ⟨fun p _ => procedures_pairwise _ _ _, ?_⟩
  rw [List.pairwise_iff_getElem]
  intro i j hi hj hij d hd d' hd' he
  simp only [List.getElem_zipIdx] at hd hd'
  simp only [List.length_zipIdx] at hi hj
  obtain ⟨x, h1, h2⟩ := procedures_name hd
  obtain ⟨y, h3, h4⟩ := procedures_name hd'
  have gi : md.funcs[i]? = some md.funcs[i] := List.getElem?_eq_getElem hi
  have gj : md.funcs[j]? = some md.funcs[j] := List.getElem?_eq_getElem hj
  rw [h1, h3] at he
  exact apart h2 h4 he (fun h => by have := hn.distinct _ _ _ _ gi gj h; omega) (hn.noExtension _ _ _ _ gi gj) (hn.noExtension _ _ _ _ gj gi)

theorem filter_single : ∀ (l : List Proc), l.Pairwise (·.name ≠ ·.name) → ∀ d ∈ l, (l.filter fun e => e.name = d.name) = [d]
  | [], _, d, h => by cases h
  | e :: l, hp, d, h => by
    rw [List.pairwise_cons] at hp
    rcases List.mem_cons.1 h with rfl | h
    · rw [List.filter_cons_of_pos (by simp), List.filter_eq_nil_iff.2]
      intro x hx
      simp only [decide_eq_true_eq]
      exact fun he => hp.1 x hx he.symm
    · rw [List.filter_cons_of_neg (by simp only [decide_eq_true_eq]; exact hp.1 d h)]
      exact filter_single l hp.2 d h

theorem extra_types (m : Mode) : ∀ (ts : List Ty) (i : Nat), (extra m i ts).map (·.2) = ts.map (type m)
  | [], _ => rfl
  | t :: ts, i => by simp only [extra, List.map_cons, extra_types m ts (i + 1)]

/-- A variadic function's declaration from a call that is not one of `__SMACK_return_value`. -/
theorem procedure_var {md : Module} {f : Func} {s : Site} (hv : f.varArg = true) (hs : ¬ Special f) (hi : s.invoke = false)
    (hr : ¬ IsReturnValue md s) :
    procedure md f (some s) = ⟨f.name ++ s.args.flatMap (fun t => '.' :: type md.mode t),
      f.params.map (fun p => (p.1, type md.mode p.2)) ++ extra md.mode f.params.length (s.args.drop f.params.length),
      (f.ret.map (type md.mode)).toList⟩ := by
  rw [special_iff] at hs
  unfold procedure
  simp only
  rw [if_neg fun h => hs (.inl h), if_neg fun h => hs (.inr h)]
  rw [if_neg]
  · simp [procName, operandTypes, hi, hv]
  · intro h
    rw [Bool.and_eq_true] at h
    obtain ⟨h1, h2⟩ := h
    cases hg : md.funcs[s.callee]? with
    | none => simp [hg] at h2
    | some g => exact hr ⟨h1, g, hg, by simpa [hg] using h2⟩

theorem procedure_ret {md : Module} {f : Func} {s : Site} (hv : f.varArg = true) (hs : ¬ Special f) (hr : IsReturnValue md s) :
    procedure md f (some s) = ⟨f.name ++ '.' :: type md.mode (s.parentRet.getD .other),
      f.params.map (fun p => (p.1, type md.mode p.2)) ++ [(paramName 0, type md.mode (s.parentRet.getD .other))],
      (f.ret.map (type md.mode)).toList⟩ := by
  rw [special_iff] at hs
  obtain ⟨h1, g, h2, h3⟩ := hr
  unfold procedure
  simp only
  rw [if_neg fun h => hs (.inl h), if_neg fun h => hs (.inr h)]
  rw [if_pos (by simp [h1, h2, h3])]
  simp [procName, hv]

end Smack.Calls
