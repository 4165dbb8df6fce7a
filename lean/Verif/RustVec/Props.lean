/-
C74: programs using the Rust library model behave as with std.
-/
import Verif.RustVec.World

namespace Smack.RustVec

variable {V : Type} {g : Cfg} {c : Codec V}

/-- A 32-bit type stored in four bytes. -/
def c74u32 : Codec (BitVec 32) :=
  { size := 4
    enc := fun x => [x.setWidth 8, (x >>> 8).setWidth 8, (x >>> 16).setWidth 8, (x >>> 24).setWidth 8]
    dec := fun l => match l with
      | [a, b, d, e] => some (e ++ d ++ b ++ a)
      | _ => none }

theorem c74u32_ok : c74u32.Ok := by
  refine ⟨fun _ => rfl, fun x => ?_⟩
  show some _ = some x
  congr 1
  apply BitVec.eq_of_getLsbD_eq
  intro i hi
  simp only [BitVec.getLsbD_append, BitVec.getLsbD_setWidth, BitVec.getLsbD_ushiftRight]
  have : i < 32 := hi
  by_cases h1 : i < 8
  · simp [h1]
  · by_cases h2 : i - 8 < 8
    · simp [h1, h2]; congr 1; omega
    · by_cases h3 : i - 8 - 8 < 8
      · simp [h1, h2, h3]; congr 1; omega
      · have h4 : i - 8 - 8 - 8 < 8 := by omega
        simp [h1, h2, h3, h4]; congr 1; omega

theorem c74u32_sizes : Sizes c74u32 100 := ⟨by decide, by decide, by decide⟩

/-- No undefined behaviour, no panic and the results of std (a dropped vector drops its elements in the opposite order), for programs that
create vectors with a positive capacity and, unless `__VERIFIER_memcpy` copies, do not make them grow. -/
theorem c74_program_partial (hc : c.Ok) {n : Nat} (s : Sizes c n) {ops : List (Op V)} {ts : List (Out V)} {sw : List (SObj V)}
    (hr : StdRun ops [] ts sw) (hw : AllWithin g.copies n ops []) :
    ∃ os w h, run g c ops [] [] = .ok ((os, w), h) ∧ SameOuts ops os ts := by
  have I : WInv c n [] [] [] := ⟨rfl, fun i o t h => by simp at h, fun i j o p b h => by simp at h⟩
  obtain ⟨os, w, h, e, so, _⟩ := run_ok hc s (fun e => e) hr I hw
  exact ⟨os, w, h, e, so⟩

/-- Where std panics, the model panics. -/
theorem c74_panic_partial (hc : c.Ok) {n : Nat} (s : Sizes c n) {ops : List (Op V)} {op : Op V} {ts : List (Out V)} {sw : List (SObj V)}
    (hr : StdRun ops [] ts sw) (hw : AllWithin g.copies n ops []) (hp : stdStep op sw = .panic) :
    run g c (ops ++ [op]) [] [] = .panic := by
  have I : WInv c n [] [] [] := ⟨rfl, fun i o t h => by simp at h, fun i j o p b h => by simp at h⟩
  obtain ⟨os, w, h, e, _, I', _⟩ := run_ok hc s (fun e => e) hr I hw
  have last := step_panic (g := g) I' hp
  have gen : ∀ (ops : List (Op V)) (w : List Obj) (h : Heap) {os : List (Out V)} {w' : List Obj} {h' : Heap},
      run g c ops w h = .ok ((os, w'), h') → step g c op w' h' = .panic → run g c (ops ++ [op]) w h = .panic := by
    intro ops
    induction ops with
    | nil =>
      intro w h os w' h' e l
      cases e
      show M.bind _ _ _ = _
      unfold M.bind; simp only [l]
    | cons o ops ih =>
      intro w h os w' h' e l
      change M.bind (step g c o w) _ h = _ at e
      show M.bind (step g c o w) _ h = _
      unfold M.bind at e ⊢
      cases e1 : step g c o w h with
      | ub => rw [e1] at e; cases e
      | panic => rfl
      | ok p =>
        obtain ⟨⟨o1, w1⟩, h1⟩ := p
        rw [e1] at e
        dsimp only at e ⊢
        change M.bind (run g c ops w1) _ h1 = _ at e
        show M.bind (run g c (ops ++ [op]) w1) _ h1 = _
        unfold M.bind at e ⊢
        cases e2 : run g c ops w1 h1 with
        | ub => rw [e2] at e; cases e
        | panic => rw [e2] at e; cases e
        | ok p =>
          obtain ⟨⟨os1, w2⟩, h2⟩ := p
          rw [e2] at e
          cases e
          rw [ih _ _ e2 l]
  exact gen ops [] [] e last

/-- As long as no vector outgrows its capacity, blocks are freed with their vectors: once all are dropped, no block is live. -/
theorem c74_no_leak_partial (hc : c.Ok) {n : Nat} (s : Sizes c n) {ops : List (Op V)} {ts : List (Out V)} {sw : List (SObj V)}
    (hr : StdRun ops [] ts sw) (hw : AllWithin false n ops []) (hd : ∀ t ∈ sw, t = .gone) :
    ∃ os w h, run g c ops [] [] = .ok ((os, w), h) ∧ ∀ b, ¬ Live h b := by
  have I : WInv c n [] [] [] := ⟨rfl, fun i o t h => by simp at h, fun i j o p b h => by simp at h⟩
  obtain ⟨os, w, h, e, _, I', O⟩ := run_ok (g := g) (grow := false) hc s (fun e => nomatch e) hr I hw
  refine ⟨os, w, h, e, fun b l => ?_⟩
  have O0 : Owned [] [] := fun a l => by obtain ⟨B, hB, _⟩ := l; simp at hB
  obtain ⟨i, o, hi, hb⟩ := O rfl O0 b l
  obtain ⟨t, ht, r⟩ := I'.other hi
  have := hd t (List.mem_of_getElem? ht)
  subst this
  cases r
  cases hb

section

/-- Make two vectors, insert and push, append, read, remove, go over the rest from both ends. -/
def c74prog : List (Op (BitVec 32)) :=
  [.new, .withCapacity 3, .push 0 7, .insert 0 0 8, .push 1 9, .append 0 1, .slice 0, .remove 0 1, .intoIter 0, .nextBack 0, .next 0, .next 0,
    .dropIter 0, .drop 1]

def c74outs : List (Out (BitVec 32)) :=
  [.unit, .unit, .unit, .unit, .unit, .unit, .seq [8, 7, 9], .val 7, .unit, .opt (some 9), .opt (some 8), .opt none, .seq [], .seq []]

theorem c74prog_run : StdRun c74prog [] c74outs [.gone, .gone] := by
  unfold c74prog c74outs
  repeat (refine .cons rfl ?_)
  exact .nil

theorem c74prog_within (gr : Bool) : AllWithin gr 100 c74prog [] := by
  unfold c74prog
  repeat' (first | exact .nil | (refine .cons ?_ (fun o w1 e => ?_); rotate_left; (cases e)))
  all_goals first
    | trivial
    | (refine ⟨by decide, by decide⟩)
    | (intro r xs e; cases e; exact ⟨by decide, .inr (by decide)⟩)
    | (intro r q xs ys e e'; cases e; cases e'; exact ⟨by decide, .inr ⟨by decide, by decide⟩⟩)

example : ∃ os w h, run ⟨fun _ _ => 0xaa, false⟩ c74u32 c74prog [] [] = .ok ((os, w), h) ∧ SameOuts c74prog os c74outs :=
  c74_program_partial c74u32_ok c74u32_sizes c74prog_run (c74prog_within false)

example : run ⟨fun _ _ => 0xaa, false⟩ c74u32 ([.ofList [1, 2]] ++ [.remove 0 2]) [] [] = .panic :=
  c74_panic_partial c74u32_ok c74u32_sizes (.cons rfl .nil) (.cons ⟨by decide, .inr (by decide)⟩ fun _ _ _ => .nil) rfl

example : ∃ os w h, run ⟨fun _ _ => 0xaa, false⟩ c74u32 c74prog [] [] = .ok ((os, w), h) ∧ ∀ b, ¬ Live h b :=
  c74_no_leak_partial c74u32_ok c74u32_sizes c74prog_run (c74prog_within false) (by simp)

end

/-- `__VERIFIER_memcpy` is not defined: after growing, the elements of a vector may be anything. -/
theorem c74_grow_fails (hc : c.Ok) (hs : Sizes c 33) (xs ys : List V) (x : V) (hx : xs.length = 32) (hy : ys.length = 32) :
    StdRun [.ofList xs, .push 0 x, .slice 0] [] [.unit, .unit, .seq (xs ++ [x])] [.vec 32 (xs ++ [x])] ∧
    ∃ g : Cfg, g.copies = false ∧ ∃ w h, run g c [.ofList xs, .push 0 x, .slice 0] [] [] = .ok (([.unit, .unit, .seq (ys ++ [x])], w), h) := by
  refine ⟨.cons rfl (.cons rfl (.cons rfl .nil)), ⟨fun _ => bytesOf c ys, false⟩, rfl, ?_⟩
  obtain ⟨v, h0, e0, r0, c0, b0, l0⟩ := ofList_room (g := ⟨fun _ => bytesOf c ys, false⟩) hc hs xs (by omega) []
  obtain ⟨v1, h1, e1, r1, c1⟩ := grow_plain (g := ⟨fun _ => bytesOf c ys, false⟩) hs r0 rfl (by omega) (by omega) (hy.trans hx.symm)
    (bytesOf_cells hc ys)
  obtain ⟨h2, e2, r2, _⟩ := push_room hc r1 x (by omega)
  have ep : Vec.push ⟨fun _ => bytesOf c ys, false⟩ c v x h0 = .ok ({ v1 with len := v1.len + 1 }, h2) := by
    unfold Vec.push
    rw [if_pos (by rw [r0.len]; omega)]
    exact (bind_ok e1).trans ((bind_ok e2).trans rfl)
  refine ⟨[.vec { v1 with len := v1.len + 1 }], h2, ?_⟩
  refine (bind_ok (a := (.unit, [.vec v])) (h' := h0) ((bind_ok e0).trans rfl)).trans ?_
  refine (bind_ok (a := ([.unit, .seq (ys ++ [x])], [.vec { v1 with len := v1.len + 1 }])) (h' := h2) ?_).trans rfl
  refine (bind_ok (a := (.unit, [.vec { v1 with len := v1.len + 1 }])) (h' := h2) ((bind_ok ep).trans rfl)).trans ?_
  refine (bind_ok (a := ([.seq (ys ++ [x])], [.vec { v1 with len := v1.len + 1 }])) (h' := h2) ?_).trans rfl
  refine (bind_ok (a := (.seq (ys ++ [x]), [.vec { v1 with len := v1.len + 1 }])) (h' := h2) ((bind_ok (slice_ok hc r2)).trans rfl)).trans ?_
  rfl

example : ∃ g : Cfg, g.copies = false ∧ ∃ w h, run g c74u32 [.ofList (List.replicate 32 1), .push 0 3, .slice 0] [] [] =
    .ok (([.unit, .unit, .seq (List.replicate 32 2 ++ [3])], w), h) :=
  (c74_grow_fails c74u32_ok ⟨by decide, by decide, by decide⟩ (List.replicate 32 1) (List.replicate 32 2) 3 (by simp) (by simp)).2

/-- A vector created with capacity 0 does not grow: pushing is a store outside the block, whatever `__VERIFIER_memcpy` does. -/
theorem c74_zero_capacity_fails (hc : c.Ok) (hs : 0 < c.size) (x : V) :
    StdRun [.withCapacity 0, .push 0 x] [] [.unit, .unit] [.vec 0 [x]] ∧ run g c [.withCapacity 0, .push 0 x] [] [] = .ub := by
  refine ⟨.cons rfl (.cons rfl .nil), ?_⟩
  have e0 : Vec.withCapacity g c 0 [] = .ok (⟨⟨0, 0⟩, 0, 0⟩, [⟨true, 0, g.junk 0⟩]) := by
    have : umul 0 c.size [] = .ok (0, []) := by rw [umul_ok (by rw [Nat.zero_mul]; decide), Nat.zero_mul]
    exact (bind_ok this).trans rfl
  have eg : Vec.grow g c ⟨⟨0, 0⟩, 0, 0⟩ [⟨true, 0, g.junk 0⟩] = .ok (⟨⟨1, 0⟩, 0, 0⟩, [⟨true, 0, g.junk 0⟩, ⟨true, 0, g.junk 1⟩]) := by
    have u2 : ∀ h, umul 2 0 h = .ok (0, h) := fun h => umul_ok (by decide) h
    have u0 : ∀ h, umul 0 c.size h = .ok (0, h) := fun h => by rw [umul_ok (by rw [Nat.zero_mul]; decide), Nat.zero_mul]
    refine (bind_ok (u2 _)).trans ((bind_ok (u0 _)).trans ((bind_ok (u0 _)).trans ?_))
    refine (bind_ok (a := ⟨1, 0⟩) (h' := [⟨true, 0, g.junk 0⟩, ⟨true, 0, g.junk 1⟩]) ?_).trans rfl
    unfold sizedRealloc
    cases g.copies <;> rfl
  have ew : write c (Ptr.add c ⟨1, 0⟩ 0) x [⟨true, 0, g.junk 0⟩, ⟨true, 0, g.junk 1⟩] = .ub := by
    have hl := hc.len x
    unfold write writeBytes Ptr.add
    rw [if_neg (by intro e; rw [e] at hl; simp at hl; omega)]
    simp [hl]; omega
  refine (bind_ok (a := (.unit, [.vec ⟨⟨0, 0⟩, 0, 0⟩])) (h' := [⟨true, 0, g.junk 0⟩]) ((bind_ok e0).trans rfl)).trans ?_
  show M.bind (run g c [.push 0 x] [.vec ⟨⟨0, 0⟩, 0, 0⟩]) _ _ = _
  have : run g c [.push 0 x] [.vec ⟨⟨0, 0⟩, 0, 0⟩] [⟨true, 0, g.junk 0⟩] = .ub := by
    show M.bind (M.bind (Vec.push g c ⟨⟨0, 0⟩, 0, 0⟩ x) _) _ _ = _
    have ep : Vec.push g c ⟨⟨0, 0⟩, 0, 0⟩ x [⟨true, 0, g.junk 0⟩] = .ub := by
      unfold Vec.push
      rw [if_pos rfl]
      refine (bind_ok eg).trans ?_
      show M.bind _ _ _ = _
      unfold M.bind; rw [ew]
    unfold M.bind; simp only [ep]
  unfold M.bind; simp only [this]

example : run ⟨fun _ _ => 0, true⟩ c74u32 [.withCapacity 0, .push 0 5] [] [] = .ub := (c74_zero_capacity_fails c74u32_ok (by decide) 5).2

/-- A dropped vector drops its elements from the last to the first, std from the first to the last. -/
theorem c74_drop_order_fails (hc : c.Ok) (hs : Sizes c 32) (xs : List V) (hx : xs.length ≤ 32) :
    StdRun [.ofList xs, .drop 0] [] [.unit, .seq xs] [.gone] ∧
    ∃ w h, run g c [.ofList xs, .drop 0] [] [] = .ok (([.unit, .seq xs.reverse], w), h) := by
  refine ⟨.cons rfl (.cons rfl .nil), ?_⟩
  obtain ⟨os, w, h, e, so⟩ := c74_program_partial (g := g) hc hs (ops := [.ofList xs, .drop 0]) (.cons rfl (.cons rfl .nil))
    (.cons ⟨hx, .inr hx⟩ fun _ _ _ => .cons trivial fun _ _ _ => .nil)
  cases so with
  | cons s1 so =>
    cases so with
    | cons s2 so =>
      cases so
      obtain ⟨ys, e1, e2⟩ := s2
      cases e1; cases s1; subst e2
      exact ⟨w, h, e⟩

example : ∃ w h, run ⟨fun _ _ => 0, false⟩ c74u32 [.ofList [1, 2, 3], .drop 0] [] [] = .ok (([.unit, .seq [3, 2, 1]], w), h) :=
  (c74_drop_order_fails c74u32_ok ⟨by decide, by decide, by decide⟩ [1, 2, 3] (by decide)).2

/-- Growing does not free the old block: it is still live when the vector has been dropped. -/
theorem c74_leak_fails (hc : c.Ok) (hs : Sizes c 33) (hg : g.copies = true) (xs : List V) (x : V) (hx : xs.length = 32) :
    ∃ os h, run g c [.ofList xs, .push 0 x, .drop 0] [] [] = .ok ((os, [.gone]), h) ∧ Live h 0 := by
  obtain ⟨v, h0, e0, r0, c0, b0, l0⟩ := ofList_room (g := g) hc hs xs (by omega) []
  obtain ⟨v1, h1, e1, r1, c1, _, b1, _, l1, k1⟩ := grow_ok (g := g) hs r0 hg (by omega) (by omega)
  obtain ⟨h2, e2, r2, k2, l2, _⟩ := push_room hc r1 x (by omega)
  obtain ⟨h3, e3, k3, _⟩ := drop_ok hc r2
  have ep : Vec.push g c v x h0 = .ok ({ v1 with len := v1.len + 1 }, h2) := by
    unfold Vec.push
    rw [if_pos (by rw [r0.len]; omega)]
    exact (bind_ok e1).trans ((bind_ok e2).trans rfl)
  simp only [List.length_nil] at b0 l0
  refine ⟨[.unit, .unit, .seq (xs ++ [x]).reverse], h3, ?_, ?_⟩
  · refine (bind_ok (a := (.unit, [.vec v])) (h' := h0) ((bind_ok e0).trans rfl)).trans ?_
    refine (bind_ok (a := ([.unit, .seq (xs ++ [x]).reverse], [.gone])) (h' := h3) ?_).trans rfl
    refine (bind_ok (a := (.unit, [.vec { v1 with len := v1.len + 1 }])) (h' := h2) ((bind_ok ep).trans rfl)).trans ?_
    refine (bind_ok (a := ([.seq (xs ++ [x]).reverse], [.gone])) (h' := h3) ?_).trans rfl
    refine (bind_ok (a := (.seq (xs ++ [x]).reverse, [.gone])) (h' := h3) ((bind_ok e3).trans rfl)).trans ?_
    rfl
  · obtain ⟨B, hB, hl⟩ := r0.live
    rw [b0] at hB
    refine ⟨B, ?_, hl⟩
    rw [k3.same 0 (by omega) (by show 0 ≠ v1.ptr.blk; omega), k2.same 0 (by omega) (by omega), k1 0 (by omega), hB]

example : ∃ os h, run ⟨fun _ _ => 0, true⟩ c74u32 [.ofList (List.replicate 32 1), .push 0 3, .drop 0] [] [] = .ok ((os, [.gone]), h) ∧ Live h 0 :=
  c74_leak_fails c74u32_ok ⟨by decide, by decide, by decide⟩ rfl _ 3 (by simp)

/-- `vec![x; k]` for expressions without effects: `k` copies. -/
theorem c74_repeat_partial (hc : c.Ok) {n k : Nat} (s : Sizes c n) (x : V) (hn : k ≤ n) (hg : g.copies = true ∨ k ≤ 32) :
    ∃ v h0 v' h', Vec.new g c [] = .ok (v, h0) ∧ RepeatLoop g c (σ := Unit) (fun s => (x, s)) (fun s => (k, s)) 0 v () h0 v' () h' ∧
      Vec.slice c v' h' = .ok (List.replicate k x, h') := by
  obtain ⟨v, h0, e0, r0, c0, _⟩ := new_ok (g := g) s []
  obtain ⟨v', h', e, r⟩ := repeat_ok (g := g) hc s (σ := Unit) (val := fun s => (x, s)) (count := fun s => (k, s)) (f := fun _ => x) (st := fun _ => ())
    (fun _ _ _ _ => rfl) (fun _ _ => rfl) hn hg k 0 (by omega) r0 (by omega)
  refine ⟨v, h0, v', h', e0, e, ?_⟩
  have := slice_ok hc r
  rw [this]
  congr 2
  show List.map (fun _ => x) (List.range k) = _
  rw [List.map_const', List.length_range]

example : ∃ v h0 v' h', Vec.new ⟨fun _ _ => 0, false⟩ c74u32 [] = .ok (v, h0) ∧
    RepeatLoop ⟨fun _ _ => 0, false⟩ c74u32 (σ := Unit) (fun s => (7, s)) (fun s => (5, s)) 0 v () h0 v' () h' ∧
      Vec.slice c74u32 v' h' = .ok ([7, 7, 7, 7, 7], h') :=
  c74_repeat_partial (k := 5) c74u32_ok c74u32_sizes 7 (by decide) (.inr (by decide))

/-- In `vec![val; count]` the macro evaluates `val` for every element and `count` once more than that: with a counter for `val`, the elements
are 0, …, k-1 where std has k times 0; with a counter for `count`, it has been evaluated k+1 times where std evaluates it once. -/
theorem c74_repeat_fails (hc : c.Ok) {n k : Nat} (s : Sizes c n) (f : Nat → V) (hn : k ≤ n) (hg : g.copies = true ∨ k ≤ 32) :
    ∃ v h0 v' h', Vec.new g c [] = .ok (v, h0) ∧
      RepeatLoop g c (fun s : Nat × Nat => (f s.1, (s.1 + 1, s.2))) (fun s => (k, (s.1, s.2 + 1))) 0 v (0, 0) h0 v' (k, k + 1) h' ∧
      Vec.slice c v' h' = .ok ((List.range k).map f, h') := by
  obtain ⟨v, h0, e0, r0, c0, _⟩ := new_ok (g := g) s []
  obtain ⟨v', h', e, r⟩ := repeat_ok (g := g) hc s (val := fun s : Nat × Nat => (f s.1, (s.1 + 1, s.2))) (count := fun s => (k, (s.1, s.2 + 1)))
    (f := f) (st := fun i => (i, i))
    (fun i _ s1 e => by cases e; rfl) (fun _ _ => rfl) hn hg k 0 (by omega) r0 (by omega)
  exact ⟨v, h0, v', h', e0, e, slice_ok hc r⟩

example : ∃ v h0 v' h', Vec.new ⟨fun _ _ => 0, false⟩ c74u32 [] = .ok (v, h0) ∧
    RepeatLoop ⟨fun _ _ => 0, false⟩ c74u32 (fun s : Nat × Nat => (BitVec.ofNat 32 s.1, (s.1 + 1, s.2))) (fun s => (3, (s.1, s.2 + 1))) 0 v (0, 0) h0 v' (3, 4) h' ∧
      Vec.slice c74u32 v' h' = .ok ([0, 1, 2], h') :=
  c74_repeat_fails (k := 3) c74u32_ok c74u32_sizes (fun i => BitVec.ofNat 32 i) (by decide) (.inr (by decide))

/-- The allocation functions: a new block of the given size; `alloc_zeroed` is filled with zeros; deallocation frees it and nothing else. -/
theorem c74_alloc (size align : Nat) (h : Heap) :
    (∃ h', primAlloc g size align h = .ok (⟨h.length, 0⟩, h') ∧ Live h' h.length ∧ (∀ a, a < h.length → h'[a]? = h[a]?) ∧
      (∃ l, l.length = size ∧ readBytes ⟨h.length, 0⟩ size h' = .ok (l, h')) ∧
      ∃ h'', primDealloc ⟨h.length, 0⟩ size align h' = .ok ((), h'') ∧ ∀ a, Live h'' a ↔ Live h a) ∧
    (∃ h', primAllocZeroed g size align h = .ok (⟨h.length, 0⟩, h') ∧ (∀ a, a < h.length → h'[a]? = h[a]?) ∧
      readBytes ⟨h.length, 0⟩ size h' = .ok (List.replicate size 0, h')) := by
  have h2 : (h ++ [(⟨true, size, g.junk h.length⟩ : Block)])[h.length]? = some ⟨true, size, g.junk h.length⟩ := by simp
  constructor
  · refine ⟨h ++ [⟨true, size, g.junk h.length⟩], rfl, ⟨_, h2, rfl⟩, fun a ha => get_append ha, ⟨_, ?_, readBytes_ok h2 rfl (by show 0 + size ≤ size; omega)⟩, ?_⟩
    · simp
    · refine ⟨_, free_ok h2 rfl, fun a => ⟨fun l => ?_, fun l => ?_⟩⟩
      · obtain ⟨l1, ne⟩ := live_free h2 l
        exact (live_append l1).resolve_right ne
      · have := l.lt
        obtain ⟨A, hA, la⟩ := l
        exact ⟨A, by rw [get_set_ne (by omega), get_append this]; exact hA, la⟩
  · obtain ⟨B', e, bl, bs, _, bd⟩ := writeBytes_ok (off := 0) (l := List.replicate size (0 : Byte)) h2 rfl (by simp)
    refine ⟨(h ++ [(⟨true, size, g.junk h.length⟩ : Block)]).set h.length B', ?_, fun a ha => by rw [get_set_ne (by omega), get_append ha], ?_⟩
    · exact (bind_ok (m := malloc g size) (h := h) rfl).trans ((bind_ok e).trans rfl)
    · rw [readBytes_ok (get_set h2) bl (by rw [bs]; show 0 + size ≤ size; omega)]
      congr 2
      apply List.ext_getElem?
      intro j
      by_cases hj : j < size
      · have := bd j (by simpa using hj)
        rw [this]; simp [hj]
      · rw [List.getElem?_eq_none (by simp; omega), List.getElem?_eq_none (by simp; omega)]

example : ∃ h', primAllocZeroed ⟨fun _ _ => 0xaa, false⟩ 3 1 [] = .ok (⟨0, 0⟩, h') ∧ (∀ a, a < 0 → h'[a]? = ([] : Heap)[a]?) ∧
    readBytes ⟨0, 0⟩ 3 h' = .ok ([0, 0, 0], h') := (c74_alloc 3 1 []).2

theorem junk_read (l : List Byte) (h : Heap) :
    readBytes ⟨h.length, 0⟩ l.length (h ++ [⟨true, l.length, fun j => (l[j]?).getD 0⟩]) =
      .ok (l, h ++ [⟨true, l.length, fun j => (l[j]?).getD 0⟩]) := by
  rw [readBytes_ok (B := ⟨true, l.length, fun j => (l[j]?).getD 0⟩) (by simp) rfl (by show 0 + l.length ≤ l.length; omega)]
  congr 2
  apply List.ext_getElem?
  intro j
  by_cases hj : j < l.length
  · simp [hj]
  · rw [List.getElem?_eq_none (by simp; omega), List.getElem?_eq_none (by omega)]

/-- The zeroing allocation function of the standard allocator interface does not zero, and reallocation does not keep the contents: any
bytes may be found in the block. -/
theorem c74_alloc_zeroed_fails (l : List Byte) (align : Nat) (h : Heap) :
    ∃ g h', stdAllocZeroed g l.length align h = .ok (⟨h.length, 0⟩, h') ∧ readBytes ⟨h.length, 0⟩ l.length h' = .ok (l, h') :=
  ⟨⟨fun _ j => (l[j]?).getD 0, false⟩, _, rfl, junk_read l h⟩

example : ∃ g h', stdAllocZeroed g 2 1 [] = .ok (⟨0, 0⟩, h') ∧ readBytes ⟨0, 0⟩ 2 h' = .ok ([1, 2], h') := c74_alloc_zeroed_fails [1, 2] 1 []

/-- See `c74_alloc_zeroed_fails`. The old contents `old` are lost. -/
theorem c74_realloc_fails (old l : List Byte) (align : Nat) :
    ∃ g h1 h2 h3 q, stdAlloc g old.length align [] = .ok (⟨0, 0⟩, h1) ∧ writeBytes ⟨0, 0⟩ old h1 = .ok ((), h2) ∧
      readBytes ⟨0, 0⟩ old.length h2 = .ok (old, h2) ∧
      stdRealloc g ⟨0, 0⟩ old.length align l.length h2 = .ok (q, h3) ∧ readBytes q l.length h3 = .ok (l, h3) := by
  have g0 : ([(⟨true, old.length, fun j => (l[j]?).getD 0⟩ : Block)] : Heap)[0]? = some ⟨true, old.length, fun j => (l[j]?).getD 0⟩ := rfl
  obtain ⟨B, e, bl, bs, _, bd⟩ := writeBytes_ok (off := 0) (l := old) g0 rfl (by simp)
  have gB : (([(⟨true, old.length, fun j => (l[j]?).getD 0⟩ : Block)] : Heap).set 0 B)[0]? = some B := rfl
  refine ⟨⟨fun _ j => (l[j]?).getD 0, false⟩, _, _, _, ⟨1, 0⟩, rfl, e, ?_, (bind_ok (free_ok gB bl)).trans rfl, junk_read l [{ B with live := false }]⟩
  rw [readBytes_ok gB bl (by rw [bs]; simp)]
  congr 2
  apply List.ext_getElem?
  intro j
  by_cases hj : j < old.length
  · rw [bd j hj]; simp [hj]
  · rw [List.getElem?_eq_none (by simp; omega), List.getElem?_eq_none (by omega)]

example : ∃ g h1 h2 h3 q, stdAlloc g 2 1 [] = .ok (⟨0, 0⟩, h1) ∧ writeBytes ⟨0, 0⟩ [5, 6] h1 = .ok ((), h2) ∧ readBytes ⟨0, 0⟩ 2 h2 = .ok ([5, 6], h2) ∧
    stdRealloc g ⟨0, 0⟩ 2 1 3 h2 = .ok (q, h3) ∧ readBytes q 3 h3 = .ok ([7, 8, 9], h3) := c74_realloc_fails [5, 6] [7, 8, 9] 1

/-- A box holds its value and touches no other block. -/
theorem c74_box (hc : c.Ok) (x : V) (h : Heap) :
    ∃ p h', Box.new g c x h = .ok (p, h') ∧ p.blk = h.length ∧ (∀ a, a < h.length → h'[a]? = h[a]?) ∧ Box.deref c p h' = .ok (x, h') := by
  have h2 : (h ++ [(⟨true, c.size, g.junk h.length⟩ : Block)])[h.length]? = some ⟨true, c.size, g.junk h.length⟩ := by simp
  obtain ⟨B', e, bl, bs, _, bd⟩ := write_ok hc (k := 0) (i := 0) x h2 rfl (by show (0 + 0 + 1) * c.size ≤ c.size; omega)
  refine ⟨⟨h.length, 0⟩, (h ++ [(⟨true, c.size, g.junk h.length⟩ : Block)]).set h.length B', ?_, rfl, fun a ha => by rw [get_set_ne (by omega), get_append ha], ?_⟩
  · refine (bind_ok (m := malloc g c.size) (h := h) rfl).trans ((bind_ok (a := ()) ?_).trans rfl)
    rw [ptr_add]
    simpa using e
  · have := read_ok hc (k := 0) (i := 0) (xs := [x]) (get_set (y := B') h2) bl (by rw [bs]; show (0 + 0 + 1) * c.size ≤ c.size; omega)
      (by
        intro i y hi j hj
        have : i = 0 := by have := getElem?_lt hi; simp at this; exact this
        subst this
        cases hi
        exact bd j hj) rfl
    unfold Box.deref
    simpa using this

example : ∃ p h', Box.new ⟨fun _ _ => 0, false⟩ c74u32 9 [] = .ok (p, h') ∧ p.blk = 0 ∧ (∀ a, a < 0 → h'[a]? = ([] : Heap)[a]?) ∧
    Box.deref c74u32 p h' = .ok (9, h') := c74_box c74u32_ok 9 []

/-- `Box` has no `Drop`: going out of scope neither drops the value nor frees the block. -/
theorem c74_box_fails (hc : c.Ok) (x : V) (h : Heap) :
    ∃ p h1 h2, Box.new g c x h = .ok (p, h1) ∧ Box.goOutOfScope (V := V) p h1 = .ok ([], h2) ∧ Live h2 p.blk := by
  have h2 : (h ++ [(⟨true, c.size, g.junk h.length⟩ : Block)])[h.length]? = some ⟨true, c.size, g.junk h.length⟩ := by simp
  obtain ⟨B', e, bl, _⟩ := write_ok hc (k := 0) (i := 0) x h2 rfl (by show (0 + 0 + 1) * c.size ≤ c.size; omega)
  refine ⟨⟨h.length, 0⟩, (h ++ [(⟨true, c.size, g.junk h.length⟩ : Block)]).set h.length B', _, ?_, rfl, ⟨B', get_set h2, bl⟩⟩
  refine (bind_ok (m := malloc g c.size) (h := h) rfl).trans ((bind_ok (a := ()) ?_).trans rfl)
  rw [ptr_add]
  simpa using e

example : ∃ p h1 h2, Box.new ⟨fun _ _ => 0, false⟩ c74u32 9 [] = .ok (p, h1) ∧ Box.goOutOfScope (V := BitVec 32) p h1 = .ok ([], h2) ∧
    Live h2 p.blk := c74_box_fails c74u32_ok 9 []

end Smack.RustVec
