import Verif.MemSplit.Static

/-
C65: loads and stores on memory split into regions behave like loads and stores on one flat memory of bytes.
-/

namespace Smack.MemSplit

open Smack.Bytes (PtrRep addr)

/-- The variables declared for the regions. -/
def decls (m : Mode) (D : Nat → Node) (h prog : List Static) : List Decl := (translate m D (table m D h) prog).2.map (memType m)

/-- The generated statements. -/
def stmts (m : Mode) (D : Nat → Node) (h prog : List Static) : List Stmt := (translate m D (table m D h) prog).1

/-- A state of the memory variables of the declared types. -/
def WellTyped {P : PtrRep} (ds : List Decl) (σ : Nat → Content P) : Prop := ∀ r d, ds[r]? = some d → (σ r).HasTy d

/-- C65: for every initial flat memory there is an initial state of the memory variables from which the generated statements
type-check and load, at every step of every execution, the bits that the flat memory has. Partial: integer and pointer accesses of
modelled widths; see `c65_int_overlap_fails`, `c65_no_inference_fails` and `c65_no_split_fails` for the hypotheses `Covered` and
`NoScalars` and for the excluded mode. -/
theorem c65_forward_partial (m : Mode) (D : Nat → Node) (h prog : List Static) (hV : Valid D h prog) (hns : NoScalars m D h)
    (hcov : Covered m D prog) (tr : List (Event (ptrRep m))) (hS : Sound D prog tr) (hT : Typed m prog tr)
    (M : (ptrRep m).Ref → BitVec 8) :
    ∃ σ, WellTyped (decls m D h prog) σ ∧
      ∃ vs bs, run m (stmts m D h prog) (decls m D h prog) σ tr = some vs ∧ flatRun prog M tr = some bs ∧ Agrees m vs bs := by
  have hL := layout (laws m) hV hns hcov hS hT
  obtain ⟨σ, h1, h2⟩ := exists_regions hL M
  exact ⟨σ, h1, run_sim (laws m) hL hT tr (fun _ h => h) σ M h2⟩

/-- C65, the other direction: every initial state of the memory variables corresponds to some flat memory. -/
theorem c65_backward_partial (m : Mode) (D : Nat → Node) (h prog : List Static) (hV : Valid D h prog) (hns : NoScalars m D h)
    (hcov : Covered m D prog) (tr : List (Event (ptrRep m))) (hS : Sound D prog tr) (hT : Typed m prog tr)
    (σ : Nat → Content (ptrRep m)) (hσ : WellTyped (decls m D h prog) σ) :
    ∃ M : (ptrRep m).Ref → BitVec 8,
      ∃ vs bs, run m (stmts m D h prog) (decls m D h prog) σ tr = some vs ∧ flatRun prog M tr = some bs ∧ Agrees m vs bs := by
  have hL := layout (laws m) hV hns hcov hS hT
  have ht : ∀ e ∈ tr, ∀ st, Ev m prog (stmts m D h prog) (decls m D h prog) e st → (σ st.region).HasTy (declFor m st) :=
    fun e _ st hst => hσ _ _ hst.decl
  obtain ⟨M, hM⟩ := exists_flat (laws m) hL σ ht
  exact ⟨M, run_sim (laws m) hL hT tr (fun _ h => h) σ M fun e he st hst => ⟨ht e he st hst, hM e he st hst⟩⟩

/-! ### A module meeting the hypotheses -/

namespace Ex

/-- Node 0 is a global structure with an `i32` and a pointer, node 1 a heap object accessed at overlapping fields. -/
def D : Nat → Node
  | 0 => { offsetCollapsed := false, external := false, incomplete := false, unknown := false, intToPtr := false, ptrToInt := false,
           memOpd := false, fields := [⟨0, [⟨64, 4⟩]⟩, ⟨8, [⟨7, 8⟩]⟩], heap := false, alloca := false, array := false, numGlobals := 1 }
  | _ => { offsetCollapsed := false, external := false, incomplete := false, unknown := false, intToPtr := false, ptrToInt := false,
           memOpd := false, fields := [⟨0, [⟨64, 4⟩]⟩, ⟨2, [⟨16, 1⟩]⟩], heap := true, alloca := false, array := false, numGlobals := 0 }

def prog : List Static := [⟨some 0, 0, .int 32, 4⟩, ⟨some 0, 8, .ptr 3, 8⟩, ⟨some 1, 0, .int 32, 4⟩, ⟨some 1, 2, .int 8, 1⟩]

theorem valid : Valid D prog prog where
  fields := by
    intro n
    match n with
    | 0 => exact ⟨by decide, by decide, by decide⟩
    | n + 1 => exact ⟨by show List.Pairwise _ [_, _]; decide,
        by show ∀ f ∈ [(⟨0, [⟨64, 4⟩]⟩ : TypeSafe.Field), ⟨2, [⟨16, 1⟩]⟩], _; decide,
        by show ∀ f ∈ [(⟨0, [⟨64, 4⟩]⟩ : TypeSafe.Field), ⟨2, [⟨16, 1⟩]⟩], _; decide⟩
  recorded := by
    intro A hA
    simp only [prog, List.mem_cons, List.not_mem_nil, or_false] at hA
    rcases hA with rfl | rfl | rfl | rfl <;> intro n hn <;> cases hn <;> intro ht <;> revert ht <;> decide
  fits := by decide
  positive := by decide
  seen := fun _ h => h
  size := by decide
  width := by decide

/-- Bit-precise mode with integer pointers. -/
def m : Mode := ⟨true, false, false⟩

/-- The structure is at 1000, the heap object at 2000. -/
def tr : List (Event (ptrRep m)) :=
  [⟨0, (1000 : Int), some (.bv 32 7)⟩, ⟨1, (1008 : Int), some (.int 2000)⟩, ⟨2, (2000 : Int), some (.bv 32 0x01020304)⟩,
   ⟨3, (2002 : Int), none⟩, ⟨1, (1008 : Int), none⟩]

theorem typed : Typed m prog tr := by
  intro e he
  simp only [tr, List.mem_cons, List.not_mem_nil, or_false] at he
  rcases he with rfl | rfl | rfl | rfl | rfl
  · exact ⟨_, rfl, fun v h => by cases h; rfl⟩
  · exact ⟨_, rfl, fun v h => by cases h; trivial⟩
  · exact ⟨_, rfl, fun v h => by cases h; rfl⟩
  · exact ⟨_, rfl, fun v h => by cases h⟩
  · exact ⟨_, rfl, fun v h => by cases h⟩

theorem addr_eq {a b : Int} {i j : Nat} (h : addr (P := ptrRep m) a i = addr (P := ptrRep m) b j) : a + i = b + j := by
  have e1 := Bytes.addr_int a i
  have e2 := Bytes.addr_int b j
  exact e1.symm.trans (Eq.trans h e2)

theorem sound : Sound D prog tr where
  alias := by
    intro e he f hf A B hA hB i j hi hj hij
    simp only [tr, List.mem_cons, List.not_mem_nil, or_false] at he hf
    rcases he with rfl | rfl | rfl | rfl | rfl <;> cases hA <;> rcases hf with rfl | rfl | rfl | rfl | rfl <;> cases hB <;>
      (have hij' := addr_eq hij; simp only at hi hj hij'; first | (exfalso; omega) | exact Or.inr (Or.inr ⟨rfl, Or.inr (by simp only; omega)⟩))
  global := by
    intro e he f hf A B hA hB n hn hn' ho h1 h2 h3 h4
    simp only [tr, List.mem_cons, List.not_mem_nil, or_false] at he hf
    rcases he with rfl | rfl | rfl | rfl | rfl <;> cases hA <;> rcases hf with rfl | rfl | rfl | rfl | rfl <;> cases hB <;>
      cases hn <;> first | (exfalso; revert hn'; decide) | (exfalso; revert ho; decide) | (exfalso; revert h1; decide) | rfl

example : ∃ σ, WellTyped (decls m D prog prog) σ ∧
    ∃ vs bs, run m (stmts m D prog prog) (decls m D prog prog) σ tr = some vs ∧ flatRun prog (fun _ => 0) tr = some bs ∧
      Agrees m vs bs :=
  c65_forward_partial m D prog prog valid (fun _ h => by cases h) (Or.inl rfl) tr sound typed _

/-- The regions: two scalars and one map of bytes. -/
example : decls m D prog prog = [⟨false, .bv 32⟩, ⟨false, .int⟩, ⟨true, .bv 8⟩] := by decide
example : stmts m D prog prog = [⟨0, .scalar, .int 32⟩, ⟨1, .scalar, .ptr 3⟩, ⟨2, .bytes, .int 32⟩, ⟨2, .bytes, .int 8⟩] := by decide

end Ex

/-! ### Where the property does not hold -/

namespace Fails

theorem agrees_two {m : Mode} {v w : Val} {b c : (t : Ty) × BitVec t.bits} (h : Agrees m [v, w] [b, c]) :
    b = ⟨b.1, bitsOf b.1 v⟩ ∧ c = ⟨c.1, bitsOf c.1 w⟩ := by
  cases h with
  | cons _ h => cases h with
    | cons _ h => exact ⟨rfl, rfl⟩

theorem agrees_diff {m : Mode} {v : Val} : ¬ Agrees m [v, v] [⟨.int 8, 0⟩, ⟨.int 8, 1⟩] := by
  intro h
  obtain ⟨h1, h2⟩ := agrees_two h
  simp only [Sigma.mk.injEq, heq_eq_eq, true_and] at h1 h2
  rw [← h1] at h2
  exact absurd h2 (by decide)

/-- A load of a byte, a store of four bytes around it, and the same load again. -/
def trace {P : PtrRep} (p q : P.Ref) (v : Val) : List (Event P) := [⟨1, q, none⟩, ⟨0, p, some v⟩, ⟨1, q, none⟩]

theorem flat_trace {P : PtrRep} (hP : Laws P) (p q : P.Ref) (h : addr q 0 = addr p 1) (prog : List Static) (A B : Static)
    (hA : A.ty = .int 32) (hB : B.ty = .int 8) (hp : prog = [A, B]) (v : Val) (hv : bitsOf (.int 32) v = 256) :
    flatRun prog (fun _ => 0) (trace p q v) = some [⟨.int 8, 0⟩, ⟨.int 8, 1⟩] := by
  have e1 : flatRead (P := P) (fun _ => 0) q (.int 8) = 0 := rfl
  have e2 : flatRead (flatWrite (fun _ => 0) p (Ty.int 32).store (bitsOf (.int 32) v)) q (.int 8) = 1 := by
    apply flatRead_bytes
    intro i hi
    have : i = 0 := by have : i < 1 := hi; omega
    subst this
    rw [h, flatWrite_hit _ _ _ _ (hP.spread _ _ (by decide)) 1 (by decide), hv]
    decide
  rw [← e1, ← e2]
  obtain ⟨_, _, tA, _⟩ := A
  obtain ⟨_, _, tB, _⟩ := B
  simp only at hA hB
  subst hA hB hp
  rfl

theorem run_trace {P : PtrRep} (p q : P.Ref) (hne : q ≠ p) (m : Mode) (t : BTy) (v : Val) (σ : Nat → Content P) (vs : List Val)
    (h : run m [⟨0, .elem, .int 32⟩, ⟨0, .elem, .int 8⟩] [⟨true, t⟩] σ (trace p q v) = some vs) : ∃ w, vs = [w, w] := by
  cases hσ : σ 0 with
  | scalar x =>
    have hl : load m [⟨true, t⟩] σ ⟨0, .elem, .int 8⟩ q = none := by simp [load, hσ]
    simp [trace, run, hl] at h
  | map f =>
    by_cases h1 : t = bty m (.int 8)
    · have hl : load m [⟨true, t⟩] σ ⟨0, .elem, .int 8⟩ q = some (f q) := by simp [load, hσ, h1]
      by_cases h2 : HasTy v (bty m (.int 32))
      · by_cases h3 : t = bty m (.int 32)
        · have hs : store m [⟨true, t⟩] σ ⟨0, .elem, .int 32⟩ p v = some (.map fun x => open Classical in if x = p then v else f x) := by
            simp [store, hσ, ← h3]
            rw [h3]; exact h2
          have hl2 : load m [⟨true, t⟩] (fun r => if r = 0 then (.map fun x => open Classical in if x = p then v else f x) else σ r)
              ⟨0, .elem, .int 8⟩ q = some (f q) := by simp [load, h1, hne]
          simp [trace, run, hl, hs, hl2] at h
          exact ⟨f q, h.symm⟩
        · have hs : store m [⟨true, t⟩] σ ⟨0, .elem, .int 32⟩ p v = none := by simp [store, hσ, h3]
          simp [trace, run, hs] at h
      · have hs : store m [⟨true, t⟩] σ ⟨0, .elem, .int 32⟩ p v = none := by simp [store, h2]
        simp [trace, run, hs] at h
    · have hl : load m [⟨true, t⟩] σ ⟨0, .elem, .int 8⟩ q = none := by simp [load, hσ, h1]
      simp [trace, run, hl] at h

theorem run_mismatch {P : PtrRep} (bv : Bool) (st : Stmt) (e : Event P) (es : List (Event P)) (σ : Nat → Content P) (he : e.stmt = 0) :
    run ⟨true, bv, false⟩ [⟨0, .elem, .int 32⟩, st] [⟨true, .bv 8⟩] σ (e :: es) = none := by
  rw [run, he]
  cases hv : e.value with
  | none => cases hσ : σ 0 <;> simp [load, hσ, bty]
  | some v => cases hσ : σ 0 <;> simp [store, hσ, bty]

end Fails

/-- Integer mode: a load of one byte of a stored `i32` does not see the store, whatever the initial state. -/
theorem c65_int_overlap_fails : ∃ (D : Nat → Node) (prog : List Static) (tr : List (Event (ptrRep ⟨false, false, false⟩))),
    Valid D prog prog ∧ NoScalars ⟨false, false, false⟩ D prog ∧ Sound D prog tr ∧ Typed ⟨false, false, false⟩ prog tr ∧
    ∀ σ vs bs, run ⟨false, false, false⟩ (stmts ⟨false, false, false⟩ D prog prog) (decls ⟨false, false, false⟩ D prog prog) σ tr =
      some vs → flatRun prog (fun _ => 0) tr = some bs → ¬ Agrees ⟨false, false, false⟩ vs bs := by
  let D : Nat → Node := fun _ =>
    { offsetCollapsed := false, external := false, incomplete := false, unknown := false, intToPtr := false, ptrToInt := false,
      memOpd := false, fields := [⟨0, [⟨64, 4⟩]⟩, ⟨1, [⟨16, 1⟩]⟩], heap := true, alloca := false, array := false, numGlobals := 0 }
  let prog : List Static := [⟨some 0, 0, .int 32, 4⟩, ⟨some 0, 1, .int 8, 1⟩]
  let tr : List (Event (ptrRep ⟨false, false, false⟩)) :=
    Fails.trace (2000 : Int) (2001 : Int) (.int 256)
  have addr_eq : ∀ {a b : Int} {i j : Nat}, addr (P := ptrRep ⟨false, false, false⟩) a i = addr (P := ptrRep ⟨false, false, false⟩) b j →
      a + i = b + j := fun {a b i j} h => (Bytes.addr_int a i).symm.trans (Eq.trans h (Bytes.addr_int b j))
  refine ⟨D, prog, tr, ?_, ?_, ?_, ?_, ?_⟩
  · constructor
    · intro n
      exact ⟨by show List.Pairwise _ [_, _]; decide,
        by show ∀ f ∈ [(⟨0, [⟨64, 4⟩]⟩ : TypeSafe.Field), ⟨1, [⟨16, 1⟩]⟩], _; decide,
        by show ∀ f ∈ [(⟨0, [⟨64, 4⟩]⟩ : TypeSafe.Field), ⟨1, [⟨16, 1⟩]⟩], _; decide⟩
    · intro A hA
      simp only [prog, List.mem_cons, List.not_mem_nil, or_false] at hA
      rcases hA with rfl | rfl <;> intro n hn <;> cases hn <;> intro ht <;> revert ht <;> decide
    · decide
    · decide
    · exact fun _ h => h
    · decide
    · decide
  · intro h; cases h
  · constructor
    · intro e he f hf A B hA hB i j hi hj hij
      simp only [tr, Fails.trace, List.mem_cons, List.not_mem_nil, or_false] at he hf
      rcases he with rfl | rfl | rfl <;> cases hA <;> rcases hf with rfl | rfl | rfl <;> cases hB <;>
        (have hij' := addr_eq hij; simp only at hi hj hij'; exact Or.inr (Or.inr ⟨rfl, Or.inr (by simp only; omega)⟩))
    · intro e he f hf A B hA hB n hn hn' ho h1
      exact absurd h1 (by decide)
  · intro e he
    simp only [tr, Fails.trace, List.mem_cons, List.not_mem_nil, or_false] at he
    rcases he with rfl | rfl | rfl
    · exact ⟨_, rfl, fun v h => by cases h⟩
    · exact ⟨_, rfl, fun v h => by cases h; trivial⟩
    · exact ⟨_, rfl, fun v h => by cases h⟩
  · intro σ vs bs hr hfr hag
    have hs : stmts ⟨false, false, false⟩ D prog prog = [⟨0, .elem, .int 32⟩, ⟨0, .elem, .int 8⟩] := by decide
    have hd : decls ⟨false, false, false⟩ D prog prog = [⟨true, .int⟩] := by decide
    rw [hs, hd] at hr
    have hpath : addr (P := ptrRep ⟨false, false, false⟩) (2001 : Int) 0 = addr (P := ptrRep ⟨false, false, false⟩) (2000 : Int) 1 :=
      (Bytes.addr_int 2001 0).trans (Bytes.addr_int 2000 1).symm
    have hfr' := (Fails.flat_trace (laws ⟨false, false, false⟩) _ _ hpath prog _ _ rfl rfl rfl (.int 256) (by decide)).symm.trans hfr
    cases hfr'
    obtain ⟨w, hw⟩ := Fails.run_trace (P := ptrRep ⟨false, false, false⟩) (2000 : Int) (2001 : Int)
      (show (2001 : Int) ≠ 2000 by decide) _ _ _ _ _ hr
    rw [hw] at hag
    exact Fails.agrees_diff hag

/-- Bit-precise mode with `--no-byte-access-inference`: the variable of a global `i32` is declared as a map but used as a scalar,
so that no statement on it type-checks. -/
theorem c65_no_inference_fails (bv : Bool) : ∃ (D : Nat → Node) (prog : List Static),
    Valid D prog prog ∧ prog ≠ [] ∧ ∀ (tr : List (Event (ptrRep ⟨true, bv, true⟩))), tr ≠ [] → ∀ σ,
    run ⟨true, bv, true⟩ (stmts ⟨true, bv, true⟩ D prog prog) (decls ⟨true, bv, true⟩ D prog prog) σ tr = none := by
  let D : Nat → Node := fun _ =>
    { offsetCollapsed := false, external := false, incomplete := false, unknown := false, intToPtr := false, ptrToInt := false,
      memOpd := false, fields := [⟨0, [⟨64, 4⟩]⟩], heap := false, alloca := false, array := false, numGlobals := 1 }
  let prog : List Static := [⟨some 0, 0, .int 32, 4⟩]
  refine ⟨D, prog, ?_, by decide, ?_⟩
  · constructor
    · intro n
      exact ⟨by show List.Pairwise _ [_]; decide,
        by show ∀ f ∈ [(⟨0, [⟨64, 4⟩]⟩ : TypeSafe.Field)], _; decide,
        by show ∀ f ∈ [(⟨0, [⟨64, 4⟩]⟩ : TypeSafe.Field)], _; decide⟩
    · intro A hA
      simp only [prog, List.mem_cons, List.not_mem_nil, or_false] at hA
      subst hA; intro n hn; cases hn; intro ht; decide
    · decide
    · decide
    · exact fun _ h => h
    · decide
    · decide
  · intro tr htr σ
    have hs : stmts ⟨true, bv, true⟩ D prog prog = [⟨0, .scalar, .int 32⟩] := by cases bv <;> decide
    have hd : decls ⟨true, bv, true⟩ D prog prog = [⟨true, .bv 8⟩] := by cases bv <;> decide
    rw [hs, hd]
    cases tr with
    | nil => exact absurd rfl htr
    | cons e es =>
      rw [run]
      cases e.stmt with
      | zero =>
        cases hv : e.value with
        | none => simp [load]
        | some v => simp [store]
      | succ k => simp

/-- `--no-memory-splitting` with `--bit-precise`: all accesses share one region, whose type changes during the translation. A module
with an `i32` and an `i8` access does not type-check: the `i32` access is generated first, for a map of `bv32`, and the variable is
declared as a map of bytes. -/
theorem c65_no_split_fails (bv : Bool) (D : Nat → Node) (A B : Static) (hA : A.ty = .int 32) (hB : B.ty = .int 8) :
    (translateNoSplit ⟨true, bv, false⟩ D [] [A, B]).1 = [⟨0, .elem, .int 32⟩, ⟨0, .bytes, .int 8⟩] ∧
    (translateNoSplit ⟨true, bv, false⟩ D [] [A, B]).2.map (memType ⟨true, bv, false⟩) = [⟨true, .bv 8⟩] ∧
    ∀ (e : Event (ptrRep ⟨true, bv, false⟩)) (es : List (Event (ptrRep ⟨true, bv, false⟩))) σ, e.stmt = 0 →
      run ⟨true, bv, false⟩ (translateNoSplit ⟨true, bv, false⟩ D [] [A, B]).1
        ((translateNoSplit ⟨true, bv, false⟩ D [] [A, B]).2.map (memType ⟨true, bv, false⟩)) σ (e :: es) = none := by
  obtain ⟨_, _, tA, _⟩ := A
  obtain ⟨_, _, tB, _⟩ := B
  simp only at hA hB
  subst hA hB
  refine ⟨rfl, rfl, ?_⟩
  exact fun e es σ he => Fails.run_mismatch bv _ e es σ he

end Smack.MemSplit
