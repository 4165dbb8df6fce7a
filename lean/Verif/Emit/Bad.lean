/-
Lemmas for C72: applications of functions that are not declared.
-/
import Verif.Emit.Instr

namespace Smack.Emit

open Smack.PreludeTy

variable {m : Mode} {Γ : String → Option TName}

theorem intT_inj {a b : Nat} (h : intT m a = intT m b) : a = b := by
  cases hb : m.bp <;> simp [intT, hb] at h <;> exact h

/-- Integer operations are declared for the listed widths only. -/
theorem arith_undeclared {f : String} (hf : f ∈ arithNames) {n : Nat} (hn : n ∉ widths) {args : List Ex} {T : Ty} :
    ¬ HasTy (sig m) Γ (.fn ⟨f, [.ty (intT m n)]⟩ args) T := by
  intro h
  obtain ⟨d, hd, hs, _, _⟩ := ty_fn_inv h
  have hg : grp d.sym = 2 := by
    rw [hs]
    exact grp_arith hf (by cases hb : m.bp <;> simp [intT, hb, icls, Comp.cls])
  have := group_of_decl hd (k := 2) rfl hg
  unfold arithDecls at this
  obtain ⟨o, _, this⟩ := List.mem_flatMap.mp this
  obtain ⟨k, hk, this⟩ := List.mem_flatMap.mp this
  rcases arith_sym this with e | e <;> rw [e] at hs <;> simp only [Sym.mk.injEq, List.cons.injEq, and_true, Comp.ty.injEq] at hs
  · have := hs.2
    cases hb : m.bp <;> simp [intT, hb] at this
    exact hn (this ▸ hk)
  · have := hs.2
    cases hb : m.bp <;> simp [intT, hb] at this
    exact hn (this ▸ hk)

/-- Conversions between pointers and integers are declared for four widths only. -/
theorem ptrNum_undeclared {n : Nat} (hn : n ∉ ptrWidths) {args : List Ex} {T : Ty} :
    ¬ HasTy (sig m) Γ (.fn ⟨"$p2i", [.ty .ref, .ty (intT m n)]⟩ args) T ∧
    ¬ HasTy (sig m) Γ (.fn ⟨"$i2p", [.ty (intT m n), .ty .ref]⟩ args) T := by
  have key : ∀ d ∈ decls m, d.sym.base ∈ ["$p2i", "$i2p"] → ∃ k ∈ ptrWidths, d.sym = ⟨"$p2i", [.ty .ref, .ty (intT m k)]⟩ ∨
      d.sym = ⟨"$i2p", [.ty (intT m k), .ty .ref]⟩ := by
    intro d hd hb
    have := group_of_decl hd (k := 11) rfl (grp_late_list (l := ["$p2i", "$i2p"]) (by decide) hb)
    unfold ptrNumDecls at this
    obtain ⟨k, hk, this⟩ := List.mem_flatMap.mp this
    refine ⟨k, hk, ?_⟩
    simp only [List.mem_cons, List.not_mem_nil, or_false] at this
    rcases this with rfl | rfl
    · exact .inl rfl
    · exact .inr rfl
  constructor
  · intro h
    obtain ⟨d, hd, hs, _, _⟩ := ty_fn_inv h
    obtain ⟨k, hk, e | e⟩ := key d hd (by rw [hs]; simp)
    · rw [e] at hs
      simp only [Sym.mk.injEq, List.cons.injEq, and_true, true_and, Comp.ty.injEq] at hs
      exact hn (intT_inj hs ▸ hk)
    · rw [e] at hs; simp at hs
  · intro h
    obtain ⟨d, hd, hs, _, _⟩ := ty_fn_inv h
    obtain ⟨k, hk, e | e⟩ := key d hd (by rw [hs]; simp)
    · rw [e] at hs; simp at hs
    · rw [e] at hs
      simp only [Sym.mk.injEq, List.cons.injEq, and_true, true_and, Comp.ty.injEq] at hs
      exact hn (intT_inj hs ▸ hk)

theorem isFp_intT (n : Nat) : isFp (intT m n) = false := by cases hb : m.bp <;> simp [intT, hb, isFp]

theorem fpInt_idx {d : Fun} (hd : d ∈ fpIntDecls m) :
    ∃ t n, isFp t = true ∧ (d.sym.idx = [.ty t, .ty (intT m n)] ∨ d.sym.idx = [.ty (intT m n), .ty t]) := by
  have key : ∃ c ∈ fpIntTable, ∃ t n rm a, isFp t = true ∧ d = c.decl m t n rm a := by
    obtain ⟨c, hc, hd⟩ := List.mem_flatMap.mp hd
    split at hd
    · obtain ⟨k, _, hd⟩ := List.mem_flatMap.mp hd
      obtain ⟨n, hn, hd⟩ := List.mem_flatMap.mp hd
      split at hd
      · exact ⟨c, hc, _, _, _, _, fk_isFp k, List.mem_singleton.mp hd⟩
      · cases hd
    · obtain ⟨n, hn, hd⟩ := List.mem_flatMap.mp hd
      split at hd
      · exact ⟨c, hc, _, _, _, _, rfl, List.mem_singleton.mp hd⟩
      · cases hd
  obtain ⟨c, _, t, n, _, _, ht, rfl⟩ := key
  refine ⟨t, n, ht, ?_⟩
  cases hf : c.f2i <;> simp [FpIntConv.decl, hf]

/-- There is no bit cast from a type other than `ref` to itself. -/
theorem bitcast_undeclared {t : TName} (ht : t ≠ .ref) {args : List Ex} {T : Ty} :
    ¬ HasTy (sig m) Γ (.fn ⟨"$bitcast", [.ty t, .ty t]⟩ args) T := by
  intro h
  obtain ⟨d, hd, hs, _, _⟩ := ty_fn_inv h
  have hg : grp d.sym = if icls [.ty t, .ty t] = 1 then 10 else 15 := by rw [hs]; exact grp_bit _
  split at hg
  · have := group_of_decl hd (k := 10) rfl hg
    simp only [ptrConvDecls, List.mem_cons, List.not_mem_nil, or_false] at this
    rcases this with rfl | rfl
    · simp at hs; exact ht hs.symm
    · simp [extractFun] at hs
  · obtain ⟨u, n, hu, e | e⟩ := fpInt_idx (group_of_decl hd (k := 15) rfl hg)
    · rw [hs] at e
      simp at e
      rw [← e.1, e.2, isFp_intT] at hu; cases hu
    · rw [hs] at e
      simp at e
      rw [← e.2, e.1, isFp_intT] at hu; cases hu

end Smack.Emit
