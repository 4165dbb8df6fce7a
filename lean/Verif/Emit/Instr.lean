/-
Lemmas for C72: instructions.
-/
import Verif.Emit.Stmts

namespace Smack.Emit

open Smack.PreludeTy

variable {m : Mode} {Γ : String → Option TName}

theorem ok_assign (hm : m.Ok) {x : String} {t : LTy} {e : Ex} (hx : Γ x = some (tyName m t)) (ht : t.Sup)
    (he : HasTy (sig m) Γ e (boogieTy m t)) : StOk (sig m) Γ (.assign x e) :=
  ⟨_, _, hx, resolves_ty hm ht, he⟩

theorem ty_reg (hm : m.Ok) {x : String} {t : LTy} (hx : Γ x = some (tyName m t)) (ht : t.Sup) :
    HasTy (sig m) Γ (.var x) (boogieTy m t) := .var hx (resolves_ty hm ht)

theorem ty_of_assign {x : String} {t : LTy} {e : Ex} (hx : Γ x = some (tyName m t))
    (h : StOk (sig m) Γ (.assign x e)) : HasTy (sig m) Γ e (boogieTy m t) := by
  obtain ⟨t', T, h1, h2, h3⟩ := h
  rw [hx] at h1; cases h1
  have := (resolves_inv h2).1
  rw [den_ty] at this
  rw [← this]; exact h3

/-! ### Aggregates -/

theorem extract_decl {t : LTy} (ht : t.Sup) : Declares m ⟨"$extractvalue", [.ty (tyName m t)]⟩ [.ref, .int] (tyName m t) := by
  cases t with
  | int n => exact extract_int ht
  | ptr => exact extract_ref
  | agg => exact extract_ref
  | fp k => rw [tyName_fp]; exact extract_fp k

theorem ty_extract (hm : m.Ok) {t : LTy} (ht : t.Sup) {e : Ex} (he : HasTy (sig m) Γ e (boogieTy m .agg)) (i : Nat) :
    HasTy (sig m) Γ (.fn ⟨"$extractvalue", [.ty (tyName m t)]⟩ [e, .int i]) (boogieTy m t) := by
  rw [← den_ty]
  exact ty_fn hm (extract_decl ht) (by simp [okT]) (okT_ty ht) (tys2 he (.int _))

theorem ty_extractEx (hm : m.Ok) : ∀ (path : List (Nat × LTy)) (s t : LTy) (e : Ex), PathOk s path t → s.Sup →
    HasTy (sig m) Γ e (boogieTy m s) → HasTy (sig m) Γ (extractEx m e path) (boogieTy m t) ∧ t.Sup
  | [], s, t, e, h, hs, he => by cases h; exact ⟨he, hs⟩
  | (i, u) :: rest, s, t, e, ⟨h1, h2, h3⟩, _, he => by
    subst h1
    exact ty_extractEx hm rest u t _ h3 h2 (ty_extract hm h2 he i)

theorem ok_insertOthers (hm : m.Ok) {res old : Ex} (hr : HasTy (sig m) Γ res (boogieTy m .agg))
    (ho : HasTy (sig m) Γ old (boogieTy m .agg)) (idx : Nat) : ∀ (ts : List LTy) (j : Nat), (∀ u ∈ ts, u.Sup) →
    ∀ s ∈ insertOthers m res old idx j ts, StOk (sig m) Γ s
  | [], _, _, s, h => by cases h
  | t :: ts, j, ht, s, h => by
    rw [insertOthers] at h
    rcases List.mem_append.mp h with h | h
    · split at h
      · rw [List.mem_singleton.mp h]
        exact HasTy.eq rfl (ty_extract hm (ht t (.head _)) hr j) (ty_extract hm (ht t (.head _)) ho j)
      · cases h
    · exact ok_insertOthers hm hr ho idx ts (j + 1) (fun u hu => ht u (.tail _ hu)) s h

theorem ok_insertSts (hm : m.Ok) {val : Ex} {t : LTy} (hv : HasTy (sig m) Γ val (boogieTy m t)) :
    ∀ (path : List (Nat × List LTy)) (s : LTy) (res old : Ex), InsOk s path t → HasTy (sig m) Γ res (boogieTy m s) →
      HasTy (sig m) Γ old (boogieTy m s) → ∀ st ∈ insertSts m val res old path, StOk (sig m) Γ st
  | [], s, res, old, h, hr, ho, st, hst => by
    cases h
    rw [insertSts] at hst
    rw [List.mem_singleton.mp hst]
    exact HasTy.eq rfl hr hv
  | (i, us) :: rest, s, res, old, ⟨h1, h2, u, h3, h4⟩, hr, ho, st, hst => by
    subst h1
    rw [insertSts] at hst
    rw [h3, Option.getD_some] at hst
    have hu : u.Sup := h2 u (List.mem_of_getElem? h3)
    rcases List.mem_append.mp hst with h | h
    · exact ok_insertOthers hm hr ho i us 0 h2 st h
    · exact ok_insertSts hm hv rest u _ _ h4 (ty_extract hm hu hr i) (ty_extract hm hu ho i) st h

/-! ### Bit-level intrinsics -/

theorem ty_cat {l r : Ex} {a b c : Nat} (hl : HasTy (sig m) Γ l (.bv a)) (hr : HasTy (sig m) Γ r (.bv b)) (h : a + b = c) :
    HasTy (sig m) Γ (.concat l r) (.bv c) := h ▸ .concat hl hr

theorem ty_slice {e : Ex} {n hi lo c : Nat} (he : HasTy (sig m) Γ e (.bv n)) (h1 : lo ≤ hi) (h2 : hi ≤ n) (h : hi - lo = c) :
    HasTy (sig m) Γ (.extract e hi lo) (.bv c) := h ▸ .extract he h1 h2

theorem ty_revLoop {e : Ex} {w off : Nat} (he : HasTy (sig m) Γ e (.bv w)) : ∀ (n i : Nat) (body : Ex) (k : Nat),
    HasTy (sig m) Γ body (.bv k) → i + n ≤ w / 2 → w / 2 + i + n + off ≤ w → HasTy (sig m) Γ (revLoop e w off i n body) (.bv (k + 2 * n))
  | 0, _, _, _, hb, _, _ => hb
  | n + 1, i, body, k, hb, h1, h2 => by
    rw [revLoop]
    have := ty_revLoop (off := off) he n (i + 1) _ (k + 2) (ty_cat (ty_cat (ty_slice (hi := w / 2 - i) (lo := w / 2 - i - 1) (c := 1) he
      (by omega) (by omega) (by omega)) hb rfl) (ty_slice (hi := w / 2 + i + 1 + off) (lo := w / 2 + i + off) (c := 1) he (by omega)
      (by omega) (by omega)) (c := k + 2) (by omega)) (by omega) (by omega)
    have e : k + 2 + 2 * n = k + 2 * (n + 1) := by omega
    rw [e] at this
    exact this

theorem ty_reverse {e : Ex} {w : Nat} (hw : 0 < w) (he : HasTy (sig m) Γ e (.bv w)) : HasTy (sig m) Γ (reverseEx e w) (.bv w) := by
  unfold reverseEx
  split
  · have := ty_revLoop (off := 0) he (w / 2 - 1) 1 _ 2 (ty_cat (ty_slice (hi := w / 2) (lo := w / 2 - 1) (c := 1) he (by omega)
      (by omega) (by omega)) (ty_slice (hi := w / 2 + 1) (lo := w / 2) (c := 1) he (by omega) (by omega) (by omega)) rfl)
      (by omega) (by omega)
    have e : 2 + 2 * (w / 2 - 1) = w := by omega
    rw [e] at this; exact this
  · have := ty_revLoop (off := 1) he (w / 2) 0 _ 1 (ty_slice (hi := w / 2 + 1) (lo := w / 2) (c := 1) he (by omega) (by omega) (by omega))
      (by omega) (by omega)
    have e : 1 + 2 * (w / 2) = w := by omega
    rw [e] at this; exact this

theorem ty_swapLoop {e : Ex} {w : Nat} (he : HasTy (sig m) Γ e (.bv w)) : ∀ (n i : Nat) (body : Ex) (k : Nat),
    HasTy (sig m) Γ body (.bv k) → 8 * i + 8 * n ≤ w / 2 → HasTy (sig m) Γ (swapLoop e w i n body) (.bv (k + 16 * n))
  | 0, _, _, _, hb, _ => hb
  | n + 1, i, body, k, hb, h1 => by
    rw [swapLoop]
    have := ty_swapLoop he n (i + 1) _ (k + 16) (ty_cat (ty_cat (ty_slice (hi := w / 2 - 8 * i) (lo := w / 2 - 8 * i - 8) (c := 8) he
      (by omega) (by omega) (by omega)) hb rfl) (ty_slice (hi := w / 2 + 8 * i + 8) (lo := w / 2 + 8 * i) (c := 8) he (by omega)
      (by omega) (by omega)) (c := k + 16) (by omega)) (by omega)
    have e : k + 16 + 16 * n = k + 16 * (n + 1) := by omega
    rw [e] at this
    exact this

theorem ty_swap {e : Ex} {w : Nat} (hw : 0 < w) (h16 : w % 16 = 0) (he : HasTy (sig m) Γ e (.bv w)) :
    HasTy (sig m) Γ (swapEx e w) (.bv w) := by
  unfold swapEx
  have := ty_swapLoop he ((w / 2 + 7) / 8 - 1) 1 _ 16 (ty_cat (ty_slice (hi := w / 2) (lo := w / 2 - 8) (c := 8) he (by omega)
      (by omega) (by omega)) (ty_slice (hi := w / 2 + 8) (lo := w / 2) (c := 8) he (by omega) (by omega) (by omega)) rfl)
      (by omega)
  have e : 16 + 16 * ((w / 2 + 7) / 8 - 1) = w := by omega
  rw [e] at this; exact this

theorem ty_ctlz {e : Ex} {w : Nat} (he : HasTy (sig m) Γ e (.bv w)) : ∀ i, i ≤ w → HasTy (sig m) Γ (ctlzLoop e w i) (.bv w)
  | 0, _ => .bv _ _
  | i + 1, h => by
    rw [ctlzLoop]
    exact .ite (.eq rfl (ty_slice (c := 1) he (by omega) (by omega) (by omega)) (.bv _ _)) (.bv _ _) (ty_ctlz he i (by omega))

theorem ty_cttz {e : Ex} {w : Nat} (he : HasTy (sig m) Γ e (.bv w)) : ∀ i, i ≤ w → HasTy (sig m) Γ (cttzLoop e w i) (.bv w)
  | 0, _ => .bv _ _
  | i + 1, h => by
    rw [cttzLoop]
    exact .ite (.eq rfl (ty_slice (c := 1) he (by omega) (by omega) (by omega)) (.bv _ _)) (.bv _ _) (ty_cttz he i (by omega))

theorem ty_zeroUndef {x : String} {e z body : Ex} {w : Nat} (hx : HasTy (sig m) Γ (.var x) (.bv w)) (he : HasTy (sig m) Γ e (.bv w))
    (hz : HasTy (sig m) Γ z (.bv 1)) (hb : HasTy (sig m) Γ body (.bv w)) : HasTy (sig m) Γ (zeroUndef x e z w body) (.bv w) :=
  .ite (.conn rfl (.eq rfl hz (.bv _ _)) (.eq rfl he (.bv _ _))) hx hb

theorem ty_popBv (hm : m.Ok) (hb : m.bp = true) {e : Ex} {w : Nat} (hw : w ∈ sizes) (h1 : 1 < w) (he : HasTy (sig m) Γ e (.bv w)) :
    ∀ i, i ≤ w → HasTy (sig m) Γ (popBv m e w i) (.bv w)
  | 0, _ => .bv _ _
  | i + 1, h => by
    rw [popBv]
    have ext := ty_ext (Γ := Γ) hm false (a := 1) (b := w) (by decide) hw h1 (e := .extract e (i + 1) i)
      (by simp only [intT, hb, if_true, den]; exact ty_slice he (by omega) (by omega) (by omega))
    have := ty_bin (Γ := Γ) hm (f := "$add") (by decide) hw ext
      (b := popBv m e w i) (by simp only [intT, hb, if_true, den]; exact ty_popBv hm hb hw h1 he i (by omega))
    simpa [intT, hb, den] using this

theorem ty_popInt (hm : m.Ok) (hb : m.bp = false) {e : Ex} {w : Nat} (hw : w ∈ sizes) (he : HasTy (sig m) Γ e .int) :
    ∀ i, HasTy (sig m) Γ (popInt m e w i) .int
  | 0 => .int _
  | i + 1 => by
    have hi : den m (intT m w) = .int := by simp [intT, hb, den]
    rw [popInt, ← hi]
    refine ty_bin hm (by decide) hw (ty_bin hm (by decide) hw (ty_bin hm (by decide) hw ?_ ?_) ?_) ?_ <;> rw [hi]
    · exact he
    · exact .int _
    · exact .int _
    · exact ty_popInt hm hb hw he i

/-- A declaration is in the group of its name. -/
theorem group_of_decl {d : Fun} (hd : d ∈ decls m) {k : Nat} {g : List Fun} (hk : (groups m)[k]? = some g) (hg : grp d.sym = k) : d ∈ g := by
  have hn := groups_numbered (m := m)
  obtain ⟨g', hg', hd⟩ := List.mem_flatten.mp hd
  have : ∀ (L : List (List Fun)) (k : Nat), Numbered k L → g' ∈ L → ∃ j, L[j]? = some g' ∧ grp d.sym = k + j := by
    intro L
    induction L with
    | nil => intro k _ h; cases h
    | cons x L ih =>
      intro k hk h
      rcases List.mem_cons.mp h with rfl | h
      · exact ⟨0, rfl, hk.1 d hd⟩
      · obtain ⟨j, h1, h2⟩ := ih (k + 1) hk.2 h
        exact ⟨j + 1, h1, by omega⟩
  obtain ⟨j, h1, h2⟩ := this _ _ hn hg'
  have : j = k := by omega
  subst this
  rw [h1] at hk
  rw [← Option.some.inj hk]; exact hd

theorem conv_of_decl {d : Fun} (hd : d ∈ decls m) (hb : d.sym.base ∈ ["$trunc", "$sext", "$zext"]) : d ∈ convDecls m :=
  group_of_decl hd (k := 5) rfl (grp_conv hb)

/-- There is no extension from a width to itself. -/
theorem zext_same {w : Nat} {e : Ex} {T : Ty} : ¬ HasTy (sig m) Γ (.fn ⟨"$zext", [.ty (.bv w), .ty (intT m w)]⟩ [e]) T ∨ m.bp = false := by
  cases hb : m.bp with
  | false => exact .inr rfl
  | true =>
    refine .inl fun h => ?_
    obtain ⟨d, hd, hs, _, _⟩ := ty_fn_inv h
    have := conv_of_decl hd (by rw [hs]; simp)
    unfold convDecls at this
    have key : ∀ p ∈ pairs sizes, ∀ b : Bool, (convExt m b p).sym = ⟨"$zext", [.ty (.bv w), .ty (.bv w)]⟩ → False := by
      intro p hp b hsym
      obtain ⟨a, c⟩ := p
      have hlt := (pairs_mem (by decide) hp).2.2
      simp [convExt, hb] at hsym
      omega
    rw [List.mem_append, List.mem_append, List.mem_map, List.mem_map, List.mem_map] at this
    simp only [intT, hb, if_true] at hs
    rcases this with (⟨p, hp, rfl⟩ | ⟨p, hp, rfl⟩) | ⟨p, hp, rfl⟩
    · simp [convTrunc, hb] at hs
    · exact key p hp _ hs
    · exact key p hp _ hs

/-! ### Floating-point intrinsics -/

theorem fp_row (s : String) (n : Nat) (b : Bool) (h : (s, n, b) ∈ [("$abs", 1, false), ("$round", 1, true), ("$sqrt", 1, true),
    ("$min", 2, false), ("$max", 2, false), ("$fma", 3, true), ("$fneg", 1, false)]) :
    ∃ o ∈ fpArithTable, o.1 = s ∧ o.2.1 = n ∧ o.2.2.1 = b := by
  simp only [List.mem_cons, List.not_mem_nil, or_false, Prod.mk.injEq] at h
  unfold fpArithTable
  rcases h with ⟨rfl, rfl, rfl⟩ | ⟨rfl, rfl, rfl⟩ | ⟨rfl, rfl, rfl⟩ | ⟨rfl, rfl, rfl⟩ | ⟨rfl, rfl, rfl⟩ | ⟨rfl, rfl, rfl⟩ | ⟨rfl, rfl, rfl⟩
  · exact ⟨("$abs", 1, false, _), by pos, rfl, rfl, rfl⟩
  · exact ⟨("$round", 1, true, _), by pos, rfl, rfl, rfl⟩
  · exact ⟨("$sqrt", 1, true, _), by pos, rfl, rfl, rfl⟩
  · exact ⟨("$min", 2, false, _), by pos, rfl, rfl, rfl⟩
  · exact ⟨("$max", 2, false, _), by pos, rfl, rfl, rfl⟩
  · exact ⟨("$fma", 3, true, _), by pos, rfl, rfl, rfl⟩
  · exact ⟨("$fneg", 1, false, _), by pos, rfl, rfl, rfl⟩

/-- The declaration of a floating-point operation. -/
theorem fp_decl {s : String} {n : Nat} {b : Bool} (h : (s, n, b) ∈ [("$abs", 1, false), ("$round", 1, true), ("$sqrt", 1, true),
    ("$min", 2, false), ("$max", 2, false), ("$fma", 3, true), ("$fneg", 1, false)]) (k : FK) :
    Declares m ⟨s, [.ty (tyName m (.fp k))]⟩ (rmT m b ++ (vars "f" n (fpT m k)).map (·.2)) (fpT m k) := by
  obtain ⟨o, ho, rfl, rfl, rfl⟩ := fp_row s n b h
  rw [tyName_fp]
  exact fpArith_decl ho k

theorem ty_fpUn (hm : m.Ok) {s : String} (hs : s ∈ ["$abs", "$fneg"]) (k : FK) {e : Ex} (he : HasTy (sig m) Γ e (boogieTy m (.fp k))) :
    HasTy (sig m) Γ (.fn ⟨s, [.ty (tyName m (.fp k))]⟩ [e]) (boogieTy m (.fp k)) := by
  have hd := fp_decl (m := m) (s := s) (n := 1) (b := false) (by simp at hs ⊢; rcases hs with rfl | rfl <;> simp) k
  rw [rmT, Bool.and_false, if_neg (by decide), vars1] at hd
  rw [boogie_fp] at he ⊢
  exact ty_fn hm hd (by simp [okT_fpT]) (okT_fpT k) (tys1 he)

theorem ty_fpMinMax (hm : m.Ok) (b : Bool) (k : FK) {l r : Ex} (hl : HasTy (sig m) Γ l (boogieTy m (.fp k)))
    (hr : HasTy (sig m) Γ r (boogieTy m (.fp k))) :
    HasTy (sig m) Γ (.fn ⟨if b then "$max" else "$min", [.ty (tyName m (.fp k))]⟩ [l, r]) (boogieTy m (.fp k)) := by
  obtain ⟨o, ho, h1, h2, h3⟩ := fp_row (if b then "$max" else "$min") 2 false (by cases b <;> decide)
  rw [← h1]
  exact ty_fpBin hm ho h2 k (.inl h3) hl hr

theorem ty_round (hm : m.Ok) (hf : m.flt = true) (k : FK) {ro e : Ex} (hr : HasTy (sig m) Γ ro .rmode)
    (he : HasTy (sig m) Γ e (boogieTy m (.fp k))) :
    HasTy (sig m) Γ (.fn ⟨"$round", [.ty (tyName m (.fp k))]⟩ [ro, e]) (boogieTy m (.fp k)) := by
  have hd := fp_decl (m := m) (s := "$round") (n := 1) (b := true) (by decide) k
  rw [rmT, hf, Bool.and_true, if_pos rfl, vars1] at hd
  rw [boogie_fp] at he ⊢
  exact ty_fn hm hd (by simp [okT_fpT, okT]) (okT_fpT k) (tys2 (B := den m (fpT m k)) hr he)

theorem sqrt_bad (hf : m.flt = true) (k : FK) {e : Ex} {T : Ty} :
    ¬ HasTy (sig m) Γ (.fn ⟨"$sqrt", [.ty (tyName m (.fp k))]⟩ [e]) T := by
  intro h
  have hd := fp_decl (m := m) (s := "$sqrt") (n := 1) (b := true) (by decide) k
  have := tys_length (args_of_decl hd h).1
  simp [rmT, hf, vars1] at this

theorem fma_bad (hf : m.flt = true) (k : FK) {a b c : Ex} {T : Ty} :
    ¬ HasTy (sig m) Γ (.fn ⟨"$fma", [.ty (tyName m (.fp k))]⟩ [a, b, c]) T := by
  intro h
  have hd := fp_decl (m := m) (s := "$fma") (n := 3) (b := true) (by decide) k
  have := tys_length (args_of_decl hd h).1
  simp [rmT, hf, vars3f] at this

end Smack.Emit
