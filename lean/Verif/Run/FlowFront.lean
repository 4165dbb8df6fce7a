/-
Contents of the files: the front end.
-/
import Verif.Run.FlowLink

namespace Smack.Run
open Smack.Driver

theorem sees_inps (fs : Files) (f : Path) (ps : List Path) : (ps.map Word.inp).map (sees fs f) = (ps.map fs).map .content := by
  rw [List.map_map, List.map_map]
  rfl

theorem out_inps (p : Path) (ps : List Path) : Word.out p ∉ ps.map .inp := fun h => by
  obtain ⟨_, _, e⟩ := List.mem_map.1 h
  cases e

theorem libraries_split (a : Args) : (libraries a).filter (fun l => l.1 = "clang-12") ++ (libraries a).filter (fun l => l.1 ≠ "clang-12") = libraries a := by
  unfold libraries
  cases a.pthread <;> cases a.strings <;> cases a.float <;> cases a.inputs.any fun i => langOf a i = some .cxx <;> rfl

theorem extra_langs (l : List Lang) (h : ∀ x ∈ l, hasExtra x = true → x = .cxx) :
    l.eraseDups.filter hasExtra = if l.any fun x => x = .cxx then [.cxx] else [] := by
  suffices ∀ n, ∀ l : List Lang, l.length ≤ n → (∀ x ∈ l, hasExtra x = true → x = .cxx) → l.eraseDups.filter hasExtra = if l.any fun x => x = .cxx then [.cxx] else [] from
    this _ l (Nat.le_refl _) h
  intro n
  induction n with
  | zero => intro l hl _; cases l with
    | nil => rfl
    | cons => cases hl
  | succ n ih =>
    intro l hl h
    cases l with
    | nil => rfl
    | cons x l =>
      have hlen : (l.filter fun b => !b == x).length ≤ n := Nat.le_trans (List.length_filter_le _ _) (Nat.le_of_succ_le_succ hl)
      have := ih (l.filter fun b => !b == x) hlen fun y hy => h y (List.mem_cons_of_mem _ (List.mem_filter.1 hy).1)
      rw [List.eraseDups_cons, List.filter_cons, this]
      by_cases hx : x = .cxx
      · subst hx
        have h0 : ((l.filter fun b => !b == Lang.cxx).any fun x => x = .cxx) = false := by
          rw [List.any_eq_false]
          intro y hy
          have := (List.mem_filter.1 hy).2
          cases y <;> simp_all
        rw [h0]
        simp [hasExtra]
      · have he : hasExtra x = false := by
          cases e : hasExtra x
          · rfl
          · exact absurd (h x List.mem_cons_self e) hx
        have h0 : ((l.filter fun b => !b == x).any fun x => x = .cxx) = (x :: l).any fun x => x = .cxx := by
          rw [Bool.eq_iff_iff, List.any_eq_true, List.any_eq_true]
          constructor
          · rintro ⟨y, hy, e⟩
            exact ⟨y, List.mem_cons_of_mem _ (List.mem_filter.1 hy).1, e⟩
          · rintro ⟨y, hy, e⟩
            have e' : y = .cxx := by simpa using e
            rcases List.mem_cons.1 hy with hy | hy
            · exact absurd (hy ▸ e') hx
            · refine ⟨y, List.mem_filter.2 ⟨hy, ?_⟩, e⟩
              subst e'
              cases x <;> first | rfl | exact absurd rfl hx
        rw [h0, he]
        rfl

/-- Languages of which `boogieText` speaks. -/
def Plain (a : Args) (i : Path) : Prop := langOf a i = some .c ∨ langOf a i = some .cxx ∨ langOf a i = some .llvm

section
variable {w : World} {tool : List Sees → Text} {R : List Path} (X : Ctx w tool R)
include X

/-- The linker. -/
theorem ld_sure (s : St) (o : Path) (more ins : List Path) :
    Sure (command w ([llvmBin "llvm-link", L "-o", .out o] ++ more.map .inp ++ ins.map .inp) s)
      (fun _ s' => s'.args = s.args ∧ s'.temps = s.temps ∧ (∀ f, f ≠ o → s'.files f = s.files f) ∧
        s'.files o = some (tool ([.lit "llvm-link-12".toList, .lit "-o".toList, .this] ++ (more.map s.files).map .content ++ (ins.map s.files).map .content))) := by
  refine post_weaken (command_sure X.pure X.quiet _ s) fun _ s1 h1 => ?_
  have hfiles : s1.files = (w.run ([llvmBin "llvm-link", L "-o", .out o] ++ more.map .inp ++ ins.map .inp) s.files).2 := by rw [h1]
  refine ⟨by rw [h1], by rw [h1], fun f hf => ?_, ?_⟩
  · rw [hfiles, X.pure.files, if_neg]
    intro h
    rcases List.mem_append.1 h with h | h
    · rcases List.mem_append.1 h with h | h
      · simp only [List.mem_cons, List.not_mem_nil, or_false] at h
        rcases h with h | h | h
        · cases h
        · cases h
        · cases h; exact hf rfl
      · exact out_inps _ _ h
    · exact out_inps _ _ h
  · rw [hfiles, X.pure.files, if_pos (by simp), List.map_append, List.map_append, sees_inps, sees_inps]
    have : [llvmBin "llvm-link", L "-o", Word.out o].map (sees s.files o) = [.lit "llvm-link-12".toList, .lit "-o".toList, .this] := by
      show [sees s.files o (llvmBin "llvm-link"), sees s.files o (L "-o"), sees s.files o (.out o)] = _
      have h2 : sees s.files o (.out o) = .this := if_pos rfl
      rw [h2]
      rfl
    rw [this]

theorem front1_sure (fs : Files) (a : Args) (i : Path) (hi : fs i ≠ none) (hl : Plain a i) (s : St) (hf : Finite s.files)
    (hold : ∀ f, fs f ≠ none → s.files f = fs f) (ha : s.args = a) :
    Sure (frontend1 w a i s) (fun r s' => Adds R s s' ∧ langOf a i = some r.1 ∧ ∃ p, r.2 = some p ∧ s'.files p = object w tool a fs i ∧ s'.files p ≠ none) := by
  obtain ⟨src, hsrc⟩ := Option.ne_none_iff_exists'.1 hi
  have hs : s.files i = some src := by rw [hold i hi, hsrc]
  subst ha
  unfold frontend1 object
  rcases hl with e | e | e
  · rw [e]
    refine post_bind (post_bind (m := get) (post_bind (post_weaken (clang_sure X "clang" s.args false i src s hf hs) fun f s1 ⟨h1, h2, h3⟩ => ?_)))
    exact ⟨h1, rfl, f, rfl, by rw [h3, hsrc]; rfl, by rw [h3]; simp⟩
  · rw [e]
    refine post_bind (post_bind (m := get) (post_bind (post_weaken (clang_sure X "clang++" s.args false i src s hf hs) fun f s1 ⟨h1, h2, h3⟩ => ?_)))
    exact ⟨h1, rfl, f, rfl, by rw [h3, hsrc]; rfl, by rw [h3]; simp⟩
  · rw [e]
    exact ⟨Adds.refl R s, rfl, i, rfl, hold i hi, by rw [hs]; simp⟩

theorem fronts_sure (fs : Files) (a : Args) (l : List Path) (hl : ∀ i ∈ l, fs i ≠ none ∧ Plain a i) (s : St) (hf : Finite s.files)
    (hold : ∀ f, fs f ≠ none → s.files f = fs f) (ha : s.args = a) :
    Sure (forEach (frontend1 w a) l s) (fun r s' => Adds R s s' ∧ l.map (langOf a) = r.map (fun x => some x.1) ∧
      (r.filterMap Prod.snd).map s'.files = l.map (object w tool a fs) ∧ ∀ p ∈ r.filterMap Prod.snd, s'.files p ≠ none) := by
  induction l generalizing s with
  | nil => exact ⟨Adds.refl R s, rfl, rfl, fun _ h => (nomatch h)⟩
  | cons i l ih =>
    obtain ⟨hi, hp⟩ := hl i List.mem_cons_self
    refine post_bind (post_weaken (front1_sure X fs a i hi hp s hf hold ha) fun r s1 ⟨h1, h2, p, h3, h4, h5⟩ => ?_)
    refine post_bind (post_weaken (ih (fun j hj => hl j (List.mem_cons_of_mem _ hj)) s1 (h1.finite hf)
      (fun f hne => (h1.old f (by rw [hold f hne]; exact hne)).trans (hold f hne)) (h1.args.trans ha)) fun rs s2 ⟨k1, k2, k3, k4⟩ => ?_)
    have e : (r :: rs).filterMap Prod.snd = p :: rs.filterMap Prod.snd := by rw [List.filterMap_cons, h3]
    refine ⟨h1.trans k1, by rw [List.map_cons, List.map_cons, k2, h2], ?_, ?_⟩
    · rw [e, List.map_cons, List.map_cons, k3, k1.old p h5, h4]
    · rw [e]
      intro q hq
      rcases List.mem_cons.1 hq with e | hq
      · rw [e, k1.old p h5]; exact h5
      · exact k4 q hq

theorem link_sure (s : St) (hf : Finite s.files) (fs : Files) (hold : ∀ f, fs f ≠ none → s.files f = fs f)
    (hl : ∀ l ∈ libraries s.args, fs (w.lib l.2) ≠ none) (bitcodes : List Path) (libs : List Lang)
    (hc : libs = if s.args.inputs.any fun i => langOf s.args i = some .cxx then [.cxx] else [])
    (hbit : ∀ p ∈ bitcodes, s.files p ≠ none) (b : Path) (hb : s.args.bpl = some b) (hR : b ∈ R) (hreg : ¬Reg s b)
    (hbc : s.args.bcFile ∈ R ∨ s.files s.args.bcFile ≠ none) (hll : s.args.ll ≠ some b) (t' : Text)
    (ht : ∀ x, x = (selection s.args.check (readlines (w.header ++ Options.annotateBpl (annOpts s.args)
        (tool ([.lit "llvm2bpl".toList, .content (some (tool ([.lit "llvm-link-12".toList, .lit "-o".toList, .this, .content (some
            (tool ([.lit "llvm-link-12".toList, .lit "-o".toList, .this] ++ bitcodes.map fun p => .content (some (externed tool s.args (s.files p))))))] ++
            (libraries s.args).map fun l => .content (some (compiled w tool s.args l.1 true (fs (w.lib l.2))))))),
          .lit "-bpl".toList, .this] ++ ((llvm2bpl w s.args).drop 4).map (sees (fun _ => none) b)))))).flatten →
      (s.args.transformBpl = none ∧ t' = x) ∨ ∃ c, s.args.transformBpl = some c ∧ w.filter c x = some t') :
    Sure (linkBcFiles w bitcodes libs s) (fun _ s' => s'.args = s.args ∧ ¬Reg s' b ∧ s'.files b = some t') := by
  unfold linkBcFiles
  refine post_bind (post_weaken (defaults_sure X s hf fs hold hl) fun smack s1 ⟨a1, n1, m1⟩ => ?_)
  have hold1 : ∀ f, fs f ≠ none → s1.files f = fs f := fun f hne => (a1.old f (by rw [hold f hne]; exact hne)).trans (hold f hne)
  refine post_bind (post_weaken (extras_sure X s1 (a1.finite hf) fs hold1 (by rw [a1.args]; exact hl) libs (by rw [a1.args]; exact hc)) fun extra s2 ⟨a2, n2, m2⟩ => ?_)
  have a02 := a1.trans a2
  refine post_bind (post_weaken (extern_sure X bitcodes s2 (a02.finite hf) fun p hp => by rw [a02.old p (hbit p hp)]; exact hbit p hp) fun bcs s3 ⟨a3, n3, m3⟩ => ?_)
  have a03 := a02.trans a3
  refine post_bind (m := get) ?_
  change Sure ((command w ([llvmBin "llvm-link", L "-o", .out s3.args.bcFile] ++ bcs.map .inp) >>= _ : M Unit) s3) _
  rw [a03.args]
  have hlibs : ∀ p ∈ smack ++ extra.flatten, p ≠ s.args.bcFile := by
    intro p hp e
    have hn : New R s p := by
      rcases List.mem_append.1 hp with h | h
      · exact n1 p h
      · exact (n2 p h).mono a1.toGrow
    rcases hbc with h | h
    · exact hn.2 (e ▸ h)
    · exact h (e ▸ hn.1)
  have hcont : (smack ++ extra.flatten).map s3.files = (libraries s.args).map fun l => some (compiled w tool s.args l.1 true (fs (w.lib l.2))) := by
    have e1 : smack.map s3.files = smack.map s1.files := List.map_congr_left fun p hp => by
      refine (a2.trans a3).old p fun e => ?_
      have := List.mem_map_of_mem (f := s1.files) hp
      rw [m1, e] at this
      obtain ⟨_, _, h⟩ := List.mem_map.1 this
      cases h
    have e2 : extra.flatten.map s3.files = extra.flatten.map s2.files := List.map_congr_left fun p hp => by
      refine a3.old p fun e => ?_
      have := List.mem_map_of_mem (f := s2.files) hp
      rw [m2, e] at this
      obtain ⟨_, _, h⟩ := List.mem_map.1 this
      cases h
    rw [List.map_append, e1, e2, m1, m2, a1.args, ← List.map_append, libraries_split]
  have hbcs : bcs.map s3.files = bitcodes.map fun p => some (externed tool s.args (s.files p)) := by
    rw [m3, a02.args]
    exact List.map_congr_left fun p hp => by rw [a02.old p (hbit p hp)]
  have := ld_sure X s3 s.args.bcFile [] bcs
  rw [List.map_nil, List.append_nil, List.map_nil, List.map_nil, List.append_nil] at this
  refine post_bind (post_weaken this fun _ s4 ⟨b1, b2, b3, b4⟩ => ?_)
  have := ld_sure X s4 s.args.linkedFile [s.args.bcFile] (smack ++ extra.flatten)
  refine post_bind (post_weaken this fun _ s5 ⟨c1, c2, _, c4⟩ => ?_)
  have hargs : s5.args = s.args := c1.trans (b1.trans a03.args)
  have htemps : s5.temps = s3.temps := c2.trans b2
  have hreg5 : ¬Reg s5 b := fun ⟨d, hd, hbel⟩ => a03.reg b hR hreg ⟨d, htemps ▸ hd, hbel⟩
  have hcont4 : (smack ++ extra.flatten).map s4.files = (libraries s.args).map fun l => some (compiled w tool s.args l.1 true (fs (w.lib l.2))) := by
    rw [← hcont]
    exact List.map_congr_left fun p hp => b3 p (hlibs p hp)
  rw [hbcs, List.map_map] at b4
  rw [hcont4] at c4
  simp only [List.map_cons, List.map_nil, b4, List.map_map] at c4
  refine post_weaken (translate_sure X s5 b _ (by rw [hargs]; exact hb) (by rw [hargs]; exact c4) (by rw [hargs]; exact hll) t' (by
    rw [hargs]
    exact ht)) fun _ s6 ⟨d1, d2, d3⟩ => ⟨d1.trans hargs, fun ⟨d, hd, hbel⟩ => hreg5 ⟨d, d2 ▸ hd, hbel⟩, d3⟩

theorem frontend_sure (s : St) (hf : Finite s.files) (fs : Files) (hold : ∀ f, fs f ≠ none → s.files f = fs f)
    (hin : ∀ i ∈ s.args.inputs, fs i ≠ none ∧ Plain s.args i) (hl : ∀ l ∈ libraries s.args, fs (w.lib l.2) ≠ none)
    (b : Path) (hb : s.args.bpl = some b) (hR : b ∈ R) (hreg : ¬Reg s b)
    (hbc : s.args.bcFile ∈ R ∨ s.files s.args.bcFile ≠ none) (hll : s.args.ll ≠ some b) (t' : Text)
    (ht : (s.args.transformBpl = none ∧ t' = boogieText w tool s.args fs b) ∨ ∃ c, s.args.transformBpl = some c ∧ w.filter c (boogieText w tool s.args fs b) = some t') :
    Sure (frontend w s) (fun _ s' => s'.args = s.args ∧ ¬Reg s' b ∧ s'.files b = some t') := by
  unfold frontend
  refine post_bind (m := get) ?_
  refine post_bind (post_weaken (fronts_sure X fs s.args s.args.inputs hin s hf hold rfl) fun r s1 ⟨h1, h2, h3, h4⟩ => ?_)
  have hmem : ∀ x ∈ r.map Prod.fst, x = .c ∨ x = .cxx ∨ x = .llvm := by
    intro x hx
    obtain ⟨y, hy, e⟩ := List.mem_map.1 hx
    have : some y.1 ∈ s.args.inputs.map (langOf s.args) := by rw [h2]; exact List.mem_map_of_mem (f := fun x : Lang × Option Path => some x.1) hy
    obtain ⟨i, hi, e'⟩ := List.mem_map.1 this
    rw [e] at e'
    rcases (hin i hi).2 with h | h | h <;> rw [h] at e' <;> cases e' <;> simp
  have hno : (r.map Prod.fst).any noreturning = false := by
    rw [List.any_eq_false]
    intro x hx
    rcases hmem x hx with e | e | e <;> rw [e] <;> decide
  have hcxx : ((r.map Prod.fst).any fun x => x = .cxx) = s.args.inputs.any fun i => langOf s.args i = some .cxx := by
    have e1 : (s.args.inputs.map (langOf s.args)).any (fun x => x = some .cxx) = s.args.inputs.any fun i => langOf s.args i = some .cxx := List.any_map
    have e2 : (r.map fun x => some x.1).any (fun x => x = some .cxx) = (r.map Prod.fst).any fun x => x = .cxx := by
      rw [List.any_map, List.any_map]
      congr 1
      funext x
      simp
    rw [← e2, ← h2, e1]
  have hex := extra_langs (r.map Prod.fst) fun x hx he => by
    rcases hmem x hx with e | e | e <;> rw [e] at he ⊢ <;> cases he
  rw [hcxx] at hex
  have := link_sure X s1 (h1.finite hf) fs (fun f hne => (h1.old f (by rw [hold f hne]; exact hne)).trans (hold f hne)) (by rw [h1.args]; exact hl)
    (r.filterMap Prod.snd) ((r.map Prod.fst).eraseDups.filter hasExtra) (by rw [h1.args]; exact hex) h4 b (by rw [h1.args]; exact hb) hR (h1.reg b hR hreg)
    (by rw [h1.args]; exact hbc.imp_right fun h => by rw [h1.old _ h]; exact h) (by rw [h1.args]; exact hll) t' (by
      rw [h1.args]
      intro x hx
      have e : (r.filterMap Prod.snd).map (fun p => Sees.content (some (externed tool s.args (s1.files p)))) =
          s.args.inputs.map fun i => .content (some (externed tool s.args (object w tool s.args fs i))) := by
        have : (r.filterMap Prod.snd).map (fun p => Sees.content (some (externed tool s.args (s1.files p)))) =
            ((r.filterMap Prod.snd).map s1.files).map fun t => .content (some (externed tool s.args t)) := by rw [List.map_map]; rfl
        rw [this, h3, List.map_map]
        rfl
      rw [e] at hx
      have hx' : x = boogieText w tool s.args fs b := hx
      rw [hx']
      exact ht)
  show Sure ((if (r.map Prod.fst).any noreturning = true then pure () else linkBcFiles w (r.filterMap Prod.snd) ((r.map Prod.fst).eraseDups.filter hasExtra) : M Unit) s1) _
  rw [hno]
  refine post_weaken this fun _ s2 ⟨k1, k2, k3⟩ => ⟨k1.trans h1.args, k2, k3⟩

end

end Smack.Run
