import Verif.Cargo.Spec
/-!
# C101: the bitcode of a Cargo project
-/
namespace Smack.Cargo

open Spec

theorem no_dash (s : Str) : '-' ∉ underscores s := by
  unfold underscores
  intro h
  obtain ⟨c, _, e⟩ := List.mem_map.mp h
  split at e
  · exact absurd e (by decide)
  · rename_i hc; exact hc e

/-- Two names without dashes before a dash. -/
theorem prefix_dash (t c r : Str) (ht : '-' ∉ t) (hc : '-' ∉ c) : (t ++ ['-']) <+: (c ++ '-' :: r) ↔ t = c := by
  constructor
  · rintro ⟨s, h⟩
    induction t generalizing c with
    | nil =>
      cases c with
      | nil => rfl
      | cons x c =>
        simp only [List.nil_append, List.cons_append, List.cons.injEq] at h
        exact absurd (by rw [h.1]; exact List.mem_cons_self ..) hc
    | cons y t ih =>
      cases c with
      | nil =>
        simp only [List.nil_append, List.cons_append, List.cons.injEq] at h
        exact absurd (by rw [h.1]; exact List.mem_cons_self ..) ht
      | cons x c =>
        simp only [List.cons_append, List.cons.injEq] at h
        rw [h.1, ih c (fun m => ht (List.mem_cons_of_mem _ m)) (fun m => hc (List.mem_cons_of_mem _ m)) (by simpa using h.2)]
  · rintro rfl
    exact ⟨r, by simp⟩

theorem suffix_dot (x e b : Str) (he : '.' ∉ e) (hb : '.' ∉ b) : ('.' :: b) <:+ (x ++ '.' :: e) ↔ e = b := by
  constructor
  · rintro ⟨s, h⟩
    have h1 : e = ((x ++ '.' :: e).reverse.takeWhile (· ≠ '.')).reverse := by
      rw [List.reverse_append, List.reverse_cons, List.append_assoc, List.takeWhile_append_of_pos (by intro c hc; simp only [List.mem_reverse] at hc; simp only [ne_eq, decide_eq_true_eq]; rintro rfl; exact he hc)]
      simp
    have h2 : b = ((s ++ '.' :: b).reverse.takeWhile (· ≠ '.')).reverse := by
      rw [List.reverse_append, List.reverse_cons, List.append_assoc, List.takeWhile_append_of_pos (by intro c hc; simp only [List.mem_reverse] at hc; simp only [ne_eq, decide_eq_true_eq]; rintro rfl; exact hb hc)]
      simp
    rw [h1, ← h, ← h2]
  · rintro rfl
    exact ⟨x, rfl⟩

theorem isBitcode_iff (t : Str) (ht : '-' ∉ t) (a : Artifact) (ha : a.Ok) : isBitcode t a.file = true ↔ a.crate = t ∧ a.ext = ['b', 'c'] := by
  unfold isBitcode
  rw [Bool.and_eq_true, List.isPrefixOf_iff_prefix, List.isSuffixOf_iff_suffix]
  have h1 : a.file = a.crate ++ '-' :: (a.hash ++ '.' :: a.ext) := rfl
  have h2 : a.file = (a.crate ++ '-' :: a.hash) ++ '.' :: a.ext := by rw [h1]; simp
  have e1 := prefix_dash t a.crate (a.hash ++ '.' :: a.ext) ht ha.1
  have e2 := suffix_dot (a.crate ++ '-' :: a.hash) a.ext ['b', 'c'] ha.2 (by decide)
  rw [← h1] at e1
  rw [← h2] at e2
  rw [e1, e2]
  exact ⟨fun h => ⟨h.1.symm, h.2⟩, fun h => ⟨h.1.symm, h.2⟩⟩

/-- The target is the crate of the library if it has a name of its own, and that of the package otherwise. -/
theorem c101_target (c : Config) (p : Str) (hp : c.package = some p) :
    ∃ t, findTarget c = some t ∧ CrateOf (match c.lib with | some (some l) => l | _ => p) t := by
  have h : ∀ s : Str, CrateOf s (underscores s) := by
    intro s
    refine ⟨by simp [underscores], fun n h h' => ?_⟩
    simp only [underscores, List.getElem_map]
    exact ⟨fun e => if_pos e, fun e => if_neg e⟩
  unfold findTarget
  rw [hp]
  cases c.lib with
  | none => exact ⟨_, rfl, h p⟩
  | some l => cases l with
    | none => exact ⟨_, rfl, h p⟩
    | some l => exact ⟨_, rfl, h l⟩

example : findTarget ⟨some "my-crate".toList, none⟩ = some "my_crate".toList ∧ findTarget ⟨some "my-crate".toList, some (some "a".toList)⟩ = some "a".toList := by decide

theorem target_dash {c : Config} {t : Str} (h : findTarget c = some t) : '-' ∉ t := by
  unfold findTarget at h
  split at h
  · cases h
  · split at h
    · cases h; exact no_dash _
    · cases h; exact no_dash _

/-- Those and only those files are taken that are bitcode of the target, each once and in the order of the directory: no other crate,
also not one whose name begins with that of the target. -/
theorem c101_selected (c : Config) (t : Str) (h : findTarget c = some t) (base : Str) (as : List Artifact) (ha : ∀ a ∈ as, a.Ok) :
    bitcodes base t (as.map Artifact.file) = (as.filter fun a => a.crate = t ∧ a.ext = "bc".toList).map fun a => base ++ a.file := by
  induction as with
  | nil => rfl
  | cons a as ih =>
    have ih := ih fun a h => ha a (List.mem_cons_of_mem _ h)
    have hi := isBitcode_iff t (target_dash h) a (ha a (by simp))
    rw [List.map_cons, bitcodes, ih]
    by_cases hc : a.crate = t ∧ a.ext = ['b', 'c']
    · rw [if_pos (hi.mpr hc), List.filter_cons_of_pos (by simpa using hc)]
      rfl
    · rw [if_neg (fun h => hc (hi.mp h)), List.filter_cons_of_neg (by simpa using hc)]

/-- A crate, one with a longer name, and a file that is not bitcode. -/
def sample : List Artifact := [⟨"a".toList, "12ab".toList, "bc".toList⟩, ⟨"a_b".toList, "34cd".toList, "bc".toList⟩, ⟨"a".toList, "12ab".toList, "d".toList⟩]

example : (∀ a ∈ sample, a.Ok) ∧ bitcodes [] "a".toList (sample.map Artifact.file) = ["a-12ab.bc".toList] := by
  refine ⟨?_, by decide⟩
  intro a h
  simp only [sample, List.mem_cons, List.not_mem_nil, or_false] at h
  rcases h with rfl | rfl | rfl <;> exact ⟨by decide, by decide⟩

theorem joinBlank_words (ws : List Str) (hn : ws ≠ []) (h : ∀ w ∈ ws, w ≠ [] ∧ ' ' ∉ w) : WordsOf (joinBlank ws) ws := by
  induction ws with
  | nil => exact absurd rfl hn
  | cons w ws ih =>
    cases ws with
    | nil => exact .last w (h w (by simp))
    | cons v ws =>
      have := WordsOf.more w _ _ (h w (by simp)) (ih (by simp) fun x hx => h x (List.mem_cons_of_mem _ hx))
      simpa [joinBlank] using this

/-- The project is built into the new directory with the flags for Rust programs, and the bitcode of the target in this directory is
linked into the file of the result. -/
theorem c101_commands (version linker input dir bc : Str) (c : Config) (t : Str) (h : findTarget c = some t) (listdir : Str → List Str)
    (as : List Artifact) (ha : ∀ a ∈ as, a.Ok) (hl : listdir (dir ++ "/debug/deps/".toList) = as.map Artifact.file) :
    ∃ f, commands version linker input dir bc c listdir =
      some [⟨["cargo".toList, "+".toList ++ version, "build".toList, "--target-dir".toList, dir, "--manifest-path".toList, input], some f⟩,
        ⟨linker :: ((as.filter fun a => a.crate = t ∧ a.ext = "bc".toList).map fun a => dir ++ "/debug/deps/".toList ++ a.file) ++ ["-o".toList, bc], none⟩] ∧
      WordsOf f ["-A".toList, "unused-imports".toList, "-C".toList, "opt-level=0".toList, "-C".toList, "no-prepopulate-passes".toList, "-g".toList, "--cfg".toList,
        "verifier=\"smack\"".toList, "-C".toList, "passes=name-anon-globals".toList, "--emit=llvm-bc".toList, "-Clto".toList, "-Cembed-bitcode=yes".toList] := by
  refine ⟨rustFlags, ?_, joinBlank_words (rustArgs ++ ["--emit=llvm-bc".toList, "-Clto".toList, "-Cembed-bitcode=yes".toList]) (by decide) (by decide)⟩
  unfold commands
  rw [h]
  dsimp only
  rw [hl, c101_selected c t h _ as ha]
  rfl

/-- If the library has a name of its own, the program of the package is not linked, although it is built. -/
theorem c101_binary_fails (c : Config) (p l : Str) (hp : c.package = some p) (hl : c.lib = some (some l)) (hne : underscores p ≠ underscores l) (base : Str)
    (as : List Artifact) (ha : ∀ a ∈ as, a.Ok) (hash : Str) (_hb : ⟨underscores p, hash, "bc".toList⟩ ∈ as) :
    ∃ t, findTarget c = some t ∧ ∀ a ∈ as, a.crate = underscores p → base ++ a.file ∉ bitcodes base t (as.map Artifact.file) := by
  have ht : findTarget c = some (underscores l) := by unfold findTarget; rw [hp, hl]
  refine ⟨_, ht, fun a hm e h => ?_⟩
  rw [c101_selected c _ ht base as ha] at h
  obtain ⟨b, hb, e'⟩ := List.mem_map.mp h
  have hb' := (List.mem_filter.mp hb)
  have hc : b.crate = underscores l := by
    have := hb'.2
    simp only [decide_eq_true_eq] at this
    exact this.1
  have hf : b.file = a.file := List.append_cancel_left e'
  have hpre : (b.crate ++ ['-']) <+: a.file := by rw [← hf]; exact ⟨b.hash ++ '.' :: b.ext, by simp [Artifact.file]⟩
  have := (prefix_dash b.crate a.crate (a.hash ++ '.' :: a.ext) (ha b hb'.1).1 (ha a hm).1).mp hpre
  exact hne (by rw [← e, ← this, hc])

example : underscores "my-tool".toList ≠ underscores "mylib".toList := by decide

/-- The front end stops exactly at manifests without a package, such as those of workspaces. -/
theorem c101_stops (version linker input dir bc : Str) (c : Config) (listdir : Str → List Str) :
    commands version linker input dir bc c listdir = none ↔ c.package = none := by
  unfold commands findTarget
  cases c.package with
  | none => simp
  | some p => cases c.lib with
    | none => simp
    | some l => cases l <;> simp

end Smack.Cargo
