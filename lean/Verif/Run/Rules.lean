/-
Rules for reasoning about runs, and the walk through the front ends that the properties share.
-/
import Verif.Run.Model

namespace Smack.Run
open Smack.Driver

/-- What holds after a step: `Q` if it goes on, `E` if the run ends here. -/
def Post {α : Type} (r : Res α) (Q : α → St → Prop) (E : Stop → St → Prop) : Prop :=
  match r with
  | .ok a s => Q a s
  | .stop e s => E e s

theorem post_bind {α β : Type} {m : M α} {f : α → M β} {s : St} {Q : β → St → Prop} {E : Stop → St → Prop}
    (h : Post (m s) (fun a s' => Post (f a s') Q E) E) : Post ((m >>= f) s) Q E := by
  change Post (M.bind m f s) Q E
  unfold M.bind
  cases hm : m s with
  | ok a s' => rw [hm] at h; exact h
  | stop e s' => rw [hm] at h; exact h

theorem post_weaken {α : Type} {r : Res α} {Q Q' : α → St → Prop} {E : Stop → St → Prop}
    (h : Post r Q E) (hq : ∀ a s, Q a s → Q' a s) : Post r Q' E := by
  cases r with
  | ok a s => exact hq a s h
  | stop e s => exact h

/-- The options that the front ends leave alone. -/
structure Same (a b : Args) : Prop where
  inputs : b.inputs = a.inputs
  language : b.language = a.language
  quiet : b.quiet = a.quiet
  debug : b.debug = a.debug
  noVerify : b.noVerify = a.noVerify
  errorFile : b.errorFile = a.errorFile
  jsonFile : b.jsonFile = a.jsonFile
  bc : b.bc = a.bc
  linked : b.linked = a.linked
  ll : b.ll = a.ll
  bpl : b.bpl = a.bpl
  verifier : b.verifier = a.verifier
  unroll : b.unroll = a.unroll
  timeLimit : b.timeLimit = a.timeLimit
  modular : b.modular = a.modular
  transformBpl : b.transformBpl = a.transformBpl
  transformOut : b.transformOut = a.transformOut

/-- The command may write the file. -/
def writes (c : List Word) (p : Path) : Prop := Word.out p ∈ c ∨ Word.upd p ∈ c ∨ Word.also p ∈ c

/-- `I` holds in every state of a run, `E` where it ends early; `A` are the files that may be written. -/
structure Closed (w : World) (I : St → Prop) (E : Stop → St → Prop) (A : St → Path → Prop) : Prop where
  temp : ∀ pre ext s, I s → Post (temporary w pre ext s) (fun f s' => I s' ∧ A s' f) E
  cmd : ∀ c s, I s → (∀ p, writes c p → A s p) →
    Post (tryCommand w c 0 s) (fun _ s' => I s' ∧ (∀ p, A s p → A s' p)) E
  args : ∀ s a, I s → Same s.args a → I { s with args := a }
  write : ∀ s p t, I s → A s p → I { s with files := s.files.set p (some t) }
  raise : ∀ s, I s → E .raised s
  exit1 : ∀ s, I s → E (.exit 1) s
  own : ∀ s, I s → A s s.args.bcFile ∧ A s s.args.linkedFile ∧ A s s.args.bplFile ∧ ∀ f, s.args.ll = some f → A s f

/-- The exit for a competition property that is not known. -/
def Unknown (I : St → Prop) (E : Stop → St → Prop) : Prop :=
  ∀ s t, I s → E (.exit 127) { s with said := s.said ++ [VRes.message t .unknown] }

/-- The step keeps the invariant. -/
def Keeps (I : St → Prop) (E : Stop → St → Prop) {α : Type} (m : M α) : Prop :=
  ∀ s, I s → Post (m s) (fun _ s' => I s') E

theorem post_mono {α : Type} {r : Res α} {Q : α → St → Prop} {E E' : Stop → St → Prop} (h : Post r Q E)
    (he : ∀ e s, E e s → E' e s) : Post r Q E' := by
  cases r with
  | ok a s => exact h
  | stop e s => exact he e s h

theorem Closed.mono {w : World} {I : St → Prop} {E E' : Stop → St → Prop} {A : St → Path → Prop} (C : Closed w I E A)
    (he : ∀ e s, E e s → E' e s) : Closed w I E' A where
  temp pre ext s h := post_mono (C.temp pre ext s h) he
  cmd c s h hw := post_mono (C.cmd c s h hw) he
  args := C.args
  write := C.write
  raise s h := he _ _ (C.raise s h)
  exit1 s h := he _ _ (C.exit1 s h)
  own := C.own

section
variable {w : World} {I : St → Prop} {E : Stop → St → Prop} {A : St → Path → Prop}

theorem keeps_pure {α : Type} (a : α) : Keeps I E (pure a : M α) := fun _ h => h

theorem keeps_bind {α β : Type} {m : M α} {f : α → M β} (hm : Keeps I E m) (hf : ∀ a, Keeps I E (f a)) :
    Keeps I E (m >>= f) :=
  fun s h => post_bind (post_weaken (hm s h) fun a s' hs => hf a s' hs)

/-- Reading the state. -/
theorem keeps_get {β : Type} {f : St → M β} (hf : ∀ s, I s → Post (f s s) (fun _ s' => I s') E) : Keeps I E (get >>= f) :=
  fun s h => post_bind (m := get) (show Post (f s s) _ E from hf s h)

theorem keeps_get' {β : Type} {f : St → M β} (hf : ∀ s, Keeps I E (f s)) : Keeps I E (get >>= f) :=
  keeps_get fun s h => hf s s h

theorem keeps_forEach {α β : Type} {f : α → M β} (l : List α) (hf : ∀ a ∈ l, Keeps I E (f a)) : Keeps I E (forEach f l) := by
  induction l with
  | nil => exact keeps_pure _
  | cons a l ih =>
    exact keeps_bind (hf a List.mem_cons_self) fun _ =>
      keeps_bind (ih fun b hb => hf b (List.mem_cons_of_mem _ hb)) fun _ => keeps_pure _

variable (C : Closed w I E A)
include C

theorem keeps_raise {α : Type} : Keeps I E (stop .raised : M α) := fun s h => C.raise s h

theorem keeps_exit1 {α : Type} : Keeps I E (stop (.exit 1) : M α) := fun s h => C.exit1 s h

theorem keeps_temp (pre ext : Text) : Keeps I E (temporary w pre ext) :=
  fun s h => post_weaken (C.temp pre ext s h) fun _ _ h => h.1

theorem keeps_read (p : Path) : Keeps I E (read p) := by
  intro s h
  unfold read
  cases s.files p with
  | some t => exact h
  | none => exact C.raise s h

theorem keeps_setArgs (f : Args → Args) (hf : ∀ a, Same a (f a)) : Keeps I E (setArgs f) :=
  fun s h => C.args s _ h (hf _)

theorem post_cmd (c : List Word) (s : St) (h : I s) (hw : ∀ p, writes c p → A s p) :
    Post (command w c s) (fun _ s' => I s' ∧ ∀ p, A s p → A s' p) E :=
  post_bind (post_weaken (C.cmd c s h hw) fun _ _ h => h)

/-- A command that writes nothing. -/
theorem keeps_try (c : List Word) (hw : ∀ p, ¬writes c p) : Keeps I E (tryCommand w c) :=
  fun s h => post_weaken (C.cmd c s h fun p hp => absurd hp (hw p)) fun _ _ h => h.1

theorem keeps_cmd (c : List Word) (hw : ∀ s, I s → ∀ p, writes c p → A s p) : Keeps I E (command w c) :=
  fun s h => post_weaken (post_cmd C c s h (hw s h)) fun _ _ h => h.1

/-- A temporary file and a command that writes it. -/
theorem keeps_temp_cmd (pre ext : Text) (c : Path → List Word) (hw : ∀ f p, writes (c f) p → p = f) :
    Keeps I E (do let f ← temporary w pre ext; command w (c f); pure f) :=
  fun s h => post_bind (post_weaken (C.temp pre ext s h) fun f s' hs =>
    post_bind (post_weaken (post_cmd C (c f) s' hs.1 fun p hp => (hw f p hp) ▸ hs.2) fun _ _ h => h.1))

theorem keeps_write_own (s : St) (h : I s) (t : Text) : Post (write s.args.bplFile t s) (fun _ s' => I s') E :=
  C.write s _ t h (C.own s h).2.2.1

end

/-! ### Which files commands write -/

theorem writes_append (a b : List Word) (p : Path) : writes (a ++ b) p ↔ writes a p ∨ writes b p := by
  unfold writes
  simp only [List.mem_append]
  constructor
  · rintro ((h | h) | (h | h) | (h | h))
    · exact Or.inl (Or.inl h)
    · exact Or.inr (Or.inl h)
    · exact Or.inl (Or.inr (Or.inl h))
    · exact Or.inr (Or.inr (Or.inl h))
    · exact Or.inl (Or.inr (Or.inr h))
    · exact Or.inr (Or.inr (Or.inr h))
  · rintro ((h | h | h) | (h | h | h))
    · exact Or.inl (Or.inl h)
    · exact Or.inr (Or.inl (Or.inl h))
    · exact Or.inr (Or.inr (Or.inl h))
    · exact Or.inl (Or.inr h)
    · exact Or.inr (Or.inl (Or.inr h))
    · exact Or.inr (Or.inr (Or.inr h))

theorem writes_nil (p : Path) : ¬writes [] p := by
  intro h
  rcases h with h | h | h <;> cases h

theorem writes_lit (t : Text) (l : List Word) (p : Path) : writes (.lit t :: l) p ↔ writes l p := by
  unfold writes; simp

theorem writes_L (t : String) (l : List Word) (p : Path) : writes (L t :: l) p ↔ writes l p := writes_lit _ _ _

theorem writes_bin (t : String) (l : List Word) (p : Path) : writes (llvmBin t :: l) p ↔ writes l p := writes_lit _ _ _

theorem writes_inp (t : Path) (l : List Word) (p : Path) : writes (.inp t :: l) p ↔ writes l p := by
  unfold writes; simp

theorem writes_out (t : Path) (l : List Word) (p : Path) : writes (.out t :: l) p ↔ p = t ∨ writes l p := by
  unfold writes; simp only [List.mem_cons, Word.out.injEq, reduceCtorEq, false_or, or_assoc]

theorem writes_upd (t : Path) (l : List Word) (p : Path) : writes (.upd t :: l) p ↔ p = t ∨ writes l p := by
  unfold writes; simp only [List.mem_cons, Word.upd.injEq, reduceCtorEq, false_or]
  constructor
  · rintro (h | (h | h) | h)
    · exact Or.inr (Or.inl h)
    · exact Or.inl h
    · exact Or.inr (Or.inr (Or.inl h))
    · exact Or.inr (Or.inr (Or.inr h))
  · rintro (h | h | h | h)
    · exact Or.inr (Or.inl (Or.inl h))
    · exact Or.inl h
    · exact Or.inr (Or.inl (Or.inr h))
    · exact Or.inr (Or.inr h)

theorem writes_plain {l : List Word} (h : ∀ x ∈ l, (∃ t, x = .lit t) ∨ ∃ f, x = .inp f) (p : Path) : ¬writes l p := by
  rintro (hp | hp | hp)
  · rcases h _ hp with ⟨t, e⟩ | ⟨t, e⟩ <;> cases e
  · rcases h _ hp with ⟨t, e⟩ | ⟨t, e⟩ <;> cases e
  · rcases h _ hp with ⟨t, e⟩ | ⟨t, e⟩ <;> cases e

theorem writes_lits (ls : List Text) (p : Path) : ¬writes (ls.map Word.lit) p :=
  writes_plain (fun x hx => by obtain ⟨t, _, e⟩ := List.mem_map.1 hx; exact Or.inl ⟨t, e.symm⟩) p

theorem writes_Ls (ls : List String) (p : Path) : ¬writes (ls.map L) p :=
  writes_plain (fun x hx => by obtain ⟨t, _, e⟩ := List.mem_map.1 hx; exact Or.inl ⟨_, e.symm⟩) p

theorem writes_inps (ls : List Path) (p : Path) : ¬writes (ls.map Word.inp) p :=
  writes_plain (fun x hx => by obtain ⟨t, _, e⟩ := List.mem_map.1 hx; exact Or.inr ⟨t, e.symm⟩) p

theorem writes_opt (b : Bool) (l : List Word) (p : Path) (h : ¬writes l p) : ¬writes (opt b l) p := by
  unfold opt
  split
  · exact h
  · exact writes_nil p

theorem writes_eps (s : String) (l : List Text) (p : Path) : ¬writes (l.flatMap fun ep => [L s, .lit ep]) p := by
  refine writes_plain (fun x hx => ?_) p
  obtain ⟨t, _, e⟩ := List.mem_flatMap.1 hx
  simp only [List.mem_cons, List.not_mem_nil, or_false] at e
  rcases e with e | e
  · exact Or.inl ⟨_, e⟩
  · exact Or.inl ⟨_, e⟩

theorem writes_clangArgs (w : World) (a : Args) (lib : Bool) (p : Path) : ¬writes (clangArgs w a lib) p := by
  unfold clangArgs
  simp only [writes_append, not_or]
  refine ⟨⟨⟨⟨⟨⟨⟨?_, writes_lits _ _⟩, ?_⟩, writes_Ls _ _⟩, ?_⟩, ?_⟩, ?_⟩, ?_⟩
  · simp only [writes_L, writes_lit]; exact writes_nil p
  · cases a.memMod <;> simp only [memModFlag, writes_L] <;> exact writes_nil p
  all_goals
    apply writes_opt
    simp only [writes_L, writes_lit]
    exact writes_nil p

theorem writes_rustCommand (l : List Word) (p : Path) (h : ¬writes l p) : ¬writes (rustCommand l) p := by
  unfold rustCommand rustArgs
  simp only [writes_append, writes_L, not_or]
  exact ⟨⟨writes_nil p, writes_nil p⟩, h⟩

theorem writes_compile {cc : List Word} (hcc : ∀ p, ¬writes cc p) (bc input p : Path)
    (h : writes (cc ++ [L "-o", .out bc, .inp input]) p) : p = bc := by
  simp only [writes_append, writes_L, writes_out, writes_inp] at h
  rcases h with h | h | h
  · exact absurd h (hcc p)
  · exact h
  · exact absurd h (writes_nil p)

theorem writes_llvm2bpl (w : World) (a : Args) (p : Path) (h : writes (llvm2bpl w a) p) :
    p = a.bplFile ∨ a.ll = some p := by
  unfold llvm2bpl at h
  simp only [writes_append, or_assoc] at h
  have hs : ∀ (b : Bool) (s : String), ¬writes (opt b [L s]) p := fun b s =>
    writes_opt b _ p (by rw [writes_L]; exact writes_nil p)
  have hl : ∀ (b : Bool) (s : Text), ¬writes (opt b [.lit s]) p := fun b s =>
    writes_opt b _ p (by rw [writes_lit]; exact writes_nil p)
  rcases h with h | h | h | h | h | h | h | h | h | h | h | h | h | h | h | h | h | h | h | h | h | h
  · simp only [writes_L, writes_lit, writes_inp, writes_out] at h
    rcases h with h | h
    · exact Or.inl h
    · exact absurd h (writes_nil p)
  · exact absurd h (hs _ _)
  · rw [writes_L] at h; exact absurd h (writes_nil p)
  · exact absurd h (writes_eps _ _ p)
  · exact absurd h (writes_eps _ _ p)
  · exact absurd h (hs _ _)
  · revert h
    cases a.debugOnly with
    | none => intro h; exact absurd h (writes_nil p)
    | some m => intro h; simp only [writes_L, writes_lit] at h; exact absurd h (writes_nil p)
  · revert h
    cases a.ll with
    | none => intro h; exact absurd h (writes_nil p)
    | some f =>
      intro h
      simp only [writes_L, writes_out] at h
      rcases h with h | h
      · exact Or.inr (by rw [h])
      · exact absurd h (writes_nil p)
  all_goals first
    | exact absurd h (hs _ _)
    | exact absurd h (hl _ _)
    | exact absurd h (writes_Ls _ _)

/-! ### The walk -/

section
variable {w : World} {I : St → Prop} {E : Stop → St → Prop} {A : St → Path → Prop}
variable (C : Closed w I E A)
include C

theorem keeps_compile (input : Path) {cc : List Word} (hcc : ∀ p, ¬writes cc p) : Keeps I E (compileToBc w input cc) :=
  keeps_temp_cmd C _ _ (fun bc => cc ++ [L "-o", .out bc, .inp input]) fun bc p h => writes_compile hcc bc input p h

theorem keeps_clang (name : String) (a : Args) (lib : Bool) (input : Path) (more : List Text) :
    Keeps I E (compileToBc w input (llvmBin name :: clangArgs w a lib ++ more.map .lit)) := by
  refine keeps_compile C input fun p hp => ?_
  rw [List.cons_append, writes_bin, writes_append] at hp
  rcases hp with h | h
  · exact writes_clangArgs w a lib p h
  · exact writes_lits _ _ h

theorem keeps_clang0 (name : String) (a : Args) (lib : Bool) (input : Path) :
    Keeps I E (compileToBc w input (llvmBin name :: clangArgs w a lib)) := by
  have := keeps_clang C name a lib input []
  rwa [List.map_nil, List.append_nil] at this

theorem keeps_defaultLibs : Keeps I E (defaultBuildLibs w) :=
  keeps_get' fun _ => keeps_forEach _ fun _ _ => keeps_clang0 C _ _ _ _

theorem keeps_fortran (hA : ∀ s p, A s p) (input : Path) (cc : List Word) (more : List Path) :
    Keeps I E (fortranCompileToBc w input cc more) :=
  keeps_bind (keeps_temp C _ _) fun _ => keeps_bind (keeps_cmd C _ fun s _ p _ => hA s p) fun _ =>
    keeps_bind (keeps_cmd C _ fun s _ p _ => hA s p) fun _ => keeps_bind (keeps_cmd C _ fun s _ p _ => hA s p) fun _ =>
    keeps_bind (keeps_cmd C _ fun s _ p _ => hA s p) fun _ => keeps_pure _

theorem keeps_fortranLibs (hA : ∀ s p, A s p) : Keeps I E (fortranBuildLibs w) :=
  keeps_get' fun _ => keeps_bind (keeps_fortran C hA _ _ _) fun _ => keeps_pure _

theorem keeps_extra (lang : Lang) (hA : (∀ s p, A s p) ∨ lang ≠ .fortran) : Keeps I E (extraLibs w lang) := by
  cases lang with
  | fortran =>
    rcases hA with h | h
    · exact keeps_fortranLibs C h
    · exact absurd rfl h
  | cxx => exact keeps_get' fun _ => keeps_bind (keeps_clang0 C _ _ _ _) fun _ => keeps_pure _
  | rust =>
    refine keeps_bind (keeps_compile C _ fun p => writes_rustCommand _ p ?_) fun _ => keeps_pure _
    simp only [writes_L]
    exact writes_nil p
  | _ => exact keeps_pure _

theorem keeps_extern (bcs : List Path) : Keeps I E (externEntryPoints w bcs) := by
  refine keeps_forEach _ fun bc _ => keeps_get' fun s => ?_
  refine keeps_temp_cmd C _ _ (fun new => [L "extern-statics", L "-in", .inp bc, L "-out", .out new] ++
      s.args.entryPoints.flatMap fun ep => [L "-entry-points", .lit ep]) fun new p hp => ?_
  simp only [writes_append, writes_L, writes_inp, writes_out] at hp
  rcases hp with (h | h) | h
  · exact h
  · exact absurd h (writes_nil p)
  · exact absurd h (writes_eps _ _ p)

theorem keeps_annotate : Keeps I E (annotateFile w) := by
  refine keeps_get fun s h => post_bind ?_
  unfold read
  cases s.files s.args.bplFile with
  | none => exact C.raise s h
  | some t => exact keeps_write_own C s h _

theorem keeps_select : Keeps I E selectFile := by
  refine keeps_get fun s h => post_bind ?_
  unfold read
  cases s.files s.args.bplFile with
  | none => exact C.raise s h
  | some t => exact keeps_write_own C s h _

theorem keeps_transform : Keeps I E (transformFile w) := by
  refine keeps_get fun s h => ?_
  cases s.args.transformBpl with
  | none => exact h
  | some c =>
    refine post_bind ?_
    unfold read
    cases s.files s.args.bplFile with
    | none => exact C.raise s h
    | some t =>
      show Post ((match w.filter c t with
        | none => do write s.args.bplFile []; stop .raised
        | some t' => write s.args.bplFile t' : M Unit) s) _ E
      cases w.filter c t with
      | none => exact post_bind (post_weaken (keeps_write_own C s h []) fun _ s' hs => C.raise s' hs)
      | some t' => exact keeps_write_own C s h t'

theorem keeps_llvmToBpl : Keeps I E (llvmToBpl w) := by
  refine keeps_get fun s h => post_bind (post_weaken (post_cmd C _ s h fun p hp => ?_) fun _ s' hs => ?_)
  · obtain ⟨_, _, hb, hl⟩ := C.own s h
    rcases writes_llvm2bpl w s.args p hp with e | e
    · rw [e]; exact hb
    · exact hl p e
  · exact keeps_bind (keeps_annotate C) (fun _ => keeps_bind (keeps_select C) fun _ => keeps_transform C) s' hs.1

/-- The two calls of the linker. -/
theorem post_links (s : St) (h : I s) (ins libs : List Path) :
    Post ((do
      command w ([llvmBin "llvm-link", L "-o", .out s.args.bcFile] ++ ins.map .inp)
      command w ([llvmBin "llvm-link", L "-o", .out s.args.linkedFile, .inp s.args.bcFile] ++ libs.map .inp) : M Unit) s)
      (fun _ s' => I s') E := by
  obtain ⟨hb, hl, _, _⟩ := C.own s h
  refine post_bind (post_weaken (post_cmd C _ s h fun p hp => ?_) fun _ s' hs =>
    post_weaken (post_cmd C _ s' hs.1 fun p hp => ?_) fun _ _ h => h.1)
  · simp only [writes_append, writes_bin, writes_L, writes_out] at hp
    rcases hp with (hp | hp) | hp
    · rw [hp]; exact hb
    · exact absurd hp (writes_nil p)
    · exact absurd hp (writes_inps _ p)
  · simp only [writes_append, writes_bin, writes_L, writes_out, writes_inp] at hp
    rcases hp with (hp | hp) | hp
    · rw [hp]; exact hs.2 _ hl
    · exact absurd hp (writes_nil p)
    · exact absurd hp (writes_inps _ p)

theorem keeps_linkBcFiles (bcs : List Path) (libs : List Lang) (hA : (∀ s p, A s p) ∨ Lang.fortran ∉ libs) :
    Keeps I E (linkBcFiles w bcs libs) := by
  refine keeps_bind (keeps_defaultLibs C) fun smack => keeps_bind (keeps_forEach _ fun l hl => keeps_extra C l ?_) fun extra =>
    keeps_bind (keeps_extern C _) fun bcs => keeps_get fun s h => ?_
  · rcases hA with hA | hA
    · exact Or.inl hA
    · exact Or.inr fun e => hA (e ▸ hl)
  · have := post_links C s h bcs (smack ++ extra.flatten)
    refine post_bind ?_
    change Post (M.bind _ _ s) _ E at this
    unfold M.bind at this
    revert this
    cases command w ([llvmBin "llvm-link", L "-o", .out s.args.bcFile] ++ bcs.map .inp) s with
    | stop e s' => intro this; exact this
    | ok a s' => intro this; exact post_bind (post_weaken this fun _ s'' hs => keeps_llvmToBpl C s'' hs)

theorem keeps_boogie (input : Path) : Keeps I E (boogieFrontend input) := by
  refine keeps_get fun s h => ?_
  split
  · exact C.raise s h
  · refine post_bind (post_weaken (keeps_write_own C s h _) fun _ s' hs => post_bind (post_weaken (keeps_read C input s' hs) fun t s'' hs => ?_))
    exact keeps_write_own C s'' hs _

theorem keeps_json (hA : ∀ s p, A s p) (input : Path) : Keeps I E (jsonFrontend w input) := by
  refine keeps_get' fun s => ?_
  split
  · exact keeps_raise C
  · refine keeps_bind (keeps_read C _) fun t => ?_
    cases w.database t with
    | none => exact keeps_raise C
    | some es =>
      refine keeps_bind (keeps_forEach _ fun e _ => ?_) fun _ => keeps_llvmToBpl C
      cases e with
      | objects bcs =>
        exact keeps_get' fun _ => keeps_bind (keeps_cmd C _ fun s _ p _ => hA s p) fun _ =>
          keeps_bind (keeps_defaultLibs C) fun _ => keeps_cmd C _ fun s _ p _ => hA s p
      | command ws => exact keeps_cmd C _ fun s _ p _ => hA s p

theorem keeps_svcompProperty (U : Unknown I E) : Keeps I E svcompProperty := by
  refine keeps_get' fun s => ?_
  cases s.args.svcompProperty with
  | none => exact keeps_pure _
  | some f =>
    refine keeps_bind (keeps_read C f) fun prop => ?_
    cases svcompCheck prop s.args.check with
    | some c => exact keeps_setArgs C _ fun a => by constructor <;> rfl
    | none => exact fun s' h => U s' _ h

theorem keeps_svcomp (U : Unknown I E) (input : Path) : Keeps I E (svcompFrontend w input) := by
  refine keeps_bind (keeps_setArgs C _ fun a => by constructor <;> rfl) fun _ => keeps_get' fun s => ?_
  split
  · exact keeps_raise C
  · exact keeps_bind (keeps_svcompProperty C U) fun _ => keeps_bind (keeps_setArgs C _ fun a => by constructor <;> rfl) fun _ =>
      keeps_get' fun s => keeps_bind (keeps_clang0 C _ _ _ _) fun bc => keeps_linkBcFiles C _ _ (Or.inr List.not_mem_nil)

theorem keeps_cargo (input : Path) : Keeps I E (cargoFrontend w input) := by
  intro s h
  refine post_bind (post_weaken (C.temp _ _ s h) fun dir s' hs => post_bind (post_weaken (post_cmd C _ s' hs.1 fun p hp => ?_) fun _ s2 h2 => ?_))
  · simp only [writes_L, writes_out, writes_inp] at hp
    rcases hp with hp | hp
    · rw [hp]; exact hs.2
    · exact absurd hp (writes_nil p)
  · have : Keeps I E (do
        let t ← read input
        match w.crate t with
        | none => stop .raised
        | some name =>
          let s ← get
          let base := dir ++ "/debug/deps/".toList
          let bcs := (w.listdir base s.files).filter fun e => (name ++ ['-']).isPrefixOf e && ".bc".toList.isSuffixOf e
          let bc ← temporary w (stem input) ".bc".toList
          command w ([llvmBin "llvm-link"] ++ bcs.map (fun e => .inp (base ++ e)) ++ [L "-o", .out bc])
          pure bc : M Path) := by
      refine keeps_bind (keeps_read C _) fun t => ?_
      cases w.crate t with
      | none => exact keeps_raise C
      | some name =>
        refine keeps_get' fun s => keeps_temp_cmd C _ _ (fun bc => [llvmBin "llvm-link"] ++
          (((w.listdir (dir ++ "/debug/deps/".toList) s.files).filter fun e => (name ++ ['-']).isPrefixOf e && ".bc".toList.isSuffixOf e).map
            (fun e => Word.inp (dir ++ "/debug/deps/".toList ++ e))) ++ [L "-o", .out bc]) fun bc p hp => ?_
        rw [writes_append, writes_append] at hp
        simp only [writes_bin, writes_L, writes_out] at hp
        rcases hp with (hp | hp) | hp | hp
        · exact absurd hp (writes_nil p)
        · refine absurd hp (writes_plain (fun x hx => ?_) p)
          obtain ⟨y, _, e⟩ := List.mem_map.1 hx
          exact Or.inr ⟨_, e.symm⟩
        · exact hp
        · exact absurd hp (writes_nil p)
    exact this s2 h2.1

/-- The languages whose front ends write other files than their own. -/
def messy : Lang → Prop
  | .fortran | .json => True
  | _ => False

omit C in
theorem writes_d (bc input p : Path) (w : World)
    (h : writes ([L "ldc2", L "-output-ll", .lit ("-I=".toList ++ w.headers)] ++ [L "-of=", .out bc, .inp input]) p) : p = bc := by
  simp only [writes_append, writes_L, writes_lit, writes_out, writes_inp] at h
  rcases h with h | h | h
  · exact absurd h (writes_nil p)
  · exact h
  · exact absurd h (writes_nil p)

theorem keeps_frontend1 (U : Unknown I E) (lang : Lang) (hA : (∀ s p, A s p) ∨ ¬messy lang) (input : Path) :
    Keeps I E (runFrontend w lang input) := by
  refine keeps_get' fun s => ?_
  cases lang with
  | c => exact keeps_bind (keeps_clang0 C _ _ _ _) fun _ => keeps_pure _
  | cxx => exact keeps_bind (keeps_clang0 C _ _ _ _) fun _ => keeps_pure _
  | objc =>
    refine keeps_bind (keeps_try C _ fun p => ?_) fun flags => keeps_bind (keeps_clang C _ _ _ _ _) fun _ => keeps_pure _
    simp only [writes_L]
    exact writes_nil p
  | d =>
    exact keeps_bind (keeps_setArgs C _ fun a => by constructor <;> rfl) fun _ =>
      keeps_bind (keeps_temp_cmd C _ _ (fun bc => [L "ldc2", L "-output-ll", .lit ("-I=".toList ++ w.headers)] ++
        [L "-of=", .out bc, .inp input]) fun bc p h => writes_d bc input p w h) fun _ => keeps_pure _
  | fortran =>
    rcases hA with hA | hA
    · exact keeps_bind (keeps_fortranLibs C hA) fun _ => keeps_bind (keeps_setArgs C _ fun a => by constructor <;> rfl) fun _ =>
        keeps_bind (keeps_fortran C hA _ _ _) fun _ => keeps_pure _
    · exact absurd trivial hA
  | rust =>
    have h1 : Keeps I E (do
        let rlib ← temporary w ("lib".toList ++ stem (w.lib "smack.rs")) ".rlib".toList
        command w (rustCommand [L "--crate-type", L "rlib,lib"] ++ [L "-o", .out rlib, .inp (w.lib "smack.rs")])
        pure rlib) := by
      refine keeps_temp_cmd C _ _ (fun rlib => rustCommand [L "--crate-type", L "rlib,lib"] ++ [L "-o", .out rlib, .inp (w.lib "smack.rs")])
        fun rlib p h => writes_compile (fun q => writes_rustCommand _ q ?_) _ _ p h
      simp only [writes_L]
      exact writes_nil q
    have h2 : ∀ rlib, Keeps I E (do
        let f ← compileToBc w input (rustCommand [L "--emit=llvm-bc", L "--extern", L "smack=", .inp rlib])
        pure (some f)) := fun rlib => by
      refine keeps_bind (keeps_compile C _ fun p => writes_rustCommand _ p ?_) fun _ => keeps_pure _
      simp only [writes_L, writes_inp]
      exact writes_nil p
    intro s' hs
    have := h1 s' hs
    refine post_bind ?_
    change Post (M.bind _ _ s') _ E at this
    unfold M.bind at this
    revert this
    cases temporary w ("lib".toList ++ stem (w.lib "smack.rs")) ".rlib".toList s' with
    | stop e s2 => intro this; exact this
    | ok rlib s2 =>
      intro this
      refine post_bind ?_
      change Post (M.bind _ _ s2) _ E at this
      unfold M.bind at this
      revert this
      cases command w (rustCommand [L "--crate-type", L "rlib,lib"] ++ [L "-o", .out rlib, .inp (w.lib "smack.rs")]) s2 with
      | stop e s3 => intro this; exact this
      | ok a s3 => intro this; exact h2 rlib s3 this
  | llvm => exact keeps_pure _
  | cargo => exact keeps_bind (keeps_cargo C _) fun _ => keeps_pure _
  | boogie => exact keeps_bind (keeps_boogie C _) fun _ => keeps_pure _
  | json =>
    rcases hA with hA | hA
    · exact keeps_bind (keeps_json C hA _) fun _ => keeps_pure _
    · exact absurd trivial hA
  | svcomp => exact keeps_bind (keeps_svcomp C U _) fun _ => keeps_pure _

/-- What the loop over the input files returns: one entry per file, with the file's language. -/
theorem post_loop (U : Unknown I E) (a : Args) (l : List Path) (hA : (∀ s p, A s p) ∨ ∀ f ∈ l, ∀ lang, langOf a f = some lang → ¬messy lang) (s : St) (h : I s) :
    Post (forEach (frontend1 w a) l s)
      (fun r s' => I s' ∧ ∀ x ∈ r, ∃ f ∈ l, langOf a f = some x.1) E := by
  induction l generalizing s with
  | nil => exact ⟨h, fun x hx => nomatch hx⟩
  | cons f l ih =>
    refine post_bind ?_
    unfold frontend1
    cases hl : langOf a f with
    | none => exact C.raise s h
    | some lang =>
      refine post_bind (post_weaken (keeps_frontend1 C U lang ?_ f s h) fun bc s' hs => ?_)
      · rcases hA with hA | hA
        · exact Or.inl hA
        · exact Or.inr (hA f List.mem_cons_self lang hl)
      · refine post_bind (post_weaken (ih (hA.imp_right fun x f hf => x f (List.mem_cons_of_mem _ hf)) s' hs) fun r s2 h2 => ?_)
        refine ⟨h2.1, fun x hx => ?_⟩
        rcases List.mem_cons.1 hx with e | hx
        · exact ⟨f, List.mem_cons_self, by rw [e]; exact hl⟩
        · obtain ⟨g, hg, e⟩ := h2.2 x hx
          exact ⟨g, List.mem_cons_of_mem _ hg, e⟩

theorem keeps_frontend (U : Unknown I E) (hA : (∀ s p, A s p) ∨ ∀ s, I s → ∀ f ∈ s.args.inputs, ∀ lang, langOf s.args f = some lang → ¬messy lang) :
    Keeps I E (frontend w) := by
  refine keeps_get fun s h => post_bind (post_weaken (post_loop C U s.args s.args.inputs (hA.imp_right fun x => x s h) s h) fun r s' hs => ?_)
  show Post ((if (r.map Prod.fst).any noreturning then pure () else
    linkBcFiles w (r.filterMap Prod.snd) ((r.map Prod.fst).eraseDups.filter hasExtra) : M Unit) s') _ E
  split
  · exact hs.1
  · refine keeps_linkBcFiles C _ _ ?_ s' hs.1
    rcases hA with hA | hA
    · exact Or.inl hA
    · refine Or.inr fun hm => ?_
      obtain ⟨x, hx, e⟩ := List.mem_map.1 (List.mem_eraseDups.1 ((List.mem_filter.1 hm).1))
      obtain ⟨f, hm, hf⟩ := hs.2 x hx
      exact hA s h f hm _ hf (by rw [e]; trivial)

theorem keeps_setTarget (t : Text) : Keeps I E (setTarget t) := by
  unfold setTarget
  split
  · exact keeps_setArgs C _ fun a => by constructor <;> rfl
  · exact keeps_pure _

theorem keeps_target : Keeps I E (targetSelection w) := by
  refine keeps_get' fun s => ?_
  split
  · exact keeps_pure _
  · split
    · exact keeps_raise C
    · split
      · rename_i src _ _ _
        intro s' hs
        refine post_bind (post_weaken (C.temp _ _ s' hs) fun ll s2 h2 => post_bind (post_weaken (post_cmd C _ s2 h2.1 fun p hp => ?_) fun _ s3 h3 => ?_))
        · simp only [writes_bin, writes_L, writes_out, writes_inp] at hp
          rcases hp with hp | hp
          · rw [hp]; exact h2.2
          · exact absurd hp (writes_nil p)
        · exact keeps_bind (keeps_read C _) (fun t => keeps_setTarget C t) s3 h3.1
      · split
        · exact keeps_bind (keeps_read C _) fun t => keeps_setTarget C t
        · exact keeps_pure _

end

end Smack.Run
