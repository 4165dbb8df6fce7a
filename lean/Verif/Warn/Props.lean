import Verif.Warn.Spec
import Verif.Tool.Props

/-!
# C96: warnings about approximations
-/
namespace Smack.Warn

theorem unset_nil (c : Cfg) (req : List Flag) : unsetFlags c req = [] ↔ ∀ f ∈ req, c.set f = true := by
  simp [unsetFlags, List.filter_eq_nil_iff]

theorem satisfied_iff (c : Cfg) (req : List Flag) (rel : Rel) : isSatisfied c req rel = true ↔ Met c req rel := by
  cases rel with
  | and => simp only [isSatisfied, List.isEmpty_iff, unset_nil, Met]
  | or =>
    simp only [isSatisfied, Met, decide_eq_true_iff]
    induction req with
    | nil => simp [unsetFlags]
    | cons f req ih =>
      have hle : (unsetFlags c req).length ≤ req.length := List.length_filter_le ..
      cases hf : c.set f with
      | true =>
        have e : unsetFlags c (f :: req) = unsetFlags c req := by simp [unsetFlags, hf]
        rw [e, List.length_cons]
        exact ⟨fun _ => ⟨f, List.mem_cons_self .., hf⟩, fun _ => by omega⟩
      | false =>
        have e : unsetFlags c (f :: req) = f :: unsetFlags c req := by simp [unsetFlags, hf]
        rw [e, List.length_cons, List.length_cons, Nat.succ_lt_succ_iff, ih]
        simp [hf]

theorem flagStr_eq (fs : List Flag) : flagStr fs = "{ ".toList ++ fs.flatMap (fun f => f.option ++ [' ']) ++ "}".toList := by
  unfold flagStr
  congr 2
  congr 1
  funext f
  cases f <;> decide

theorem process_printed (c : Cfg) (d : Text) (unset : List Flag) (block : Bool) (loc : Option Loc) (rel : Rel) :
    (process c d unset block loc rel).printed = if 10 ≤ c.level then message loc d rel unset else [] := by
  unfold process sufficient approximate
  by_cases h : 10 ≤ c.level
  · have hp : buildDebugInfo loc = place loc := by cases loc <;> rfl
    simp only [h, decide_true, Bool.not_true, Bool.false_eq_true, if_false, if_true, message, hp, Out.printed, flagStr_eq]
    cases unset <;> cases rel <;> cases c.colored <;> simp
  · simp only [h, decide_false, Bool.not_false, if_true, if_false]
    rfl

theorem message_ne (loc : Option Loc) (d : Text) (rel : Rel) (fs : List Flag) : message loc d rel fs ≠ [] := by
  unfold message
  simp

/-- An operation that needs flags is warned about iff the flags do not suffice, unless the user has asked for silence. The line
names the place, the operation and exactly the options of smack that are missing, of which all or one are needed. -/
theorem c96_message (c : Cfg) (name : Text) (req : List Flag) (block : Bool) (loc : Option Loc) (rel : Rel) :
    (¬ Met c req rel → 10 ≤ c.level → ∃ missing, (warnOver c name req block loc rel).printed =
      message loc ("overapproximating ".toList ++ name ++ " (can lead to false alarms)".toList) rel missing ∧ ∀ f, f ∈ missing ↔ f ∈ req ∧ c.set f = false) ∧
    ((Met c req rel ∨ c.level < 10) → (warnOver c name req block loc rel).printed = []) := by
  refine ⟨fun hm hl => ⟨unsetFlags c req, ?_, fun f => by simp [unsetFlags]⟩, fun h => ?_⟩
  · have : isSatisfied c req rel ≠ true := fun h => hm ((satisfied_iff c req rel).1 h)
    unfold warnOver warnUnset
    rw [if_neg this, process_printed, if_pos hl]
  · unfold warnOver
    rcases h with h | h
    · rw [if_pos ((satisfied_iff c req rel).2 h)]; rfl
    · split
      · rfl
      · unfold warnUnset
        rw [process_printed, if_neg (by omega)]

example : (warnOver { level := 10, colored := true, set := fun _ => false } "x".toList [.floatEnabled, .bitPrecise] true (some ⟨"a.c".toList, 3, 7⟩) .and).printed =
    "a.c:3:7: SMACK warning: overapproximating x (can lead to false alarms); try adding all the flag(s) in: { --float --integer-encoding=bit-vector }\n".toList := by
  decide +kernel

/-- The driver's options with those of the flags added. -/
def obeyAll (fs : List Flag) (a : Run.Args) : Run.Args := fs.foldl (fun a f => obey f a) a

theorem obey_usual (f : Flag) (a : Run.Args) (h : Tool.Usual a) : Tool.Usual (obey f a) := by
  cases f <;> exact ⟨h.warn, h.assumes, h.input⟩

theorem obeyAll_usual : ∀ (fs : List Flag) (a : Run.Args), Tool.Usual a → Tool.Usual (obeyAll fs a)
  | [], _, h => h
  | f :: fs, a, h => obeyAll_usual fs _ (obey_usual f a h)

/-- What the driver's options say about a flag. -/
def has (a : Run.Args) : Flag → Prop
  | .bitPrecise => a.intEnc = .bitVector
  | .floatEnabled => a.float = true
  | .rewriteBitwiseOps => a.rewriteBitwise = true

theorem has_obey (f g : Flag) (a : Run.Args) : has (obey f a) g ↔ f = g ∨ has a g := by
  cases f <;> cases g <;> simp [has, obey]

theorem has_obeyAll : ∀ (fs : List Flag) (a : Run.Args) (g : Flag), has (obeyAll fs a) g ↔ g ∈ fs ∨ has a g
  | [], a, g => by simp [obeyAll]
  | f :: fs, a, g => by
    show has (obeyAll fs (obey f a)) g ↔ _
    rw [has_obeyAll fs, has_obey, List.mem_cons]
    constructor
    · rintro (h | h | h)
      · exact Or.inl (Or.inr h)
      · exact Or.inl (Or.inl h.symm)
      · exact Or.inr h
    · rintro ((h | h) | h)
      · exact Or.inr (Or.inl h.symm)
      · exact Or.inl h
      · exact Or.inr (Or.inr h)

theorem cfg_has {nd : Bool} {w : Run.World} {a : Run.Args} {o : Tool.Opts} (h : Tool.Usual a) (ho : Tool.driverParse nd w a = some o) (f : Flag) :
    (cfgOf o).set f = true ↔ has a f := by
  obtain ⟨hf, -⟩ := Tool.set_iff h ho
  cases f with
  | bitPrecise => exact hf _ (List.mem_of_getElem? (i := 6) rfl)
  | floatEnabled => exact hf _ (List.mem_of_getElem? (i := 12) rfl)
  | rewriteBitwiseOps => exact hf _ (List.mem_of_getElem? (i := 9) rfl)

theorem obey_debug : ∀ (fs : List Flag) (a : Run.Args), (obeyAll fs a).debug = a.debug ∧ (obeyAll fs a).debugOnly = a.debugOnly
  | [], _ => ⟨rfl, rfl⟩
  | f :: fs, a => by
    have := obey_debug fs (obey f a)
    cases f <;> exact this

/-- The hint works: if smack is run again with the options that the warning names (all, or for "any" at least one of them), then
the translator accepts them and the warning is gone. -/
theorem c96_hint (nd : Bool) (w : Run.World) (a : Run.Args) (h : Tool.Usual a) (o : Tool.Opts) (ho : Tool.driverParse nd w a = some o)
    (name : Text) (req : List Flag) (block : Bool) (loc : Option Loc) (rel : Rel) (fs : List Flag)
    (hfs : match rel with
      | .and => ∀ f ∈ req, (cfgOf o).set f = false → f ∈ fs
      | .or => ∃ f ∈ req, f ∈ fs) :
    ∃ o', Tool.driverParse nd w (obeyAll fs a) = some o' ∧ (warnOver (cfgOf o') name req block loc rel).printed = [] := by
  have hu := obeyAll_usual fs a h
  have hd : nd = false ∨ a.debug = false ∧ a.debugOnly = none := by
    cases nd with
    | false => exact Or.inl rfl
    | true =>
      refine Or.inr (Classical.byContradiction fun hn => ?_)
      have : Tool.driverParse true w a = none := Tool.c95_debug_fails w a h (by
        cases hdb : a.debug with
        | true => exact Or.inl rfl
        | false => exact Or.inr fun e => hn ⟨hdb, e⟩)
      rw [this] at ho
      cases ho
  obtain ⟨o', ho', -⟩ := Tool.c95_options nd w (obeyAll fs a) hu (by rw [(obey_debug fs a).1, (obey_debug fs a).2]; exact hd)
  refine ⟨o', ho', (c96_message (cfgOf o') name req block loc rel).2 (Or.inl ?_)⟩
  cases rel with
  | and =>
    intro f hf
    rw [cfg_has hu ho', has_obeyAll]
    cases hs : (cfgOf o).set f with
    | true => exact Or.inr ((cfg_has h ho f).1 hs)
    | false => exact Or.inl (hfs f hf hs)
  | or =>
    obtain ⟨f, hf, hin⟩ := hfs
    exact ⟨f, hf, (cfg_has hu ho' f).2 ((has_obeyAll fs a f).2 (Or.inl hin))⟩

example (w : Run.World) (o : Tool.Opts) (ho : Tool.driverParse false w Tool.some3 = some o) :
    ∃ o', Tool.driverParse false w (obeyAll [.floatEnabled] Tool.some3) = some o' ∧
      (warnOver (cfgOf o') "fadd".toList [.floatEnabled] true none .and).printed = [] :=
  c96_hint false w Tool.some3 Tool.some3_usual o ho _ _ _ _ .and [.floatEnabled] (fun _ hf _ => hf)

/-! ### Operations -/

theorem printed_append (x y : Out) : (Out.append x y).printed = x.printed ++ y.printed := by
  simp [Out.append, Out.printed]

theorem over_empty (c : Cfg) (name : Text) (f : Flag) (loc : Option Loc) (hl : 10 ≤ c.level) :
    (warnOver c name [f] true loc .and).printed = [] ↔ c.set f = true := by
  constructor
  · intro h
    cases hs : c.set f with
    | true => rfl
    | false =>
      obtain ⟨m, hm, -⟩ := (c96_message c name [f] true loc .and).1 (fun hm => by
        rw [hm f (List.mem_cons_self ..)] at hs; cases hs) hl
      rw [hm] at h
      exact absurd h (message_ne _ _ _ _)
  · intro h
    exact (c96_message c name [f] true loc .and).2 (Or.inl fun g hg => by rw [List.mem_singleton.1 hg]; exact h)

/-- Binary operations on integers and floating-point numbers, except the remainder of the latter, are warned about iff they are
not exact in the translator's mode. -/
theorem c96_binary_partial (c : Cfg) (op : Bin) (t : Ty) (loc : Option Loc) (hl : 10 ≤ c.level) (ht : (∃ w, t = .int w) ∨ t = .fp ∧ isBitwise op = false)
    (hr : op ≠ .frem) : ∃ out, binaryWarnings c op t loc = some out ∧ (out.printed = [] ↔ ExactBin c op t) := by
  have he : ({} : Out).printed = [] := rfl
  have hb : ∀ w, t = .int w → isBitwise op = true → ((if 1 < w then warnOver c ("bitwise operation ".toList ++ op.name) [.bitPrecise] true loc .and else {}).printed = [] ↔
      c.set .bitPrecise = true ∨ ∃ w, t = .int w ∧ w ≤ 1) := by
    intro w hw _
    subst hw
    by_cases h1 : 1 < w
    · rw [if_pos h1, over_empty c _ _ loc hl]
      simp only [Ty.int.injEq]
      refine ⟨Or.inl, ?_⟩
      rintro (h | ⟨_, rfl, h⟩)
      · exact h
      · omega
    · rw [if_neg h1]
      exact ⟨fun _ => Or.inr ⟨w, rfl, by omega⟩, fun _ => rfl⟩
  unfold binaryWarnings
  cases hbw : isBitwise op with
  | true =>
    obtain ⟨w, rfl⟩ : ∃ w, t = .int w := by
      rcases ht with h | ⟨-, h⟩
      · exact h
      · rw [hbw] at h; cases h
    have hf : isFpArith op = false := by cases op <;> first | rfl | cases hbw
    have hx : ExactBin c op (.int w) ↔ c.set .bitPrecise = true ∨ ∃ w', Ty.int w = .int w' ∧ w' ≤ 1 := by
      cases op <;> first | exact Iff.rfl | cases hbw
    rw [hf]
    refine ⟨_, rfl, ?_⟩
    rw [printed_append, hx]
    show (_ ++ [] = ([] : Text)) ↔ _
    rw [List.append_nil]
    exact hb w rfl hbw
  | false =>
    refine ⟨_, rfl, ?_⟩
    cases hf : isFpArith op with
    | true =>
      have hx : ExactBin c op t ↔ c.set .floatEnabled = true := by
        cases op <;> first | exact Iff.rfl | cases hf
      rw [hx, if_pos rfl]
      exact over_empty c _ _ loc hl
    | false =>
      have hx : ExactBin c op t := by
        cases op <;> first | trivial | cases hbw | cases hf | exact absurd rfl hr
      exact ⟨fun _ => hx, fun _ => rfl⟩

example : ∃ out, binaryWarnings { level := 10, colored := false, set := fun _ => false } .xor (.int 32) none = some out ∧
    (out.printed = [] ↔ ExactBin { level := 10, colored := false, set := fun _ => false } .xor (.int 32)) :=
  c96_binary_partial _ _ _ _ (by decide) (Or.inl ⟨32, rfl⟩) (by decide)

/-- What an operation is called in warnings. -/
theorem described_eq (op : Bin) : described op =
    if isBitwise op then some ("bitwise operation ".toList ++ op.name, .bitPrecise)
    else if isFpArith op then some ("floating-point operation ".toList ++ op.name, .floatEnabled) else none := by
  cases op <;> decide

theorem over_text (c : Cfg) (name : Text) (f : Flag) (loc : Option Loc) (hl : 10 ≤ c.level) (hs : c.set f = false) :
    (warnOver c name [f] true loc .and).printed = message loc ("overapproximating ".toList ++ name ++ " (can lead to false alarms)".toList) .and [f] := by
  have hu : unsetFlags c [f] = [f] := by simp [unsetFlags, hs]
  unfold warnOver warnUnset
  rw [if_neg (by simp [isSatisfied, hu]), process_printed, if_pos hl, hu]

/-- The warning about a binary operation is one line that names its place, the operation, and the one option that makes it exact. -/
theorem c96_binary_text (c : Cfg) (op : Bin) (t : Ty) (loc : Option Loc) (hl : 10 ≤ c.level) {out : Out} (ho : binaryWarnings c op t loc = some out)
    {d : Text} {f : Flag} (hd : described op = some (d, f)) (hx : ¬ ExactBin c op t) :
    out.printed = message loc ("overapproximating ".toList ++ d ++ " (can lead to false alarms)".toList) .and [f] := by
  rw [described_eq] at hd
  unfold binaryWarnings at ho
  cases hb : isBitwise op with
  | true =>
    have hf : isFpArith op = false := by cases op <;> first | rfl | cases hb
    have hx' : ¬ (c.set .bitPrecise = true ∨ ∃ w, t = .int w ∧ w ≤ 1) := fun h => hx (by cases op <;> first | exact h | cases hb)
    rw [hb, if_pos rfl] at hd
    rw [hb, hf] at ho
    injection hd with hd
    injection hd with h1 h2
    subst h1 h2
    cases t with
    | int w =>
      have hw : 1 < w := by
        refine Nat.lt_of_not_le fun h => hx' (.inr ⟨w, rfl, h⟩)
      injection ho with ho
      rw [← ho, printed_append, if_pos hw, over_text c _ _ loc hl (by simpa using fun h => hx' (.inl h))]
      exact List.append_nil _
    | fp => cases ho
    | vec => cases ho
  | false =>
    rw [hb, if_neg (by decide)] at hd
    rw [hb] at ho
    cases hf : isFpArith op with
    | false => rw [hf] at hd; cases hd
    | true =>
      have hx' : ¬ c.set .floatEnabled = true := fun h => hx (by cases op <;> first | exact h | cases hf)
      rw [hf, if_pos rfl] at hd
      rw [hf] at ho
      injection hd with hd
      injection hd with h1 h2
      subst h1 h2
      injection ho with ho
      rw [← ho]
      exact over_text c _ _ loc hl (by simpa using hx')

example : described .xor = some ("bitwise operation xor".toList, .bitPrecise) ∧
    ¬ ExactBin { level := 10, colored := false, set := fun _ => false } .xor (.int 32) := by
  refine ⟨rfl, ?_⟩
  rintro (h | ⟨w, h, hw⟩)
  · cases h
  · injection h with h; omega

/-- The floating-point remainder is never warned about, also where it is not exact. -/
theorem c96_frem_fails (c : Cfg) (loc : Option Loc) (h : c.set .floatEnabled = false) :
    ∃ out, binaryWarnings c .frem .fp loc = some out ∧ out.printed = [] ∧ ¬ ExactBin c .frem .fp :=
  ⟨_, rfl, rfl, by simp [ExactBin, h]⟩

/-- Bitwise operations on vectors fail an assertion when the width is asked for. -/
theorem c96_vector_fails (c : Cfg) (op : Bin) (loc : Option Loc) (h : isBitwise op = true) : binaryWarnings c op .vec loc = none := by
  unfold binaryWarnings
  rw [if_pos h]
  rfl

example : isBitwise .and = true := rfl

/-- An intrinsic is translated by its own statements iff they are exact in the translator's mode; otherwise it is called as
an unknown procedure, and that is warned about. -/
theorem c96_intrinsic (c : Cfg) (i : Intr) (name : Text) (loc : Option Loc) :
    ((intrinsic c i name loc).1 = .model ↔ ExactIntr c i) ∧ (10 ≤ c.level → ((intrinsic c i name loc).2.printed = [] ↔ ExactIntr c i)) := by
  have key : ∀ req rel, entry i = .needs req rel → ((intrinsic c i name loc).1 = .model ↔ Met c req rel) ∧
      (10 ≤ c.level → ((intrinsic c i name loc).2.printed = [] ↔ Met c req rel)) := by
    intro req rel he
    unfold intrinsic
    rw [he]
    dsimp only
    by_cases h : isSatisfied c req rel = true
    · rw [if_pos h]
      have := (satisfied_iff c req rel).1 h
      exact ⟨⟨fun _ => this, fun _ => rfl⟩, fun _ => ⟨fun _ => this, fun _ => rfl⟩⟩
    · rw [if_neg h]
      have hn : ¬ Met c req rel := fun hm => h ((satisfied_iff c req rel).2 hm)
      refine ⟨⟨fun e => (by cases e), fun hm => absurd hm hn⟩, fun hl => ⟨fun e => ?_, fun hm => absurd hm hn⟩⟩
      unfold warnUnset at e
      rw [process_printed, if_pos hl] at e
      exact absurd e (message_ne _ _ _ _)
  cases i
  case other =>
    refine ⟨⟨fun e => (by cases e), fun h => h.elim⟩, fun hl => ⟨fun e => ?_, fun h => h.elim⟩⟩
    have e : (process c _ [] true loc .and).printed = [] := e
    rw [process_printed, if_pos hl] at e
    exact absurd e (message_ne _ _ _ _)
  case assume => exact ⟨⟨fun _ => trivial, fun _ => rfl⟩, fun _ => ⟨fun _ => trivial, fun _ => rfl⟩⟩
  case dbgDeclare => exact ⟨⟨fun _ => trivial, fun _ => rfl⟩, fun _ => ⟨fun _ => trivial, fun _ => rfl⟩⟩
  case dbgLabel => exact ⟨⟨fun _ => trivial, fun _ => rfl⟩, fun _ => ⟨fun _ => trivial, fun _ => rfl⟩⟩
  case expect => exact ⟨⟨fun _ => trivial, fun _ => rfl⟩, fun _ => ⟨fun _ => trivial, fun _ => rfl⟩⟩
  all_goals
    have := key _ _ rfl
    simpa [Met, ExactIntr] using this

example : (intrinsic { level := 0, colored := false, set := fun f => f == .rewriteBitwiseOps } .ctpop "llvm.ctpop.i32".toList none).1 = .model :=
  (c96_intrinsic _ _ _ _).1.2 (Or.inr rfl)

/-- Messages of the level "info" are printed only at that level; approximations of unknown effect always unless silent. -/
theorem c96_levels (c : Cfg) (msg : Text) (loc : Option Loc) (block : Bool) :
    ((warnInfo c msg).printed = if 20 ≤ c.level then "warning: ".toList ++ msg ++ ['\n'] else []) ∧
    (warnApproximate c msg block loc).printed =
      if 10 ≤ c.level then message loc ("approximating ".toList ++ msg ++ " (can lead to both false alarms and missed detections)".toList) .and [] else [] := by
  refine ⟨?_, process_printed ..⟩
  unfold warnInfo sufficient info
  by_cases h : 20 ≤ c.level
  · simp [h, Out.printed]
  · simp [h, Out.printed]

/-- The comment in the Boogie file says the same as the message, without the hint. -/
theorem c96_comment (c : Cfg) (name : Text) (req : List Flag) (loc : Option Loc) (rel : Rel) :
    (warnOver c name req true loc rel).comments =
      if (warnOver c name req true loc rel).printed = [] then []
      else [place loc ++ "SMACK warning: overapproximating ".toList ++ name ++ " (can lead to false alarms);".toList] := by
  unfold warnOver
  split
  · rfl
  · unfold warnUnset
    rw [process_printed]
    unfold process sufficient approximate
    by_cases h : 10 ≤ c.level
    · have hp : buildDebugInfo loc = place loc := by cases loc <;> rfl
      rw [if_pos h, if_neg (message_ne _ _ _ _)]
      simp only [h, decide_true, Bool.not_true, Bool.false_eq_true, if_false, if_true, hp]
      have e1 : ∀ z : Text, "SMACK warning: ".toList ++ ("overapproximating ".toList ++ z) = "SMACK warning: overapproximating ".toList ++ z := fun z => rfl
      have e2 : (" (can lead to false alarms)".toList ++ ";".toList : Text) = " (can lead to false alarms);".toList := by decide
      simp only [List.append_assoc, e1, e2]
    · simp [h]

end Smack.Warn
