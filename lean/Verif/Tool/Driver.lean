import Verif.Tool.Lemmas

/-!
# The driver's command line as llvm2bpl reads it
-/
namespace Smack.Tool
open Smack.Run (Text Args World Word L)

/-- The occurrences of options up to `--debug`. -/
def occs1 (w : World) (a : Args) : List (Opt × Text) :=
  [(.bpl, a.bplFile), (.warnType, a.warn), (.seaDsa, "ci".toList)] ++ when w.tty [(.colored, "1".toList)] ++ [(.sourceLoc, "1".toList)] ++
  a.entryPoints.map (fun v => (.entryPoints, v)) ++ a.checked.map (fun v => (.checked, v))

def occsD (a : Args) : List (Opt × Text) :=
  when a.debug [(.debug, "1".toList)] ++ (match a.debugOnly with | some m => [(.debugOnly, m)] | none => [])

/-- The occurrences of options after `--debug-only`. -/
def occs2 (a : Args) : List (Opt × Text) :=
  (match a.ll with | some f => [(.ll, f)] | none => []) ++
  when (a.memMod == .noReuseImpls) [(.memModImpls, "1".toList)] ++ when a.staticUnroll [(.staticUnroll, "1".toList)] ++
  when (a.intEnc == .bitVector) [(.bitPrecise, "1".toList)] ++ when (a.intEnc == .wrapped) [(.wrapped, "1".toList)] ++
  when a.timing [(.timing, "1".toList)] ++ when a.ptrBv [(.bitPrecisePtr, "1".toList)] ++
  when a.noByteInference [(.noByteInference, "1".toList)] ++ when a.rewriteBitwise [(.rewriteBitwise, "1".toList)] ++
  when a.noSplitting [(.noSplitting, "1".toList)] ++
  (when (Options.containsMemSafe a.check) [(.memorySafety, "1".toList)] ++ when (a.check .integerOverflow) [(.integerOverflow, "1".toList)] ++
    when (a.check .rustPanics) [(.rustPanics, "1".toList)]) ++
  when a.failOnLoopExit [(.failOnLoopExit, "1".toList)] ++
  when (!a.llvmAssumes.isEmpty) [(.llvmAssumes, a.llvmAssumes)] ++
  when a.float [(.float, "1".toList)] ++ when a.modular [(.modular, "1".toList)]

def words1 (w : World) (a : Args) : List Word :=
  [.inp a.linkedFile, L "-bpl", .out a.bplFile, L "-warn-type", .lit a.warn, L "-sea-dsa=ci"] ++
  Run.opt w.tty [L "-colored-warnings"] ++ [L "-source-loc-syms"] ++
  a.entryPoints.flatMap (fun ep => [L "-entry-points", .lit ep]) ++
  a.checked.flatMap (fun cf => [L "-checked-functions", .lit cf])

def wordsD (a : Args) : List Word :=
  Run.opt a.debug [L "-debug"] ++
  (match a.debugOnly with | some m => [L "-debug-only", .lit m] | none => [])

def words2 (a : Args) : List Word :=
  (match a.ll with | some f => [L "-ll", .out f] | none => []) ++
  Run.opt (a.memMod == .noReuseImpls) [L "-mem-mod-impls"] ++
  Run.opt a.staticUnroll [L "-static-unroll"] ++
  Run.opt (a.intEnc == .bitVector) [L "-bit-precise"] ++
  Run.opt (a.intEnc == .wrapped) [L "-wrapped-integer-encoding"] ++
  Run.opt a.timing [L "-timing-annotations"] ++
  Run.opt a.ptrBv [L "-bit-precise-pointers"] ++
  Run.opt a.noByteInference [L "-no-byte-access-inference"] ++
  Run.opt a.rewriteBitwise [L "-rewrite-bitwise-ops"] ++
  Run.opt a.noSplitting [L "-no-memory-splitting"] ++
  (Options.llvm2bplFlags a.check).map L ++
  Run.opt a.failOnLoopExit [L "-fail-on-loop-exit"] ++
  Run.opt (!a.llvmAssumes.isEmpty) [.lit ("-llvm-assumes=".toList ++ a.llvmAssumes)] ++
  Run.opt a.float [L "-float"] ++ Run.opt a.modular [L "-modular"]

theorem words_eq (w : World) (a : Args) : (Run.llvm2bpl w a).drop 1 = words1 w a ++ (wordsD a ++ words2 a) := by
  unfold Run.llvm2bpl words1 wordsD words2
  simp only [List.append_assoc, List.cons_append, List.nil_append, List.drop_succ_cons, List.drop_zero]
  cases a.debugOnly <;> cases a.ll <;> rfl

theorem flagPiece (nd : Bool) (s : String) (o : Text) (p : Opt) (hs : dashes s.toList = some o) (hne : o ≠ []) (hv : splitEq o = (o, none))
    (hl : (declared nd).lookup o = some (p, .flag)) : Piece nd ([L s].map wordText) [(p, "1".toList)] [] :=
  Piece.flag nd s.toList o p hs hne hv hl

theorem piece1 (nd : Bool) (w : World) (a : Args) (h : Usual a) : Piece nd ((words1 w a).map wordText) (occs1 w a) [a.linkedFile] := by
  unfold words1 occs1
  simp only [List.map_append]
  have hw : (Kind.oneOf ["silent".toList, "approximate".toList, "info".toList]).accepts a.warn = true := by
    rcases h.warn with e | e | e <;> rw [e] <;> decide
  have h0 : Piece nd ([Word.inp a.linkedFile, L "-bpl", .out a.bplFile, L "-warn-type", .lit a.warn, L "-sea-dsa=ci"].map wordText)
      [(.bpl, a.bplFile), (.warnType, a.warn), (.seaDsa, "ci".toList)] [a.linkedFile] :=
    (Piece.word nd a.linkedFile h.input).append ((Piece.value nd "-bpl".toList a.bplFile "bpl".toList .bpl .text (by decide) (by decide) (by decide) (by cases nd <;> decide) (by decide) rfl).append
      ((Piece.value nd "-warn-type".toList a.warn "warn-type".toList .warnType _ (by decide) (by decide) (by decide) (by cases nd <;> decide) (by decide) hw).append
        (Piece.equals nd "-sea-dsa=ci".toList "ci".toList "sea-dsa=ci".toList "sea-dsa".toList .seaDsa .text (by decide) (by decide) (by decide) (by cases nd <;> decide) (by decide) rfl)))
  refine (((h0.append (Piece.opt fun _ => flagPiece nd _ "colored-warnings".toList .colored ?_ ?_ ?_ ?_)).append
    (flagPiece nd _ "source-loc-syms".toList .sourceLoc ?_ ?_ ?_ ?_)).append (Piece.many nd _ "entry-points".toList .entryPoints ?_ ?_ ?_ ?_ a.entryPoints)).append
    (Piece.many nd _ "checked-functions".toList .checked ?_ ?_ ?_ ?_ a.checked) <;> first | decide | (cases nd <;> decide)

theorem pieceD (nd : Bool) (a : Args) (h : nd = false ∨ a.debug = false ∧ a.debugOnly = none) : Piece nd ((wordsD a).map wordText) (occsD a) [] := by
  unfold wordsD occsD
  rcases h with rfl | ⟨h1, h2⟩
  · simp only [List.map_append]
    refine (Piece.opt fun _ => flagPiece false _ "debug".toList .debug ?_ ?_ ?_ ?_).append ?_
    · decide
    · decide
    · decide
    · decide
    · cases a.debugOnly with
      | none => exact Piece.nil _
      | some m => exact Piece.value false "-debug-only".toList m "debug-only".toList .debugOnly .many (by decide) (by decide) (by decide) (by decide) (by decide) rfl
  · rw [h1, h2]
    exact Piece.nil nd

theorem piece2 (nd : Bool) (a : Args) (h : Usual a) : Piece nd ((words2 a).map wordText) (occs2 a) [] := by
  have hll : Piece nd (((match a.ll with | some f => [L "-ll", .out f] | none => []) : List Word).map wordText)
      (match a.ll with | some f => [(.ll, f)] | none => []) [] := by
    cases a.ll with
    | none => exact Piece.nil _
    | some f => exact Piece.value nd "-ll".toList f "ll".toList .ll .text (by decide) (by decide) (by decide) (by cases nd <;> decide) (by decide) rfl
  have has : Piece nd (([Word.lit ("-llvm-assumes=".toList ++ a.llvmAssumes)] : List Word).map wordText) [(.llvmAssumes, a.llvmAssumes)] [] := by
    rcases h.assumes with e | e | e <;> rw [e] <;>
      exact Piece.equals nd _ _ _ "llvm-assumes".toList .llvmAssumes (.oneOf ["none".toList, "use".toList, "check".toList]) rfl (by decide) (by decide) (by cases nd <;> decide) (by decide) (by decide)
  have hck : Piece nd (((Options.llvm2bplFlags a.check).map L).map wordText)
      (when (Options.containsMemSafe a.check) [(.memorySafety, "1".toList)] ++ when (a.check .integerOverflow) [(.integerOverflow, "1".toList)] ++
        when (a.check .rustPanics) [(.rustPanics, "1".toList)]) [] := by
    have e : (Options.llvm2bplFlags a.check).map L = Run.opt (Options.containsMemSafe a.check) [L "-memory-safety"] ++
        Run.opt (a.check .integerOverflow) [L "-integer-overflow"] ++ Run.opt (a.check .rustPanics) [L "-rust-panics"] := by
      unfold Options.llvm2bplFlags Run.opt
      cases Options.containsMemSafe a.check <;> cases a.check .integerOverflow <;> cases a.check .rustPanics <;> rfl
    rw [e]
    simp only [List.map_append]
    refine ((Piece.opt fun _ => flagPiece nd _ "memory-safety".toList .memorySafety ?_ ?_ ?_ ?_).append
      (Piece.opt fun _ => flagPiece nd _ "integer-overflow".toList .integerOverflow ?_ ?_ ?_ ?_)).append
      (Piece.opt fun _ => flagPiece nd _ "rust-panics".toList .rustPanics ?_ ?_ ?_ ?_) <;> first | decide | (cases nd <;> decide)
  unfold words2 occs2
  simp only [List.map_append]
  refine (((((((((((((hll.append
    (Piece.opt fun _ => flagPiece nd _ "mem-mod-impls".toList .memModImpls ?_ ?_ ?_ ?_)).append
    (Piece.opt fun _ => flagPiece nd _ "static-unroll".toList .staticUnroll ?_ ?_ ?_ ?_)).append
    (Piece.opt fun _ => flagPiece nd _ "bit-precise".toList .bitPrecise ?_ ?_ ?_ ?_)).append
    (Piece.opt fun _ => flagPiece nd _ "wrapped-integer-encoding".toList .wrapped ?_ ?_ ?_ ?_)).append
    (Piece.opt fun _ => flagPiece nd _ "timing-annotations".toList .timing ?_ ?_ ?_ ?_)).append
    (Piece.opt fun _ => flagPiece nd _ "bit-precise-pointers".toList .bitPrecisePtr ?_ ?_ ?_ ?_)).append
    (Piece.opt fun _ => flagPiece nd _ "no-byte-access-inference".toList .noByteInference ?_ ?_ ?_ ?_)).append
    (Piece.opt fun _ => flagPiece nd _ "rewrite-bitwise-ops".toList .rewriteBitwise ?_ ?_ ?_ ?_)).append
    (Piece.opt fun _ => flagPiece nd _ "no-memory-splitting".toList .noSplitting ?_ ?_ ?_ ?_)).append
    hck).append
    (Piece.opt fun _ => flagPiece nd _ "fail-on-loop-exit".toList .failOnLoopExit ?_ ?_ ?_ ?_)).append
    (Piece.opt fun _ => has)).append
    (Piece.opt fun _ => flagPiece nd _ "float".toList .float ?_ ?_ ?_ ?_)).append
    (Piece.opt fun _ => flagPiece nd _ "modular".toList .modular ?_ ?_ ?_ ?_) <;> first | decide | (cases nd <;> decide)

/-- All occurrences of options. -/
def occs (w : World) (a : Args) : List (Opt × Text) := occs1 w a ++ (occsD a ++ occs2 a)

theorem read_driver (nd : Bool) (w : World) (a : Args) (h : Usual a) (hd : nd = false ∨ a.debug = false ∧ a.debugOnly = none) :
    readWords nd (((Run.llvm2bpl w a).drop 1).map wordText) = some { opts := occs w a, plain := [a.linkedFile] } := by
  have := (piece1 nd w a h).append ((pieceD nd a hd).append (piece2 nd a h)) []
  rw [words_eq, List.map_append, List.map_append]
  rw [List.append_nil] at this
  rw [this]
  simp [readWords, occs]

/-- Without debugging compiled in, `-debug` is not known. -/
theorem read_debug (w : World) (a : Args) (h : Usual a) (hd : a.debug = true ∨ a.debugOnly ≠ none) :
    readWords true (((Run.llvm2bpl w a).drop 1).map wordText) = none := by
  rw [words_eq, List.map_append, piece1 true w a h]
  have : ∀ (s : String) (o : Text) (y : List Text), dashes s.toList = some o → o ≠ [] → splitEq o = (o, none) → (declared true).lookup o = none →
      readWords true (s.toList :: y) = none := by
    intro s o y hs hne hv hl
    cases o with
    | nil => exact absurd rfl hne
    | cons c t =>
      rw [readWords]
      simp only [hs, hv, hl]
  have hnone : readWords true ((wordsD a ++ words2 a).map wordText) = none := by
    unfold wordsD
    cases hdb : a.debug with
    | true => exact this "-debug" "debug".toList _ (by decide) (by decide) (by decide) (by decide)
    | false =>
      cases ho : a.debugOnly with
      | none => rw [hdb, ho] at hd; simp at hd
      | some m => exact this "-debug-only" "debug-only".toList _ (by decide) (by decide) (by decide) (by decide)
  rw [hnone]
  rfl

/-! ### Values -/

theorem values_append (x y : List (Opt × Text)) (p : Opt) : values (x ++ y) p = values x p ++ values y p := by
  simp [values]

theorem values_map (vs : List Text) (q p : Opt) : values (vs.map fun v => (q, v)) p = if q = p then vs else [] := by
  induction vs with
  | nil => simp [values]
  | cons v vs ih =>
    have e : values ((v :: vs).map fun v => (q, v)) p = values [(q, v)] p ++ values (vs.map fun v => (q, v)) p := values_append [(q, v)] _ p
    rw [e, ih]
    by_cases h : q = p <;> simp [values, h]

theorem values_when (b : Bool) (q p : Opt) (v : Text) : values (when b [(q, v)]) p = if b = true ∧ q = p then [v] else [] := by
  cases b <;> by_cases h : q = p <;> simp [values, when, h]

theorem values_match (o : Option Text) (q p : Opt) : values (match o with | some m => [(q, m)] | none => []) p = if q = p then o.toList else [] := by
  cases o <;> by_cases h : q = p <;> simp [values, h]

theorem values_cons (q p : Opt) (v : Text) (os : List (Opt × Text)) : values ((q, v) :: os) p = if q = p then v :: values os p else values os p := by
  by_cases h : q = p <;> simp [values, h]

theorem values_nil (p : Opt) : values [] p = [] := rfl

theorem values_occs (w : World) (a : Args) (p : Opt) : values (occs w a) p =
    match p with
    | .bpl => [a.bplFile] | .warnType => [a.warn] | .seaDsa => ["ci".toList] | .sourceLoc => ["1".toList]
    | .entryPoints => a.entryPoints | .checked => a.checked | .debugOnly => a.debugOnly.toList | .ll => a.ll.toList
    | .colored => if w.tty then ["1".toList] else [] | .debug => if a.debug then ["1".toList] else []
    | .memModImpls => if a.memMod = .noReuseImpls then ["1".toList] else [] | .staticUnroll => if a.staticUnroll then ["1".toList] else []
    | .bitPrecise => if a.intEnc = .bitVector then ["1".toList] else [] | .wrapped => if a.intEnc = .wrapped then ["1".toList] else []
    | .timing => if a.timing then ["1".toList] else [] | .bitPrecisePtr => if a.ptrBv then ["1".toList] else []
    | .noByteInference => if a.noByteInference then ["1".toList] else [] | .rewriteBitwise => if a.rewriteBitwise then ["1".toList] else []
    | .noSplitting => if a.noSplitting then ["1".toList] else []
    | .memorySafety => if Options.containsMemSafe a.check then ["1".toList] else []
    | .integerOverflow => if a.check .integerOverflow then ["1".toList] else [] | .rustPanics => if a.check .rustPanics then ["1".toList] else []
    | .failOnLoopExit => if a.failOnLoopExit then ["1".toList] else []
    | .llvmAssumes => if a.llvmAssumes.isEmpty then [] else [a.llvmAssumes]
    | .float => if a.float then ["1".toList] else [] | .modular => if a.modular then ["1".toList] else []
    | .dataLayout => [] | .memModDbg => [] := by
  unfold occs occs1 occsD occs2
  simp only [values_append, values_map, values_when, values_match, values_cons, values_nil]
  cases a.ll <;> cases p <;> simp [values]

end Smack.Tool
