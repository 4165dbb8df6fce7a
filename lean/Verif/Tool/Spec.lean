import Verif.Tool.Model
import Verif.Driver.Spec

/-!
# What the options of the driver mean for the translator
-/
namespace Smack.Tool
open Smack.Run (Text Args World)

/-- The flags of llvm2bpl, with the options of the driver they stand for. -/
def flags (w : World) (a : Args) : List (Opt × Prop) :=
  [(.staticUnroll, a.staticUnroll = true), (.modular, a.modular = true), (.colored, w.tty = true), (.memModDbg, False),
   (.memModImpls, a.memMod = .noReuseImpls), (.sourceLoc, True), (.bitPrecise, a.intEnc = .bitVector), (.bitPrecisePtr, a.ptrBv = true),
   (.timing, a.timing = true), (.rewriteBitwise, a.rewriteBitwise = true), (.noSplitting, a.noSplitting = true),
   (.noByteInference, a.noByteInference = true), (.float, a.float = true),
   (.memorySafety, a.check .validDeref = true ∨ a.check .validFree = true ∨ a.check .memleak = true),
   (.integerOverflow, a.check .integerOverflow = true), (.failOnLoopExit, a.failOnLoopExit = true),
   (.rustPanics, a.check .rustPanics = true), (.wrapped, a.intEnc = .wrapped), (.debug, a.debug = true)]

/-- What argparse guarantees (top.py:314-315, 501-507), and that the linked file's name is not read as an option. -/
structure Usual (a : Args) : Prop where
  warn : a.warn = "silent".toList ∨ a.warn = "approximate".toList ∨ a.warn = "info".toList
  assumes : a.llvmAssumes = "none".toList ∨ a.llvmAssumes = "use".toList ∨ a.llvmAssumes = "check".toList
  input : a.linkedFile.head? ≠ some '-'

/-- All runs of `p` are before all runs of `q`. -/
def Before (ps : List Pass) (p q : Pass) : Prop := ps.Pairwise fun x y => ¬(x = q ∧ y = p)

/-- Passes that remove functions or make them removable. -/
def Removes (p : Pass) : Prop := p = .internalize ∨ p = .globalDce ∨ p = .removeDeadDefs

/-- Passes with the options of the driver that ask for them. -/
def wanted (a : Args) : List (Pass × Prop) :=
  [(.memorySafetyChecker, a.check .validDeref = true ∨ a.check .validFree = true ∨ a.check .memleak = true),
   (.rewriteBitwiseOps, a.rewriteBitwise = true ∧ a.intEnc ≠ .bitVector ∧ a.ptrBv = false),
   (.annotateLoopExits, a.failOnLoopExit = true), (.loopUnroll, a.staticUnroll = true), (.addTiming, a.timing = true),
   (.internalize, a.modular = false), (.globalDce, a.modular = false), (.removeDeadDefs, a.modular = false),
   (.integerOverflowChecker, True), (.devirtualize, True), (.codifyStaticInits, True), (.normalizeLoops, True), (.lowerSwitch, True)]

/-- Orders on which passes rely: switches and loops are brought into the form the later passes know; calls through pointers are
resolved and aggregates split before the accesses are guarded; overflow intrinsics and guards are in place before bitwise
operations are rewritten. -/
def orders : List (Pass × Pass) :=
  [(.rustFixes, .removeDeadDefs), (.internalize, .globalDce), (.internalize, .removeDeadDefs), (.lowerSwitch, .normalizeLoops),
   (.mem2reg, .loopUnroll), (.loopUnroll, .normalizeLoops), (.normalizeLoops, .annotateLoopExits), (.extractContracts, .verifierCodeMetadata),
   (.codifyStaticInits, .memorySafetyChecker), (.removeDeadDefs, .devirtualize), (.mergeArrayGep, .memorySafetyChecker),
   (.devirtualize, .memorySafetyChecker), (.splitAggregateValue, .memorySafetyChecker), (.memorySafetyChecker, .integerOverflowChecker),
   (.integerOverflowChecker, .rewriteBitwiseOps), (.memorySafetyChecker, .addTiming), (.rewriteBitwiseOps, .addTiming),
   (.addTiming, .moduleGenerator), (.memorySafetyChecker, .moduleGenerator), (.integerOverflowChecker, .moduleGenerator),
   (.rewriteBitwiseOps, .moduleGenerator), (.annotateLoopExits, .moduleGenerator)]

end Smack.Tool
