import Verif.IntOps.Props
import Verif.FloatLit.Props
import Verif.Bytes.Props
import Verif.Regions.Props
import Verif.Bitwise.Props
import Verif.Overflow.Props
import Verif.Globals.Props
import Verif.Alloc.Props
import Verif.MemIntr.Props
import Verif.Naming.Props
import Verif.Printer.Props
import Verif.Cfg.Props
import Verif.Intrinsics.Props
import Verif.FpPred.Props
import Verif.Aggr.Props
import Verif.Devirt.Props
import Verif.Gep.Props
import Verif.TypeSafe.Props
import Verif.Graphs.Props
import Verif.Driver.Props
import Verif.Driver.TraceProps
import Verif.Pthread.Props
import Verif.Pthread.JoinProps
import Verif.CString.Props
import Verif.Nondet.Props
import Verif.CAlloc.Props
import Verif.Vec.Props
import Verif.Vec.CastProps
import Verif.Atomics.Props
import Verif.Init.ExecProps
import Verif.MemSafe.Props
import Verif.MemSplit.Props
import Verif.E2E.Props
import Verif.E2EBv.Props
import Verif.Calls.Props
import Verif.E2EMod.Model
import Verif.E2EMod.Spec
import Verif.E2EMod.Step
import Verif.E2EMod.Prog
import Verif.E2EMod.Locals
import Verif.E2EMod.Props
import Verif.E2EMod.Ints
import Verif.E2EMod.Example
import Verif.E2EMod.Star
import Verif.Exn.Model
import Verif.Exn.Spec
import Verif.Exn.Lemmas
import Verif.Exn.Props
import Verif.PreludeTy.Model
import Verif.PreludeTy.Spec
import Verif.PreludeTy.Lemmas
import Verif.PreludeTy.Typing
import Verif.PreludeTy.Names
import Verif.PreludeTy.Bad
import Verif.PreludeTy.Attr
import Verif.PreludeTy.Rank
import Verif.PreludeTy.Props
import Verif.Emit.Model
import Verif.Emit.Spec
import Verif.Emit.Lemmas
import Verif.Emit.Stmts
import Verif.Emit.Instr
import Verif.Emit.Main
import Verif.Emit.Bad
import Verif.Emit.Reg
import Verif.Emit.Props
import Verif.RustVec.Model
import Verif.RustVec.Spec
import Verif.RustVec.Lemmas
import Verif.RustVec.Ops
import Verif.RustVec.World
import Verif.RustVec.Props
import Verif.Math.Props
import Verif.Dispatch.Props
import Verif.StdLib.Props
import Verif.Contracts.Props
import Verif.Cfg.Check
import Verif.OvfPass.Props
import Verif.BwPass.Props
import Verif.Options.Props
import Verif.Witness.Props
import Verif.PreSem.Spec
import Verif.PreSem.Lemmas
import Verif.PreSem.Ops
import Verif.PreSem.Consistent
import Verif.PreSem.Exist
import Verif.PreSem.Int
import Verif.PreSem.Bv
import Verif.PreSem.TextSpec
import Verif.PreSem.Text
import Verif.PreSem.Det
import Verif.PreSem.Ptr
import Verif.PreSem.Props
import Verif.PreSem.InstrSpec
import Verif.PreSem.Mem
import Verif.PreSem.Instr
import Verif.PreSem.Exec
import Verif.PreSem.InstrProps
import Verif.PreSem.Cell
import Verif.PreSem.CellSpec
import Verif.PreSem.CellProps
import Verif.Run.Model
import Verif.Run.Spec
import Verif.Run.Rules
import Verif.Run.Status
import Verif.Run.StatusProps
import Verif.Run.TempSpec
import Verif.Run.Temp
import Verif.Run.TempProps
import Verif.Run.FlowSpec
import Verif.Run.Flow
import Verif.Run.FlowLink
import Verif.Run.FlowFront
import Verif.Run.FlowRun
import Verif.Run.FlowTail
import Verif.Run.FlowProps
import Verif.Tool.Model
import Verif.Tool.Spec
import Verif.Tool.Lemmas
import Verif.Tool.Driver
import Verif.Tool.Props
import Verif.Warn.Model
import Verif.Warn.Spec
import Verif.Warn.Props
import Verif.Printer.StmtModel
import Verif.Printer.StmtSpec
import Verif.Printer.StmtLemmas
import Verif.Printer.DeclLemmas
import Verif.Printer.DeclProps
import Verif.Annot.Model
import Verif.Annot.Spec
import Verif.Annot.Lemmas
import Verif.Annot.Props
import Verif.Extern.Model
import Verif.Extern.Spec
import Verif.Extern.Lemmas
import Verif.Extern.Props
import Verif.JsonDb.Model
import Verif.JsonDb.Spec
import Verif.JsonDb.Lemmas
import Verif.JsonDb.Props
import Verif.Cargo.Model
import Verif.Cargo.Spec
import Verif.Cargo.Props
import Verif.BTrace.Model
import Verif.BTrace.Spec
import Verif.BTrace.Props
import Verif.Harness.Props
import Verif.Harness.MissingProps
