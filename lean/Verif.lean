import Verif.Base
import Verif.Spec.Bpf
import Verif.Arr.Props
import Verif.PtrSet.Props
import Verif.Spec.Flat
import Verif.Norm.Props
import Verif.Layout.Props
import Verif.Emit.Props
import Verif.GenBB.Props
import Verif.Spec.Ir
import Verif.Lift.Props
import Verif.Lift.Back
import Verif.Lift.Users
import Verif.Lift.Good
import Verif.Lift.Flow
import Verif.Lift.Insns
import Verif.Spec.Uses
import Verif.Spec.Paths
import Verif.Edit.Props
import Verif.Spec.WellFormed
import Verif.Check.Props
import Verif.RA.Props
import Verif.Live.Props
import Verif.Stack.Props
import Verif.Spec.Moved
import Verif.Stack.Places
import Verif.Drive.Props
import Verif.Opts.Props
import Verif.Dead.Props
import Verif.Phi.Props
import Verif.Compact.Props
import Verif.Guard.Shape
import Verif.Guard.Sim
import Verif.Guard.Run
import Verif.Guard.Checked
import Verif.Guard.ShapeCheck
import Verif.DivZero.Model
import Verif.DivZero.Lemmas
import Verif.DivZero.Props
import Verif.Spec.Trail
import Verif.Spec.Counter
import Verif.IR.Hist
import Verif.Guard.Insert
import Verif.Guard.Err
import Verif.Count.Model
import Verif.Count.One
import Verif.Count.Built
import Verif.Count.Core
import Verif.Count.Bound
import Verif.Count.Lemmas
import Verif.Count.Jumps
import Verif.Count.Props
import Verif.Count.Keep
import Verif.Count.KeepBuilt
import Verif.Count.KeepProps
import Verif.Count.KeepBound
import Verif.Spec.Held
import Verif.Throw.Model
import Verif.Throw.Flow
import Verif.Throw.Ways
import Verif.Throw.Trans
import Verif.Throw.Sim
import Verif.Throw.Lemmas
import Verif.Throw.Props
import Verif.Spec.Loc
import Verif.Spec.Place
import Verif.Spec.PhiOut
import Verif.Spec.Alloc
import Verif.Loc.Exec
import Verif.Loc.Run
import Verif.Loc.Recolor
import Verif.Loc.Alloc
import Verif.Loc.Props
import Verif.Cg.Model
import Verif.Cg.Examples
import Verif.Cg.NeedCheck
import Verif.RemPhi.Model
import Verif.RemPhi.Sim
import Verif.RemPhi.Lemmas
import Verif.RemPhi.Props
import Verif.Cg.Cover
import Verif.Cg.Grow
import Verif.Cg.Lower
import Verif.Cg.LowerInv
import Verif.Spec.Lower
import Verif.Cg.LowerSim
import Verif.Cg.LowerFn
import Verif.Cg.Props
import Verif.Cg.Feed
import Verif.Cg.Spill
import Verif.Cg.SpillSim
import Verif.Cg.SpillTools
import Verif.Cg.SpillInv
import Verif.Cg.SpillFn
import Verif.Cg.Fresh
import Verif.Cg.SpillFresh
import Verif.Cg.SpillAll
import Verif.Cg.SpillProps
import Verif.Spec.Spill
import Verif.Spec.Consts
import Verif.Cg.SpillConst
import Verif.Cg.ConstInv
import Verif.Cg.ConstFn
import Verif.Cg.ConstFresh
import Verif.Cg.ConstProps
import Verif.Cg.LowerFresh
import Verif.Cg.LowerReady
import Verif.Cg.SpillArray
import Verif.Cg.Front
import Verif.Spec.Arrays
import Verif.Spec.Front
import Verif.Cg.ArrayProps
import Verif.Cg.FrontProps
import Verif.Msan.Model
import Verif.Spec.Msan
import Verif.Msan.Lemmas
import Verif.Msan.Struct
import Verif.Msan.Mem
import Verif.Msan.Sim
import Verif.Msan.Props
import Verif.Spec.Ecall
import Verif.Ecall.Model
import Verif.Ecall.Chain
import Verif.Ecall.Lemmas
import Verif.Ecall.Whole
import Verif.Ecall.Run
import Verif.Ecall.Handle
import Verif.Ecall.Props
import Verif.Spec.Flatten
import Verif.Flatten.Model
import Verif.Flatten.Lemmas
import Verif.Flatten.Exec
import Verif.Flatten.Run
import Verif.Flatten.Props
import Verif.Flatten.EmitProps
import Verif.Emit.Check
import Verif.Compile.Model
import Verif.Compile.Compose
import Verif.Compile.Shape
import Verif.Compile.SpillStep
import Verif.Compile.FrontStep
import Verif.Compile.LowerStep
import Verif.Compile.Alloc
import Verif.Compile.Assign
import Verif.Compile.Place
import Verif.Spec.Compile
import Verif.Compile.Color
import Verif.Compile.Flows
import Verif.Compile.Props
import Verif.Compile.Check
import Verif.Compile.Examples
import Verif.Spec.Lifted
import Verif.Pipe.Model
import Verif.Pipe.Code
import Verif.Pipe.Lift
import Verif.Pipe.Props
import Verif.Spec.Rewrite
import Verif.Pipe.Shrink
import Verif.Pipe.Ready
import Verif.Pipe.Passes
import Verif.Pipe.RunProps
import Verif.Pipe.Examples
import Verif.Spec.Init
import Verif.Lift.Total
import Verif.Lift.Accept
import Verif.Lift.Reject
import Verif.Lift.AcceptProps
import Verif.Pipe.Total
import Verif.Spec.Clobber
import Verif.Pipe.Clobber
import Verif.Pipe.ClobberProps
import Verif.Tool.Model
import Verif.Tool.Props
import Verif.Spec.Helpers
import Verif.Pipe.Helpers
import Verif.Spec.Limited
import Verif.Count.Success
import Verif.Pipe.Options
import Verif.Pipe.Guarded
import Verif.Pipe.GuardedCode
import Verif.Pipe.GuardedLoop
import Verif.Pipe.GuardedProps
import Verif.Spec.Listing
import Verif.Tool.Disasm
import Verif.Tool.DisasmLemmas
import Verif.Tool.DisasmProps
import Verif.Tool.ListingProps
import Verif.Links.Model
import Verif.Spec.Links
import Verif.Links.Lemmas
import Verif.Links.Props
import Verif.Links.Loops
import Verif.Cg.LowerQuiet
import Verif.Fit.Regs
import Verif.Fit.Consts
import Verif.Fit.Prep
import Verif.Fit.Phi
import Verif.Fit.Safe
import Verif.Fit.Fits
import Verif.Fit.Check
import Verif.Fit.Props
import Verif.Pipe.FitProps
import Verif.Pipe.GuardedFit
import Verif.Show.Model
import Verif.Show.Text
import Verif.Show.Insn
import Verif.Show.Line
import Verif.Show.Same
import Verif.Show.Tag
import Verif.Show.Lines
import Verif.Spec.Alike
import Verif.Show.Sim
import Verif.Show.Run
import Verif.Show.Code
import Verif.Show.Props
import Verif.Live.Total
import Verif.Compile.Tight
import Verif.Compile.Analyse
import Verif.Compile.Sturdy
import Verif.Compile.Loose
import Verif.Compile.AllocSafe
import Verif.Compile.ColorSafe
import Verif.Compile.EmitSafe
import Verif.Compile.PlaceSafe
import Verif.Compile.Safe
import Verif.Pipe.Safe
import Verif.Pipe.SafeProps
import Verif.Emit.BuiltinProps
import Verif.Pipe.BuiltinProps
import Verif.Heap.Model
import Verif.Spec.Heap
import Verif.Heap.Lemmas
import Verif.Heap.Steps
import Verif.Heap.Props
import Verif.Heap.Opts
import Verif.Heap.OptsProps
import Verif.Spec.Formed
import Verif.Compile.Legal
import Verif.Compile.LegalProps
import Verif.Compile.Handed
import Verif.Pipe.LegalProps
import Verif.Compile.DeadCode
import Verif.Compile.DeadProps
import Verif.Pipe.DeadProps
import Verif.Spec.Kinds
import Verif.Pipe.Kinds
import Verif.Pipe.KindProps
import Verif.Pipe.GuardedKinds
import Verif.Spec.Apart
import Verif.Pipe.Apart
