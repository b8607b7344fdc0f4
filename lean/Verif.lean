import Verif.SymExec.Model
import Verif.SymExec.Spec
import Verif.SymExec.Lemmas
import Verif.SymExec.Theorems
import Verif.SymExec.Exact
import Verif.Graphs.Loops
import Verif.Graphs.Forest
import Verif.Output.Asm
import Verif.Output.Placement
import Verif.Output.Disassembly
import Verif.Layout.Reach
import Verif.Trace.Spec
import Verif.Trace.Lemmas
import Verif.Trace.Theorems
import Verif.SymExec.RefineSpec
import Verif.SymExec.Refine
import Verif.SymExec.RefineExample
import Verif.Deps.Model
import Verif.Deps.Spec
import Verif.Deps.Lemmas
import Verif.Deps.Theorems
import Verif.Opcodes.Model
import Verif.Opcodes.Spec
import Verif.Opcodes.Theorems
import Verif.Common.Graph
import Verif.Sfs.Model
import Verif.Sfs.Spec
import Verif.Sfs.Lemmas
import Verif.Sfs.Theorems
import Verif.Liveness.Model
import Verif.Liveness.Spec
import Verif.Liveness.Lemmas
import Verif.Liveness.Engine
import Verif.Liveness.Termination
import Verif.Liveness.Theorems
import Verif.Liveness.Exact
import Verif.Liveness.Stops
import Verif.Liveness.Validate
import Verif.Common.Names
import Verif.Layout.Model
import Verif.Layout.Spec
import Verif.Layout.Lemmas
import Verif.Layout.Lemmas2
import Verif.Layout.Theorems
import Verif.Layout.Driver
import Verif.Layout.DriverSpec
import Verif.Layout.DriverLemmas
import Verif.Layout.DriverTheorems
import Verif.Layout.DriverExample
import Verif.Cfg.Model
import Verif.Cfg.Spec
import Verif.Cfg.Lemmas
import Verif.Cfg.Check
import Verif.Cfg.Split
import Verif.Cfg.Merge
import Verif.Cfg.Combine
import Verif.Cfg.Exits
import Verif.Cfg.Remove
import Verif.Cfg.Validate
import Verif.Cfg.Rename
import Verif.Cfg.Tags
import Verif.Cfg.InlineIndex
import Verif.Repair.PhiWebs
import Verif.Repair.Slots
import Verif.Repair.Copies
import Verif.Repair.Colour
import Verif.Repair.Placeholders
import Verif.Repair.StorePlacement
import Verif.Repair.PhiRepair
import Verif.Repair.LoopScope
import Verif.Parser.SplitJson
import Verif.Cost.Theorems
import Verif.Rules.Transform
import Verif.Sfs.BuildTheorems
import Verif.SymExec.Schedule
import Verif.Sfs.BuildWitness
import Verif.Sfs.BuildReal
import Verif.Sfs.EvmSpec
import Verif.Sfs.EndToEnd
import Verif.Sfs.EndToEndExample
import Verif.Program.Spec
import Verif.Program.Lemmas
import Verif.Program.Generic
import Verif.Program.Theorems
import Verif.Program.Compile
import Verif.Program.ExampleDefs
import Verif.Program.Example
import Verif.Program.FlatSpec
import Verif.Program.Emit
import Verif.Program.Flat
import Verif.Program.FlatLemmas
import Verif.Program.FlatOrder
import Verif.Program.FlatTheorems
import Verif.Program.FlatExample
import Verif.Inline.Spec
import Verif.Inline.Model
import Verif.Inline.Shape
import Verif.Inline.Path
import Verif.Inline.Site
import Verif.Inline.Env
import Verif.Inline.Sim
import Verif.Inline.Lockstep
import Verif.Inline.Ok
import Verif.Inline.Kinds
import Verif.Inline.SsaAfter
import Verif.Inline.OkAfter
import Verif.Inline.ObjAfter
import Verif.Inline.Pass
import Verif.Inline.PassProof
import Verif.Inline.Check
import Verif.Inline.Example
import Verif.Prep.Body
import Verif.Prep.Merge
import Verif.Prep.Combine
import Verif.Prep.Check
import Verif.Prep.Rename
import Verif.Prep.RenameOk
import Verif.Prep.TidyAfter
import Verif.Prep.Pipeline
import Verif.Prep.Example
import Verif.Lower.Model
import Verif.Lower.Spec
import Verif.Lower.Split
import Verif.Lower.Deco
import Verif.Lower.Env
import Verif.Lower.Sim
import Verif.Lower.Blocks
import Verif.Lower.Runs
import Verif.Lower.Parts
import Verif.Lower.Step
import Verif.Lower.Loop
import Verif.Lower.Insert
import Verif.Lower.Theorem
import Verif.Lower.Fine
import Verif.Lower.View
import Verif.Lower.Check
import Verif.Front.Spec
import Verif.Front.Part
import Verif.Front.Inline
import Verif.Front.Combine
import Verif.Front.Theorem
import Verif.Front.Check
import Verif.Whole.Names
import Verif.Whole.Spec
import Verif.Whole.Emit
import Verif.Whole.Flat
import Verif.Whole.Lowered
import Verif.Whole.Theorem
import Verif.Whole.ExampleDefs
import Verif.Whole.Example
import Verif.Parser.Model
import Verif.Parser.Spec
import Verif.Parser.Blocks
import Verif.Parser.Theorem
import Verif.Parser.Graph
import Verif.Parser.Example
import Verif.Parser.Builtins
import Verif.Parser.BuiltinsProof
import Verif.Whole.Document
import Verif.Whole.DocumentExample
import Verif.Stored.Model
import Verif.Stored.Spec
import Verif.Stored.Block
import Verif.Stored.Emit
import Verif.Stored.Theorems
import Verif.Stored.Example
import Verif.Stored.Recursion
import Verif.Stored.RecursionDefs
import Verif.Program.Exec
import Verif.Nested.Model
import Verif.Nested.Spec
import Verif.Nested.Passes
import Verif.Nested.Theorem
import Verif.Nested.Same
import Verif.Nested.Example
import Verif.Nested.CompileSpec
import Verif.Nested.Compile
import Verif.Nested.CompileExample
import Verif.Permute.Model
import Verif.Permute.Spec
import Verif.Permute.Partial
import Verif.Permute.Drop
import Verif.Permute.Bottom
import Verif.Permute.Good
import Verif.Permute.Measure
import Verif.Permute.Surplus
import Verif.Permute.Rounds
import Verif.Permute.Rounds2
import Verif.Permute.Total
import Verif.Greedy.Model
import Verif.Greedy.Track
import Verif.Greedy.Loop
import Verif.Greedy.Theorems
import Verif.Whole.Stored
import Verif.Whole.StoredExample
import Verif.Greedy.Registers
import Verif.Greedy.Writes
import Verif.Greedy.Alternative
import Verif.Greedy.Unused
import Verif.Greedy.Permutation
import Verif.Greedy.Trim
import Verif.Greedy.Reach
import Verif.Greedy.Order
import Verif.Greedy.Levels
import Verif.Greedy.Runs
import Verif.Greedy.SortLoop
import Verif.Greedy.Target
import Verif.Greedy.Effects
import Verif.Repair.Cells
import Verif.Repair.Driver
import Verif.Repair.Assembly
import Verif.Repair.Program
import Verif.Consts.Model
import Verif.Consts.Spec
import Verif.Consts.Visit
import Verif.Consts.Theorem
import Verif.Consts.Main
import Verif.Consts.Example
import Verif.Graphs.Dominance
import Verif.Layout.Depth
import Verif.Lower.Analyse
import Verif.Whole.Analysed
import Verif.Whole.AnalysedExample
import Verif.Layout.Origin
import Verif.Layout.OriginExample
import Verif.Layout.Distinct
import Verif.Whole.PipelineSpec
import Verif.Whole.Pipeline
import Verif.Whole.PipelineExample
import Verif.Sfs.BuildFrom
import Verif.Program.Assigned
import Verif.Program.AssignedExample
import Verif.Whole.Tags
import Verif.Sfs.BuildIds
import Verif.Greedy.From
import Verif.Whole.Scheduled
import Verif.Whole.ScheduledExample
import Verif.Stored.Assigned
import Verif.Whole.StoredPipeline
import Verif.Whole.StoredPipelineExample
import Verif.Solc.Output
import Verif.Solc.Directory
import Verif.Solc.Settings
import Verif.Solc.Main
import Verif.Solc.Frequency
import Verif.Repair.Kept
import Verif.Stored.Kept
import Verif.Stored.KeptPlaces
import Verif.Stored.Chosen
import Verif.Repair.DepthOption
import Verif.Stored.DomTree
import Verif.Stored.Single
import Verif.Whole.Placed
import Verif.Whole.PlacedExample
import Verif.Whole.PlacedRun
import Verif.Repair.Reused
import Verif.Nested.Placed
import Verif.Nested.PlacedExample
import Verif.Nested.Command
import Verif.Nested.CommandExample
import Verif.Inline.Order
import Verif.Inline.OrderExample
import Verif.Prep.Order
import Verif.Stored.BuildTree
import Verif.Stored.Once
import Verif.Stored.Reachable
import Verif.Stored.Addresses
