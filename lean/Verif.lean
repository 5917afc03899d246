import Verif.Model.IMap
import Verif.Model.Sim
import Verif.Spec.Quantum
import Verif.Proof.IMap
import Verif.Proof.Wave
import Verif.Proof.Bits
import Verif.Proof.View
import Verif.Proof.Pair
import Verif.Proof.Base
import Verif.Proof.Flush
import Verif.Proof.Mats
import Verif.Proof.Gates
import Verif.Proof.Gates2
import Verif.Proof.Norm
import Verif.Proof.Measure
import Verif.Proof.Ids
import Verif.Proof.Order
import Verif.Model.Exp
import Verif.Proof.Exp
import Verif.Proof.Exp2
import Verif.Spec.Machine
import Verif.Model.Api
import Verif.Proof.Refine
import Verif.Proof.Observe
import Verif.Proof.Local
import Verif.Proof.Walk
import Verif.Proof.Walk2
import Verif.Proof.Operands
import Verif.Proof.Examples
import Verif.Props.Decoding
import Verif.Props.Defs
import Verif.Props.Circuit
import Verif.Props.Operands
import Verif.Props.Observation
import Verif.Spec.Store
import Verif.Proof.Text
import Verif.Proof.Heap
import Verif.Model.Heap
import Verif.Props.Heap
import Verif.Props.Range
import Verif.Props.Callables
import Verif.Props.Output
import Verif.Props.Runner
import Verif.Props.Binding
import Verif.Props.Math
import Verif.Spec.Lines
import Verif.Spec.Device
import Verif.Model.Backend
import Verif.Proof.PauliBasis
import Verif.Props.BackDefs
import Verif.Proof.Backend
import Verif.Proof.Backend2
import Verif.Proof.BackFrame
import Verif.Proof.Backend3
import Verif.Proof.Backend4
import Verif.Proof.BackReach
import Verif.Props.Backend
import Verif.Proof.Seeds
import Verif.Props.SessionDefs
import Verif.Props.Session
import Verif.Proof.Twin
import Verif.Proof.Twin2
import Verif.Proof.TwinBack
import Verif.Props.HashOrder
import Verif.Spec.Unitary
import Verif.Model.Apply
import Verif.Proof.Matrix
import Verif.Proof.Apply
import Verif.Proof.Apply2
import Verif.Props.Apply
import Verif.Model.QubitArray
import Verif.Proof.QubitArray
import Verif.Props.QubitArray
import Verif.Proof.TolNorm
import Verif.Proof.TolBase
import Verif.Proof.TolFlush
import Verif.Proof.TolGates
import Verif.Proof.TolGates2
import Verif.Proof.TolExp
import Verif.Proof.TolRun
import Verif.Props.TolDefs
import Verif.Proof.TolTrack
import Verif.Proof.TolDrift
import Verif.Props.Tolerance
import Verif.Props.DriftDefs
import Verif.Proof.TolMeasure
import Verif.Proof.TolAll
import Verif.Props.Drift
import Verif.Model.Entry
import Verif.Props.Entry
import Verif.Props.Captures
import Verif.Props.Transcript
import Verif.Model.Values
import Verif.Spec.Values
import Verif.Proof.Values
import Verif.Proof.Strings
import Verif.Props.Values
import Verif.Model.Elementary
import Verif.Props.Elementary
import Verif.Props.Exact
import Verif.Props.ChanceDefs
import Verif.Proof.Streams
import Verif.Proof.Chance
import Verif.Proof.Shots
import Verif.Proof.Sparse
import Verif.Props.Chance
import Verif.Proof.Alike
import Verif.Proof.AlikeBack
import Verif.Props.Settled
import Verif.Props.Draws
import Verif.Props.IndexMap
import Verif.Props.Simulator
import Verif.Props.Sparsity
import Verif.Model.Rounded
import Verif.Model.Binary64
import Verif.Proof.RndNoise
import Verif.Proof.RndPass
import Verif.Proof.RndRot
import Verif.Proof.RndBase
import Verif.Proof.RndFlush
import Verif.Proof.RndGates
import Verif.Proof.RndGates2
import Verif.Proof.RndExp
import Verif.Proof.RndRun
import Verif.Proof.RndMeasure
import Verif.Proof.RndTrack
import Verif.Proof.RoundedExact
import Verif.Proof.RndAngles
import Verif.Proof.RndFrame
import Verif.Proof.Weigh
import Verif.Proof.WeighMeasure
import Verif.Model.RoundedBackend
import Verif.Proof.RoundedBackExact
import Verif.Props.RoundedDefs
import Verif.Props.Rounding
import Verif.Proof.RndBack4
import Verif.Props.TVDefs
import Verif.Proof.RndBack5
import Verif.Proof.RndDeaf
import Verif.Proof.TV
import Verif.Proof.TVShots
import Verif.Props.TotalVariation
import Verif.Model.Callback
import Verif.Proof.Callback
import Verif.Props.Callback
import Verif.Props.OddsDefs
import Verif.Proof.Iterate
import Verif.Proof.Sources
import Verif.Proof.Odds
import Verif.Props.Odds
import Verif.Model.Handler
import Verif.Props.Handler
import Verif.Model.Iterators
import Verif.Props.Iterators
import Verif.Props.TVDrawDefs
import Verif.Proof.TVDraw
import Verif.Proof.TVDrawShots
import Verif.Proof.TVSafe
import Verif.Props.TVDraw
import Verif.Model.Threads
import Verif.Props.ThreadDefs
import Verif.Proof.Threads
import Verif.Props.Threads
import Verif.Props.EndToEnd
import Verif.Props.Texts
import Verif.Model.Generic
import Verif.Props.GenericDefs
import Verif.Proof.Generic
import Verif.Proof.Generic2
import Verif.Proof.Generic3
import Verif.Proof.Generic4
import Verif.Props.GenericReal
import Verif.Proof.GenericExact
import Verif.Props.Generic
import Verif.Tests.Float
import Verif.Tests.FloatApply
import Verif.Model.GenericBackend
import Verif.Props.GenericBackDefs
import Verif.Props.GenericBackReal
import Verif.Proof.GenericBack
import Verif.Proof.GenericBack2
import Verif.Proof.GenericBackExact
import Verif.Props.GenericBack
import Verif.Tests.FloatBackend
import Verif.Props.ClassicalDefs
import Verif.Proof.Classical
import Verif.Proof.Classical2
import Verif.Proof.Classical3
import Verif.Proof.Classical4
import Verif.Props.Classical
import Verif.Props.ReversibleDefs
import Verif.Proof.Reversible
import Verif.Props.Reversible
import Verif.Props.ReversibleBackDefs
import Verif.Proof.ReversibleBack
import Verif.Props.ReversibleBack
import Verif.Props.Routes
import Verif.Tests.Runner
import Verif.Tests.Std
import Verif.Props.AmplitudeDefs
import Verif.Proof.Amplitude
import Verif.Props.Amplitude
import Verif.Props.OutcomeDefs
import Verif.Proof.Outcome
import Verif.Proof.Outcome2
import Verif.Props.Outcome
import Verif.Props.CourseDefs
import Verif.Proof.Course
import Verif.Proof.Course2
import Verif.Proof.Course3
import Verif.Props.Course
import Verif.Props.CourseDouble
import Verif.Model.GenericApply
import Verif.Props.GenericApplyDefs
import Verif.Proof.GenericApply
import Verif.Proof.GenericApply2
import Verif.Proof.GenericApplyExact
import Verif.Props.GenericApply
import Verif.Model.Memory
import Verif.Props.Memory
import Verif.Model.RoundedApply
import Verif.Proof.RoundedApplyExact
import Verif.Proof.RndApply
import Verif.Proof.RndApply2
import Verif.Proof.RndApply3
import Verif.Proof.RndApply4
import Verif.Props.RoundedApplyDefs
import Verif.Proof.RndApply5
import Verif.Props.RoundedApply
import Verif.Model.LineEnds
import Verif.Props.LineEndDefs
import Verif.Proof.LineEnds
import Verif.Props.LineEnds
import Verif.Proof.Within
import Verif.Props.RearrangeDefs
import Verif.Proof.Rearrange
import Verif.Props.Rearrange
import Verif.Props.RewriteDefs
import Verif.Proof.Rewrite
import Verif.Props.Rewrite
import Verif.Props.HandledDefs
import Verif.Proof.Handled
import Verif.Props.Handled
import Verif.Props.DeferredDefs
import Verif.Proof.Deferred
import Verif.Props.Deferred
import Verif.Props.KnownDefs
import Verif.Proof.Known
import Verif.Props.Known
import Verif.Props.CompiledDefs
import Verif.Proof.Compiled
import Verif.Props.Compiled
import Verif.Props.WorkaroundDefs
import Verif.Proof.Workaround
import Verif.Props.Workaround
import Verif.Props.RegistersDefs
import Verif.Proof.Registers
import Verif.Props.Registers
import Verif.Proof.RegistersChance
import Verif.Proof.RegistersWithin
import Verif.Props.RegistersRounded
import Verif.Proof.Sampling
import Verif.Props.Sampling
import Verif.Proof.Binomial
import Verif.Proof.Tally
import Verif.Props.SamplingRounded
import Verif.Props.SamplingDraws
import Verif.Proof.ChanceParts
import Verif.Props.SamplingTables
