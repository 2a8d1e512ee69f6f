import Verif.Model.Anim
import Verif.Model.Approx
import Verif.Model.Automaton
import Verif.Model.Basic
import Verif.Model.Build
import Verif.Model.CheckRun
import Verif.Model.Click
import Verif.Model.Colors
import Verif.Model.Core
import Verif.Model.Counterexample
import Verif.Model.Directions
import Verif.Model.Draw
import Verif.Model.Expm
import Verif.Model.Heap
import Verif.Model.Lp
import Verif.Model.LpUtil
import Verif.Model.Mode
import Verif.Model.Plot
import Verif.Model.Report
import Verif.Model.Setup
import Verif.Model.Sim
import Verif.Model.SimLines
import Verif.Model.Solver
import Verif.Model.StateSet
import Verif.Model.Symbolic
import Verif.Model.TimeElapse
import Verif.Model.Trace
import Verif.Model.Util
import Verif.Model.Verts
import Verif.Model.Viz
import Verif.Proofs.Accept
import Verif.Proofs.Accept2
import Verif.Proofs.Accept3
import Verif.Proofs.Approx
import Verif.Proofs.ApproxAccept
import Verif.Proofs.ApproxNames
import Verif.Proofs.ApproxStep
import Verif.Proofs.Attain
import Verif.Proofs.Bound
import Verif.Proofs.Built
import Verif.Proofs.CeBlk
import Verif.Proofs.CeHeap
import Verif.Proofs.CeInv
import Verif.Proofs.CeMode
import Verif.Proofs.CeNames
import Verif.Proofs.CeRun
import Verif.Proofs.CeRun2
import Verif.Proofs.CeRun3
import Verif.Proofs.CeSt
import Verif.Proofs.CeTrail
import Verif.Proofs.Chull
import Verif.Proofs.Conc
import Verif.Proofs.Conc2
import Verif.Proofs.Construct
import Verif.Proofs.CoreAgg
import Verif.Proofs.CoreApprox
import Verif.Proofs.CoreDeagg
import Verif.Proofs.CoreInv
import Verif.Proofs.CoreLp
import Verif.Proofs.CoreNode
import Verif.Proofs.CorePop
import Verif.Proofs.CorePost
import Verif.Proofs.CoreReplay
import Verif.Proofs.CoreReplay2
import Verif.Proofs.CoreReplay3
import Verif.Proofs.CoreRun
import Verif.Proofs.CoreSetup
import Verif.Proofs.CoreStep
import Verif.Proofs.Directions
import Verif.Proofs.Dot
import Verif.Proofs.Dwell
import Verif.Proofs.Flow
import Verif.Proofs.Grow
import Verif.Proofs.Guard
import Verif.Proofs.Hist
import Verif.Proofs.Inst
import Verif.Proofs.Inv
import Verif.Proofs.Lgg
import Verif.Proofs.LggCov
import Verif.Proofs.LggExact
import Verif.Proofs.LggInv
import Verif.Proofs.LggLemma
import Verif.Proofs.LggReal
import Verif.Proofs.LggRun
import Verif.Proofs.LpBasic
import Verif.Proofs.Micro
import Verif.Proofs.NoLo
import Verif.Proofs.NodeShape
import Verif.Proofs.Ops
import Verif.Proofs.Ops2
import Verif.Proofs.PlotLp
import Verif.Proofs.Prepared
import Verif.Proofs.Replace
import Verif.Proofs.Repr
import Verif.Proofs.Reset
import Verif.Proofs.SatL
import Verif.Proofs.Script
import Verif.Proofs.SetOk
import Verif.Proofs.Shape
import Verif.Proofs.Simplex
import Verif.Proofs.SolverLemmas
import Verif.Proofs.StateSet
import Verif.Proofs.Term
import Verif.Proofs.Term2
import Verif.Proofs.Term3
import Verif.Proofs.Term4
import Verif.Proofs.Term5
import Verif.Proofs.Term6
import Verif.Proofs.Term7
import Verif.Proofs.TimeElapse
import Verif.Proofs.Total
import Verif.Proofs.TtLoop
import Verif.Proofs.Zip
import Verif.Props.Agg
import Verif.Props.Anim
import Verif.Props.Approx
import Verif.Props.ApproxAccept
import Verif.Props.Automaton
import Verif.Props.Automaton2
import Verif.Props.Bound
import Verif.Props.Build
import Verif.Props.CheckRun
import Verif.Props.Chull
import Verif.Props.Click
import Verif.Props.Clone
import Verif.Props.Colors
import Verif.Props.Concrete
import Verif.Props.Counterexample
import Verif.Props.Dag
import Verif.Props.Deagg
import Verif.Props.Directions
import Verif.Props.Draw
import Verif.Props.EmptyMink
import Verif.Props.EndToEnd
import Verif.Props.Endless
import Verif.Props.Examples
import Verif.Props.Findings
import Verif.Props.Guard
import Verif.Props.Inputs
import Verif.Props.Invariant
import Verif.Props.LggEx
import Verif.Props.LggExact
import Verif.Props.LggJump
import Verif.Props.LggRunEx
import Verif.Props.LggSafe
import Verif.Props.Lp
import Verif.Props.Ops
import Verif.Props.OpsEx
import Verif.Props.Plot
import Verif.Props.PlotAcc
import Verif.Props.Query
import Verif.Props.Reach
import Verif.Props.Report
import Verif.Props.RunEx
import Verif.Props.Safe
import Verif.Props.SamePath
import Verif.Props.Script
import Verif.Props.Sim
import Verif.Props.SimLines
import Verif.Props.SimStride
import Verif.Props.StaleRow
import Verif.Props.Sums
import Verif.Props.Symbolic
import Verif.Props.Term
import Verif.Props.TimeElapse
import Verif.Props.Trace
import Verif.Props.Tt
import Verif.Props.TtRun
import Verif.Props.TtStop
import Verif.Props.Util
import Verif.Props.Verts
import Verif.Props.Viz
import Verif.Props.VizDraws
import Verif.Props.VizOrder
import Verif.Props.VizRun
import Verif.Spec.Continuous
import Verif.Spec.Hybrid
import Verif.Spec.Moves
import Verif.Spec.Ode
import Verif.Spec.Ops
import Verif.Spec.Rep
import Verif.Spec.Run
import Verif.Spec.Script
import Verif.Spec.Sets
import Verif.Spec.Vec
import Verif.Spec.Witness
