import Verif.Model.Base
import Verif.Model.State
import Verif.Model.Build
import Verif.Model.Sim
import Verif.Model.Taxi
import Verif.Model.Reach
import Verif.Proofs.Basic
import Verif.Proofs.Prim
import Verif.Proofs.Frames
import Verif.Proofs.SInv
import Verif.Proofs.Static
import Verif.Proofs.FInv
import Verif.Proofs.Decomp
import Verif.Proofs.Decomp2
import Verif.Proofs.Api
import Verif.Proofs.Inv
import Verif.Proofs.Shape
import Verif.Proofs.Trace
import Verif.Proofs.Phase
import Verif.Proofs.EInv
import Verif.Proofs.Life
import Verif.Spec.Trace
import Verif.Props.Demo
import Verif.Props.Structure
import Verif.Props.Trips
import Verif.Model.Query
import Verif.Proofs.Count
import Verif.Proofs.TraceExt
import Verif.Props.Counts
import Verif.Model.Route
import Verif.Spec.Route
import Verif.Proofs.Lanes
import Verif.Proofs.Route
import Verif.Proofs.Choice
import Verif.Proofs.Enforced
import Verif.Props.Routes
import Verif.Proofs.Kin
import Verif.Proofs.KinInv
import Verif.Proofs.Gap
import Verif.Proofs.TravelTime
import Verif.Proofs.Forward
import Verif.Props.Kinematics
import Verif.Proofs.Capacity
import Verif.Props.Capacity
import Verif.Spec.Signal
import Verif.Proofs.Signal
import Verif.Props.Signals
import Verif.Spec.Run
import Verif.Proofs.UpTo
import Verif.Proofs.Exec
import Verif.Proofs.Taxi
import Verif.Proofs.Demand
import Verif.Proofs.RFrame
import Verif.Props.Runs
import Verif.Spec.Taxi
import Verif.Spec.Demand
import Verif.Spec.Diagram
import Verif.Spec.RouteChoice
import Verif.Props.Taxi
import Verif.Props.Demand
import Verif.Props.Parameters
import Verif.Props.RouteChoice
import Verif.Model.Logs
import Verif.Spec.Logs
import Verif.Proofs.Logs
import Verif.Props.Logs
import Verif.Model.Analyzer
import Verif.Spec.Stats
import Verif.Proofs.Stats
import Verif.Props.Stats
import Verif.Model.Areas
import Verif.Spec.Areas
import Verif.Proofs.Areas
import Verif.Props.Areas
import Verif.Model.Random
import Verif.Model.Solvers
import Verif.Model.Alns
import Verif.Spec.Solvers
import Verif.Proofs.Random
import Verif.Proofs.Solvers
import Verif.Proofs.Alns
import Verif.Props.Solvers
import Verif.Props.Alns
import Verif.Model.Scenario
import Verif.Spec.Scenario
import Verif.Proofs.Scenario
import Verif.Proofs.Scenario2
import Verif.Proofs.Scenario3
import Verif.Props.Scenario
import Verif.Spec.Safe
import Verif.Proofs.Safe
import Verif.Proofs.SafeStep
import Verif.Proofs.Quiet
import Verif.Props.Safe
import Verif.Spec.Lone
import Verif.Proofs.Lone
import Verif.Props.Lone
import Verif.Spec.LinkTimes
import Verif.Proofs.LinkTimes
import Verif.Proofs.InstantTimes
import Verif.Props.LinkTimes
import Verif.Model.Edie
import Verif.Spec.Edie
import Verif.Proofs.Rows
import Verif.Proofs.Edie
import Verif.Proofs.Trajs
import Verif.Props.Edie
import Verif.Model.Tables
import Verif.Proofs.Tables
import Verif.Props.Tables
import Verif.Proofs.Entered
import Verif.Props.AreaTable
import Verif.Proofs.LogState
import Verif.Props.VehTable
import Verif.Props.Mfd
import Verif.Props.AlnsSafe
import Verif.Props.TaxiStats
import Verif.Props.Objectives
import Verif.Model.Delay
import Verif.Spec.Delay
import Verif.Proofs.Floyd
import Verif.Proofs.FreeFlow
import Verif.Props.Delay
import Verif.Model.OdTable
import Verif.Spec.OdTable
import Verif.Proofs.OdTable
import Verif.Props.OdTable
import Verif.Props.GroupRatios
import Verif.Props.OnT
import Verif.Props.Ways
import Verif.Props.RandomRoutes
import Verif.Model.Externality
import Verif.Spec.Externality
import Verif.Proofs.Externality
import Verif.Props.Externality
import Verif.Model.TimeSpace
import Verif.Spec.TimeSpace
import Verif.Proofs.TimeSpace
import Verif.Proofs.Search
import Verif.Props.TimeSpace
import Verif.Model.Grid
import Verif.Spec.Grid
import Verif.Proofs.Grid
import Verif.Props.Grid
import Verif.Props.Departure
import Verif.Model.CppState
import Verif.Model.CppSim
import Verif.Model.CppTimes
import Verif.Model.CppBuild
import Verif.Spec.CppTimes
import Verif.Spec.CppRoutes
import Verif.Proofs.CppBasic
import Verif.Proofs.CppDijkstra
import Verif.Proofs.CppInv
import Verif.Proofs.CppInvOps
import Verif.Proofs.CppInvMove
import Verif.Proofs.CppInvRun
import Verif.Proofs.CppInvTransfer
import Verif.Proofs.CppInvStep
import Verif.Proofs.CppInvBuild
import Verif.Spec.CppPlaces
import Verif.Proofs.CppLocal
import Verif.Proofs.CppThreads
import Verif.Proofs.CppChunk
import Verif.Spec.CppThreads
import Verif.Props.CppTimes
import Verif.Props.CppRoutes
import Verif.Props.CppExample
import Verif.Props.CppPlaces
import Verif.Props.CppThreads
import Verif.Props.CppChunk
import Verif.Spec.CppFlow
import Verif.Proofs.CppActs
import Verif.Proofs.CppFlow
import Verif.Props.CppFlow
import Verif.Spec.CppLife
import Verif.Proofs.CppEvents
import Verif.Proofs.CppLife
import Verif.Proofs.CppEnds
import Verif.Proofs.CppTrips
import Verif.Proofs.CppLifeInv
import Verif.Props.CppLife
import Verif.Spec.CppTrace
import Verif.Proofs.CppTrace
import Verif.Proofs.CppRep
import Verif.Proofs.CppHistory
import Verif.Proofs.CppRuns
import Verif.Proofs.CppCaps
import Verif.Proofs.CppSignals
import Verif.Props.CppTrace
import Verif.Spec.CppKin
import Verif.Proofs.CppKin
import Verif.Proofs.CppKinMove
import Verif.Proofs.CppKinRun
import Verif.Proofs.CppKinStay
import Verif.Proofs.CppKinStep
import Verif.Proofs.CppKinReach
import Verif.Props.CppKin
import Verif.Model.CppLog
import Verif.Spec.CppLog
import Verif.Proofs.CppPass
import Verif.Proofs.CppLog
import Verif.Proofs.CppLogRun
import Verif.Props.CppLog
import Verif.Props.CppRows
import Verif.Spec.CppPlan
import Verif.Proofs.CppFollow
import Verif.Proofs.CppFollowReach
import Verif.Proofs.CppCalm
import Verif.Props.CppPlan
import Verif.Model.CppDta
import Verif.Spec.CppDta
import Verif.Proofs.CppDta
import Verif.Proofs.CppDtaTrace
import Verif.Props.CppDta
import Verif.Proofs.CppExt
import Verif.Proofs.CppPos
import Verif.Props.CppExt
import Verif.Proofs.CppArr
import Verif.Spec.CppSwap
import Verif.Proofs.CppSwap
import Verif.Props.CppSwap
import Verif.Model.CppSolve
import Verif.Spec.CppSolve
import Verif.Props.CppSolve
import Verif.Spec.CppLanes
import Verif.Proofs.CppEntries
import Verif.Proofs.CppLanes
import Verif.Props.CppLanes
import Verif.Spec.CppPace
import Verif.Proofs.CppPace
import Verif.Proofs.CppPaceRun
import Verif.Props.CppPace
import Verif.Spec.CppSpeed
import Verif.Proofs.CppStages
import Verif.Proofs.CppSpeed
import Verif.Proofs.CppSpeedRun
import Verif.Props.CppSpeed
import Verif.Model.CppStats
import Verif.Spec.CppStats
import Verif.Proofs.CppStats
import Verif.Proofs.CppStatsRun
import Verif.Proofs.CppStatsSum
import Verif.Props.CppStats
import Verif.Spec.CppChoice
import Verif.Proofs.CppChoice
import Verif.Proofs.CppChoiceReach
import Verif.Props.CppChoice
import Verif.Spec.CppPrefs
import Verif.Proofs.CppPrefs
import Verif.Props.CppPrefs
import Verif.Spec.CppDet
import Verif.Proofs.CppDet
import Verif.Proofs.CppDetReach
import Verif.Props.CppDet
import Verif.Spec.CppWork
import Verif.Proofs.CppWork
import Verif.Proofs.CppWorkTurn
import Verif.Props.CppWork
import Verif.Spec.CppCarry
import Verif.Proofs.CppCarry
import Verif.Proofs.CppCarryTurn
import Verif.Props.CppCarry
import Verif.Spec.Carry
import Verif.Proofs.Carry
import Verif.Proofs.CarryTurn
import Verif.Props.Carry
import Verif.Spec.Work
import Verif.Proofs.Work
import Verif.Props.Work
import Verif.Model.CppWrap
import Verif.Spec.CppWrap
import Verif.Proofs.CppWrap
import Verif.Props.CppWrapExample
import Verif.Props.CppWrap
import Verif.Props.CppWrapRuns
import Verif.Props.CppWrapLog
import Verif.Spec.CppGaps
import Verif.Proofs.CppGaps
import Verif.Props.CppGaps
import Verif.Model.CppRandom
import Verif.Spec.CppRandom
import Verif.Proofs.CppRandom
import Verif.Proofs.CppRandomEnds
import Verif.Props.CppRandom
import Verif.Model.CppQuery
import Verif.Props.CppQuery
import Verif.Model.CppVeh
import Verif.Props.CppVeh
import Verif.Model.Osm
import Verif.Spec.Osm
import Verif.Proofs.Osm
import Verif.Props.Osm
import Verif.Props.OsmImport
import Verif.Model.CppNames
import Verif.Spec.CppNames
import Verif.Props.CppNames
import Verif.Model.Osm2
import Verif.Spec.Osm2
import Verif.Props.Osm2
import Verif.Model.CppCsr
import Verif.Spec.CppCsr
import Verif.Proofs.CppCsr
import Verif.Props.CppCsr
import Verif.Model.CppDemand
import Verif.Spec.CppDemand
import Verif.Proofs.CppDemand
import Verif.Props.CppDemand
import Verif.Model.CppRequest
import Verif.Spec.CppRequest
import Verif.Props.CppRequest
import Verif.Model.CppEntries
import Verif.Spec.CppEntries
import Verif.Props.CppEntries
import Verif.Model.CppShown
import Verif.Spec.CppShown
import Verif.Props.CppShown
import Verif.Model.Csv
import Verif.Spec.Csv
import Verif.Props.Csv
import Verif.Model.Gps
import Verif.Spec.Gps
import Verif.Props.Gps
import Verif.Spec.Agree
import Verif.Props.Agree
import Verif.Props.AgreeStep
import Verif.Props.AgreeVeh
import Verif.Spec.AgreeBuild
import Verif.Props.AgreeBuild
import Verif.Props.AgreeFinal
