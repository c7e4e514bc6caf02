import Verif.Seq
import Verif.SeqLemmas
import Verif.Exact
import Verif.Net
import Verif.NetLemmas
import Verif.Split
import Verif.Grid
import Verif.GridLemmas
import Verif.GridSpec
import Verif.Proc
import Verif.Hier
import Verif.Dist0
import Verif.Dist1
import Verif.Dist2
import Verif.Driver
import Verif.Dist3
import Verif.PropsGrid
import Verif.Spec
import Verif.SweepFacts
import Verif.Examples
import Verif.PropsSweep
import Verif.DriverFacts
import Verif.PropsDriver
import Verif.Visit
import Verif.RunNet
import Verif.PropsDist
import Verif.EndToEnd
import Verif.EndToEnd2
import Verif.Causal
import Verif.Construct
import Verif.PropsConstruct
import Verif.Setup
import Verif.PropsSetup
import Verif.PropsNoStart
import Verif.RunStuck
import Verif.LocalCex
import Verif.AtMgrit
import Verif.PropsAt
import Verif.PropsAtConv
import Verif.Inexact
import Verif.PropsInexact
import Verif.PropsAtPar
import Verif.Vectors
import Verif.PropsVectors
import Verif.Machine
import Verif.PropsMachine
import Verif.Linear
import Verif.Apps
import Verif.PropsApps1
import Verif.PropsApps2
import Verif.PropsApps3
import Verif.PropsApps4
import Verif.Petsc
import Verif.PropsPetsc
import Verif.Log
import Verif.PropsLocal1
import Verif.Loc0
import Verif.Loc1
import Verif.Loc2
import Verif.Loc3
import Verif.Loc4
import Verif.Loc5
import Verif.Loc6
import Verif.Loc7
import Verif.Loc8
import Verif.Loc9
import Verif.PropsLocal2
import Verif.PySet
import Verif.PySetFacts
import Verif.PropsPySet
import Verif.TwoLevel
import Verif.PropsAlgo
import Verif.Param
import Verif.PropsParam
import Verif.Crash
import Verif.Crash2
import Verif.PropsCrash
import Verif.PropsCalls
import Verif.PropsTime
import Verif.PropsLonger
import Verif.PropsOrder
import Verif.Mesh
import Verif.PropsMesh
import Verif.PropsMshFile
import Verif.GetDP
import Verif.PropsGetDP
import Verif.PropsOutput
import Verif.PropsApps5
import Verif.PropsBdf
import Verif.PropsTol
import Verif.Shipped
import Verif.PropsShipped
import Verif.PetscHeat
import Verif.PropsPetscHeat
import Verif.PropsPetscTransfer
import Verif.Refs
import Verif.RefsFacts
import Verif.RefsSim
import Verif.PropsRefs
import Verif.Multi
import Verif.Contract
import Verif.PropsConv
import Verif.PropsConv2
import Verif.PropsJump
import Verif.Orbit
import Verif.PropsOrbit
import Verif.PropsLinear
import Verif.PropsCount
import Verif.Space
import Verif.PropsSpace
import Verif.Taylor
import Verif.PropsAccuracy
import Verif.Floats
import Verif.Trace
import Verif.Plots
import Verif.PlotsLemmas
import Verif.PropsPlots
import Verif.Work
import Verif.PropsWork
import Verif.JlSolver
import Verif.PropsJl
import Verif.Phase
import Verif.PropsPhase
import Verif.PropsRadius
import Verif.Raise
import Verif.PropsRaise
import Verif.Messages
import Verif.PropsMessages
import Verif.Rounding
import Verif.PropsRounding
import Verif.Forms
import Verif.Firedrake
import Verif.PropsFiredrake
import Verif.Burgers
import Verif.Brouwer
import Verif.PropsBurgers
import Verif.PropsGrayScott
import Verif.PropsImplicit
import Verif.PropsNewton
import Verif.Custom
import Verif.PropsCustom
import Verif.Stale
import Verif.PropsStale
import Verif.Files
import Verif.PropsFiles
import Verif.Names
import Verif.PropsNames
import Verif.Coarsening
import Verif.PropsCoarsening
import Verif.Workflow
import Verif.WorkflowProofs
import Verif.PropsWorkflow
import Verif.Double
import Verif.DoubleProofs
import Verif.PropsDouble
import Verif.Ieee
import Verif.IeeeProofs
import Verif.PropsIeee
import Verif.Session
import Verif.PropsSession
import Verif.Elements
import Verif.PropsElements
import Verif.Shell
import Verif.PropsShell
import Verif.Region
import Verif.PropsRegion
import Verif.PropsBalance
import Verif.Memory
import Verif.MemoryProofs
import Verif.PropsMemory
import Verif.Depth
import Verif.DepthProofs
import Verif.PropsDepth
import Verif.MachineGrid
import Verif.MachineGridProofs
import Verif.PropsMachineGrid
import Verif.PropsMachineDepth
import Verif.PropsRedundant
import Verif.PropsRedundant2
import Verif.PropsRedundant3
import Verif.PropsRedundant4
import Verif.PropsRedundant5
