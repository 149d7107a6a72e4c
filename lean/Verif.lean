import Verif.SimData.Model
import Verif.SimData.Lemmas
import Verif.SimData.SortLemmas
import Verif.SimData.Steps
import Verif.SimData.Spec
import Verif.SimData.Refine
import Verif.SimData.Props
import Verif.SimData.Columns
import Verif.Parallel.Buffer
import Verif.Parallel.GlobalIds
import Verif.GFlow.Boundary
import Verif.GFlow.BoundaryProps
import Verif.GFlow.RunLoop
import Verif.GFlow.RunLoopProps
import Verif.GFlow.Registry
import Verif.Domain.Grid
import Verif.Domain.Stencil
import Verif.Domain.Cells
import Verif.Domain.CellsProps
import Verif.Domain.CellsWitness
import Verif.Domain.Within
import Verif.Domain.Large
import Verif.Domain.Remake
import Verif.Forces.ForceMaster
import Verif.Forces.Handlers
import Verif.Forces.PairForces
import Verif.Forces.Bonds
import Verif.Forces.AngleChain
import Verif.Other.Group
import Verif.Integrators.StepSize
import Verif.Integrators.Verlet
import Verif.Other.Bounds
import Verif.Parallel.KDTree
import Verif.Other.Eval
import Verif.Utility.FileParse
import Verif.Utility.TreeParser
import Verif.Utility.ArgParse
import Verif.Data.Recording
import Verif.Data.MultiGraph
import Verif.Data.StoreLoad
import Verif.Data.StoreFrame
import Verif.Utility.Database
import Verif.Data.Clustering
import Verif.Data.Bins
import Verif.Modifiers.Removers
import Verif.Modifiers.Walls
import Verif.Modifiers.Motion
import Verif.Modifiers.BodyForces
import Verif.Modifiers.Stream
import Verif.Modifiers.Demon
import Verif.Creators.Regions
import Verif.Creators.Wall
import Verif.Creators.Circle
import Verif.Creators.Fill
import Verif.Creators.Thermal
import Verif.Creators.Fixers
import Verif.Creators.Polymer
import Verif.Creators.BoxCreator
import Verif.SimData.Maintain
import Verif.Utility.VecMem
import Verif.Utility.ForLoop
import Verif.Domain.LinkedList
import Verif.Domain.Overlap
import Verif.GFlow.Relaxation
import Verif.Visual.RayTree
import Verif.Integrators.Overdamped
import Verif.Integrators.Langevin
import Verif.Forces.DemonWall
import Verif.Creators.SetupFile
import Verif.Data.Observables
import Verif.Data.Correlation
import Verif.Data.RunDirectory
import Verif.Data.Summary
import Verif.Data.VolumePlot
import Verif.Data.GroupAngular
import Verif.Data.TwoGroups
import Verif.Data.BinForce
import Verif.GFlow.ForceSum
import Verif.GFlow.Trajectory
import Verif.Data.Percolation
import Verif.Visual.Palette
import Verif.Visual.Plot
import Verif.Visual.Frames
import Verif.Visual.Colours
import Verif.Data.Fields
import Verif.Parallel.Rounds
import Verif.Parallel.Exchange
import Verif.Parallel.Ghosts
import Verif.Parallel.Collective
import Verif.Parallel.Gather
import Verif.Parallel.Driver
import Verif.Data.Video
import Verif.Creators.PolymerArea
import Verif.Domain.GhostPairs
import Verif.Domain.SkinDepth
import Verif.Parallel.GhostForces
import Verif.Visual.Camera
import Verif.Creators.Seeds
import Verif.Creators.Lifecycle
import Verif.Parallel.ParallelRun
import Verif.Parallel.ParallelMotion
import Verif.Parallel.ParallelLists
import Verif.Parallel.ParallelWhole
import Verif.Parallel.ParallelConverge
import Verif.Integrators.Convergence
import Verif.GFlow.TrueMotion
import Verif.Integrators.Volume
import Verif.Integrators.Energy
import Verif.Integrators.Rotation
import Verif.Data.RunFigures
import Verif.Data.Tables
import Verif.Modifiers.DemonRecords
import Verif.GFlow.Symmetry
import Verif.Creators.Templates
import Verif.Creators.Areas
import Verif.Creators.Parameters
import Verif.Parallel.ParallelTrue
import Verif.Creators.Integrators
import Verif.GFlow.SoftPairs
import Verif.GFlow.SoftSpheres
import Verif.GFlow.SoftMotion
import Verif.GFlow.SoftRun
import Verif.Utility.Vectors
import Verif.GFlow.Reversal
import Verif.GFlow.Walls
import Verif.Integrators.RoughSteps
import Verif.GFlow.WalledMotion
import Verif.GFlow.Mirrors
import Verif.GFlow.BondedRun
import Verif.GFlow.BondedMotion
import Verif.GFlow.OwnTimes
import Verif.GFlow.Settings
import Verif.Domain.OwnPairs
import Verif.Domain.SerialBuild
