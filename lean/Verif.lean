import Verif.Model.ConjugateGradient
import Verif.Model.DMat
import Verif.Model.Domain
import Verif.Model.Driver
import Verif.Model.Elements
import Verif.Model.Graph
import Verif.Model.Json
import Verif.Model.JsonText
import Verif.Model.Lifetimes
import Verif.Model.Materials
import Verif.Model.Mesh
import Verif.Model.Multipolar
import Verif.Model.Outcome
import Verif.Model.Parser
import Verif.Model.Results
import Verif.Model.RoundedCell
import Verif.Model.RoundedExpansion
import Verif.Model.RoundedGrid
import Verif.Model.Rounding
import Verif.Model.SMap
import Verif.Model.Solver
import Verif.Model.Triangles
import Verif.Proofs.Barycentric
import Verif.Proofs.Bernstein
import Verif.Proofs.BernsteinBasis
import Verif.Proofs.BernsteinComplete
import Verif.Proofs.BernsteinSpaces
import Verif.Proofs.Bonded
import Verif.Proofs.BoxIntegral
import Verif.Proofs.CGSolver
import Verif.Proofs.Carry
import Verif.Proofs.CarryIntegral
import Verif.Proofs.Components
import Verif.Proofs.Conductors
import Verif.Proofs.Congruent
import Verif.Proofs.CongruentField
import Verif.Proofs.ConjugateGradient
import Verif.Proofs.Couplings
import Verif.Proofs.CrossSection
import Verif.Proofs.Cycles
import Verif.Proofs.DMat
import Verif.Proofs.DomainBuild
import Verif.Proofs.DomainMesh
import Verif.Proofs.DomainTree
import Verif.Proofs.DriverBuild
import Verif.Proofs.DriverCell
import Verif.Proofs.DriverEvents
import Verif.Proofs.DriverField
import Verif.Proofs.DriverFolder
import Verif.Proofs.DriverInCell
import Verif.Proofs.DriverMatrix
import Verif.Proofs.DriverQuery
import Verif.Proofs.DriverReady
import Verif.Proofs.DriverSpec
import Verif.Proofs.DriverVacuum
import Verif.Proofs.ElementDivergence
import Verif.Proofs.ElementPatch
import Verif.Proofs.ElementPlates
import Verif.Proofs.ElementRegions
import Verif.Proofs.Elements
import Verif.Proofs.ElementsExist
import Verif.Proofs.Elliptic
import Verif.Proofs.EnergySplit
import Verif.Proofs.Eval
import Verif.Proofs.ExactRules
import Verif.Proofs.FieldDomains
import Verif.Proofs.FieldFiles
import Verif.Proofs.FieldFolders
import Verif.Proofs.FieldPaths
import Verif.Proofs.Fields
import Verif.Proofs.Floating
import Verif.Proofs.Flux
import Verif.Proofs.Galerkin
import Verif.Proofs.GalerkinLimit
import Verif.Proofs.GraphBasic
import Verif.Proofs.Green
import Verif.Proofs.Grid
import Verif.Proofs.Halved
import Verif.Proofs.HalvedFacts
import Verif.Proofs.HalvedMesh
import Verif.Proofs.HalvedRuns
import Verif.Proofs.Input
import Verif.Proofs.Interpolation
import Verif.Proofs.InterpolationLimit
import Verif.Proofs.JsonNumbers
import Verif.Proofs.JsonStrings
import Verif.Proofs.JsonText
import Verif.Proofs.JsonWrite
import Verif.Proofs.Lifetimes
import Verif.Proofs.Loops
import Verif.Proofs.Materials
import Verif.Proofs.MatrixQueries
import Verif.Proofs.Maximum
import Verif.Proofs.MidpointRule
import Verif.Proofs.Multipolar
import Verif.Proofs.Nearest
import Verif.Proofs.Order
import Verif.Proofs.Parser
import Verif.Proofs.Passive
import Verif.Proofs.Pieces
import Verif.Proofs.Plane
import Verif.Proofs.PlaneIntegral
import Verif.Proofs.PlanePieces
import Verif.Proofs.PlanePolynomial
import Verif.Proofs.PlateField
import Verif.Proofs.Plates
import Verif.Proofs.Prescribed
import Verif.Proofs.Quadrature
import Verif.Proofs.Redeclared
import Verif.Proofs.Refined
import Verif.Proofs.Regions
import Verif.Proofs.Relabel
import Verif.Proofs.Renumber
import Verif.Proofs.RenumberDriver
import Verif.Proofs.RenumberTriangles
import Verif.Proofs.Results
import Verif.Proofs.RoundedExpansion
import Verif.Proofs.RoundedGrid
import Verif.Proofs.RoundedSum
import Verif.Proofs.Rounding
import Verif.Proofs.SecondDifference
import Verif.Proofs.Shrunk
import Verif.Proofs.Signs
import Verif.Proofs.Similar
import Verif.Proofs.Solver
import Verif.Proofs.SolverState
import Verif.Proofs.Split
import Verif.Proofs.SplitExact
import Verif.Proofs.Tiernan
import Verif.Proofs.Transfer
import Verif.Proofs.Triangles
import Verif.Props.Bonded
import Verif.Props.BondedExamples
import Verif.Props.Bounds
import Verif.Props.BoundsDomains
import Verif.Props.BoundsExamples
import Verif.Props.BoxAccuracy
import Verif.Props.Capacitance
import Verif.Props.Charge
import Verif.Props.ClosedCharge
import Verif.Props.Congruent
import Verif.Props.CongruentExamples
import Verif.Props.ConjugateGradient
import Verif.Props.Constants
import Verif.Props.Cycles
import Verif.Props.Domain
import Verif.Props.DomainModel
import Verif.Props.DriverBuild
import Verif.Props.DriverCell
import Verif.Props.DriverCharge
import Verif.Props.DriverDomains
import Verif.Props.DriverExample
import Verif.Props.DriverExport
import Verif.Props.DriverQuery
import Verif.Props.DriverWires
import Verif.Props.ElementExamples
import Verif.Props.ElementPlates
import Verif.Props.ElementRegionExamples
import Verif.Props.ElementRegions
import Verif.Props.Elements
import Verif.Props.Energy
import Verif.Props.ErrorEnergy
import Verif.Props.FieldFiles
import Verif.Props.FieldFilesRefuted
import Verif.Props.Fields
import Verif.Props.Floating
import Verif.Props.Galerkin
import Verif.Props.GalerkinExamples
import Verif.Props.Graph
import Verif.Props.Grid
import Verif.Props.InCell
import Verif.Props.InCellAccuracy
import Verif.Props.InCellCapacitance
import Verif.Props.InCellExist
import Verif.Props.InnerRegion
import Verif.Props.Input
import Verif.Props.JsonText
import Verif.Props.Lifetimes
import Verif.Props.Limit
import Verif.Props.LimitExamples
import Verif.Props.LimitFields
import Verif.Props.LimitMeshes
import Verif.Props.LimitSquare
import Verif.Props.Materials
import Verif.Props.Maximum
import Verif.Props.Model
import Verif.Props.Modes
import Verif.Props.Moments
import Verif.Props.Monotone
import Verif.Props.Multipolar
import Verif.Props.OpenProgram
import Verif.Props.OpenProgramText
import Verif.Props.Order
import Verif.Props.OrderExamples
import Verif.Props.PUL
import Verif.Props.Parser
import Verif.Props.Passive
import Verif.Props.Patch
import Verif.Props.Plates
import Verif.Props.Program
import Verif.Props.ProgramText
import Verif.Props.Redeclared
import Verif.Props.Refined
import Verif.Props.RefinedExamples
import Verif.Props.Refusals
import Verif.Props.RegionExamples
import Verif.Props.Regions
import Verif.Props.Removed
import Verif.Props.RemovedExamples
import Verif.Props.Renumber
import Verif.Props.Results
import Verif.Props.RoundedAccuracy
import Verif.Props.RoundedCapacitance
import Verif.Props.RoundedCell
import Verif.Props.RoundedDouble
import Verif.Props.RoundedExpansion
import Verif.Props.RoundedGrid
import Verif.Props.RoundedInCell
import Verif.Props.RoundedOpen
import Verif.Props.Rounding
import Verif.Props.Scaling
import Verif.Props.ScalingExamples
import Verif.Props.SharedTag
import Verif.Props.Shrunk
import Verif.Props.ShrunkExamples
import Verif.Props.Signs
import Verif.Props.Similar
import Verif.Props.Solver
import Verif.Props.SolverHistory
import Verif.Props.Split
import Verif.Props.TriangleExamples
import Verif.Props.Triangles
import Verif.Props.Twin
import Verif.Props.Uniqueness
import Verif.Spec.Accuracy
import Verif.Spec.Bonded
import Verif.Spec.Bounds
import Verif.Spec.Capacitance
import Verif.Spec.Congruent
import Verif.Spec.Couplings
import Verif.Spec.Domain
import Verif.Spec.Driver
import Verif.Spec.Elements
import Verif.Spec.FieldFiles
import Verif.Spec.Fields
import Verif.Spec.Galerkin
import Verif.Spec.Graph
import Verif.Spec.InCell
import Verif.Spec.InnerRegion
import Verif.Spec.Input
import Verif.Spec.JsonText
import Verif.Spec.Library
import Verif.Spec.Lifetimes
import Verif.Spec.Limit
import Verif.Spec.Loops
import Verif.Spec.Materials
import Verif.Spec.Multipolar
import Verif.Spec.Parser
import Verif.Spec.Passive
import Verif.Spec.Patch
import Verif.Spec.Redeclared
import Verif.Spec.Refined
import Verif.Spec.Refusals
import Verif.Spec.Regions
import Verif.Spec.Renumber
import Verif.Spec.Results
import Verif.Spec.Rounding
import Verif.Spec.Shrunk
import Verif.Spec.Similar
import Verif.Spec.Solver
import Verif.Spec.Spaces
import Verif.Spec.Triangles
