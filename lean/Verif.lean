import Verif.Props.LocalGrid
import Verif.Props.GridCreation
import Verif.Props.Search
import Verif.Props.IOCache
import Verif.Props.SolutionManager
import Verif.Props.LocalSolve
import Verif.Props.CoarseAssembly
import Verif.Props.DirichletSolve
import Verif.Props.Projection
import Verif.Props.ErrorReport
import Verif.Props.OutputFiles
import Verif.Props.Selector
import Verif.Props.Program
import Verif.Props.Config
import Verif.Props.Synthetic
import Verif.Props.Permeability
import Verif.Props.RandomGrid
import Verif.Props.RandomField
import Verif.Props.Covariance
import Verif.Props.LocalAssembly
import Verif.Props.Boundary
import Verif.Props.Proxy
import Verif.Props.Runs
import Verif.Props.Flux
import Verif.Props.Ellipticity
import Verif.Props.LoadBalance
import Verif.Props.FieldDomain
import Verif.Props.Partition
import Verif.Props.RandomStream
import Verif.Model.Q1Grid
import Verif.Props.Q1Grid
import Verif.Props.Solvability
import Verif.Props.Consistency
import Verif.Model.Oversampling
import Verif.Props.Oversampling
import Verif.Model.GridCheck
import Verif.Props.GridCheck
import Verif.Model.Flow
import Verif.Props.Flow
import Verif.Model.FemSolver
import Verif.Props.FemSolver
import Verif.Model.CellCounts
import Verif.Model.GridArguments
import Verif.Props.CellCounts
import Verif.Props.GridArguments
import Verif.Model.Quadrature
import Verif.Props.Quadrature
import Verif.Model.ErrorNorms
import Verif.Props.ErrorNorms
import Verif.Model.Report
import Verif.Props.Report
import Verif.Props.Energy
import Verif.Model.Pipeline
import Verif.Props.Pipeline
import Verif.Props.Constants
import Verif.Model.NeumannFaces
import Verif.Props.NeumannFaces
import Verif.Model.Threads
import Verif.Props.Threads
import Verif.Model.OversampledRun
import Verif.Model.LayeredThreads
import Verif.Props.TwoDirections
import Verif.Props.OversampledRun
import Verif.Props.NoLayers
import Verif.Props.LayeredConstants
import Verif.Props.LayeredTurn
import Verif.Props.LayeredUnits
import Verif.Props.LayeredThreads
import Verif.Props.Units
import Verif.Props.QuadratureOrder
import Verif.Props.Turn
import Verif.Model.FieldSize
import Verif.Props.FieldSize
import Verif.Model.Tests
import Verif.Props.Tests
import Verif.Model.ThreadVis
import Verif.Props.ThreadVis
import Verif.Model.LayerCount
import Verif.Props.LayerCount
import Verif.Spec.Decimal
import Verif.Model.Printing
import Verif.Props.Printing
import Verif.Model.RoundedGrid
import Verif.Props.RoundedGrid
import Verif.Spec.Binary
import Verif.Props.Double
import Verif.Props.TarbertDouble
import Verif.Model.RoundedSearch
import Verif.Props.RoundedSearch
import Verif.Props.DyadicSearch
import Verif.Props.OversampledSearch
import Verif.Props.ShippedSearch
import Verif.Props.LayeredSearch
import Verif.Props.WrongSearch
