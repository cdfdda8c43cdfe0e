import Verif.Props.Interval
import Verif.Props.ListOfIntervals
import Verif.Props.LevelCellArray
import Verif.Props.Arrays
import Verif.Props.Subset
import Verif.Props.Prediction
import Verif.Props.Reconstruction
import Verif.Props.Mesh
import Verif.Props.AMRMesh
import Verif.Props.Update
import Verif.Props.Adapt
import Verif.Props.AdaptWidth
import Verif.Props.Criteria
import Verif.Props.Interface
import Verif.Props.Flux
import Verif.Props.LinFlux
import Verif.Props.Stencil
import Verif.Props.MeshState
import Verif.Props.Cell
import Verif.Props.Weno
import Verif.Props.FreeStream
import Verif.Props.WideMesh
import Verif.Props.Operators
import Verif.Props.Algebra
import Verif.Props.Het
import Verif.Props.Graduation
import Verif.Props.Bc
import Verif.Props.BcExample
import Verif.Props.BcAdapted
import Verif.Props.GhostUpdate
import Verif.Props.GhostExample
import Verif.Props.Periodic
import Verif.Props.PeriodicGhost
import Verif.Props.AMRAdapt
import Verif.Props.Hdf5
import Verif.Lemmas.GhostMap
import Verif.Props.Petsc
import Verif.Lemmas.GhostRel
import Verif.Lemmas.GhostElim
import Verif.Lemmas.PetscFree
import Verif.Props.PetscGhosts
import Verif.Props.PetscExample
import Verif.Props.PetscSystem
import Verif.Lemmas.PetscSolve
import Verif.Model.CellScheme
import Verif.Lemmas.PetscLocal
import Verif.Lemmas.PetscSeg
import Verif.Props.PetscImplicit
import Verif.Spec.CellScheme
import Verif.Lemmas.CellScheme
import Verif.Props.CellScheme
import Verif.Lemmas.CellAssembly
import Verif.Lemmas.SumMatrix
import Verif.Props.CellMatrix
import Verif.Props.CellMatrixExample
import Verif.Model.BlockAssembly
import Verif.Spec.Block
import Verif.Lemmas.BlockAssembly
import Verif.Lemmas.BlockShift
import Verif.Props.BlockAssembly
import Verif.Props.BlockNested
import Verif.Props.BlockVectors
import Verif.Props.BlockExample
import Verif.Model.Sparsity
import Verif.Spec.Sparsity
import Verif.Lemmas.Sparsity
import Verif.Lemmas.SparsityFlux
import Verif.Lemmas.SparsityWithin
import Verif.Lemmas.SparsityCell
import Verif.Lemmas.SparsityMain
import Verif.Props.Sparsity
import Verif.Props.SparsityExample
import Verif.Model.Newton
import Verif.Spec.Newton
import Verif.Lemmas.NewtonScheme
import Verif.Lemmas.NewtonDeriv
import Verif.Lemmas.NewtonRhs
import Verif.Props.Newton
import Verif.Lemmas.NewtonDim1
import Verif.Props.NewtonDim1
import Verif.Model.Field
import Verif.Spec.Field
import Verif.Lemmas.Field
import Verif.Props.Field
import Verif.Model.Quadrature
import Verif.Lemmas.Quadrature
import Verif.Props.Quadrature
import Verif.Model.FieldError
import Verif.Props.FieldError
import Verif.Model.Details
import Verif.Spec.Details
import Verif.Lemmas.Details
import Verif.Lemmas.DetailStep
import Verif.Lemmas.Uniform
import Verif.Props.Details
import Verif.Props.DetailsExample
import Verif.Props.AdaptMr
import Verif.Props.AMRGhost
import Verif.Props.AMRGhostFace
import Verif.Props.AMRLoop
import Verif.Props.AMRLoopFace
import Verif.Props.StencilField
import Verif.Props.SolverLife
import Verif.Props.LocalSolver
import Verif.Props.Mpi
import Verif.Props.MpiExample
import Verif.Props.MroMesh
import Verif.Props.MroGhost
import Verif.Props.Timers
import Verif.Props.FieldLife
import Verif.Props.Statistics
import Verif.Props.Memory
import Verif.Props.MpiTag
import Verif.Props.TagPeriodic
