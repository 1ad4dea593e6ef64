import Verif.Model.Base
import Verif.Model.TensorKey
import Verif.Model.TensorBasis
import Verif.Model.Coeff
import Verif.Model.Vector
import Verif.Model.Dense
import Verif.Model.Sparse
import Verif.Model.Deref
import Verif.Model.Algebra
import Verif.Spec
import Verif.SpecTensor
import Verif.SpecError
import Verif.Lawful
import Verif.Proofs.TensorKey
import Verif.Proofs.TensorBasis
import Verif.Proofs.BasisIter
import Verif.Proofs.Dense
import Verif.Proofs.Sparse
import Verif.Proofs.Conv
import Verif.Proofs.Algebra
import Verif.Proofs.Inplace
import Verif.Proofs.WordFn
import Verif.Props.Keys
import Verif.Props.Basis
import Verif.Props.KeysMore
import Verif.Props.Dense
import Verif.Props.DenseState
import Verif.Props.Sparse
import Verif.Props.Deref
import Verif.Props.Algebra
import Verif.Props.AlgebraLaws
import Verif.Props.Expr
import Verif.Props.Product
import Verif.Props.Inplace
import Verif.Props.FreeTensor
import Verif.Props.RightIff
import Verif.Props.ReleaseKeys
import Verif.Props.RightIffVec
import Verif.Props.HallOverflow
import Verif.Model.Hall
import Verif.Model.HallCache
import Verif.SpecHall
import Verif.Proofs.Hall
import Verif.Proofs.HallSize
import Verif.Props.HallCache
import Verif.Props.Hall
import Verif.Model.Float
import Verif.SpecFloat
import Verif.Proofs.Float
import Verif.Props.Float
import Verif.Model.DenseMore
import Verif.Props.DenseMore
import Verif.Model.SparseMore
import Verif.Props.SparseIter
import Verif.Proofs.FloatError
import Verif.Props.FloatAlgebra
import Verif.SpecProg
import Verif.Props.Program
import Verif.Props.SparseProgram
import Verif.SpecAlg
import Verif.Proofs.ConvMore
import Verif.Props.FreeAlgebra
import Verif.Model.Wrapper
import Verif.Props.Trait
import Verif.Model.HallText
import Verif.Props.Texts
import Verif.Model.HallObject
import Verif.Props.HallObject
import Verif.Props.Exact
import Verif.Props.FloatCommutator
import Verif.Props.FloatExpr
import Verif.Props.Iteration
import Verif.Props.Agree
import Verif.Props.InplaceExact
import Verif.Props.FromDegree
import Verif.Props.Leftover
import Verif.Props.Counting
import Verif.Proofs.Profiles
import Verif.Props.Profiles
import Verif.Props.IterationMore
import Verif.Props.InplaceRelease
import Verif.Props.FloatSpecial
import Verif.Props.FloatRightIff
import Verif.Props.KeysPast
import Verif.Props.RightIffMore
import Verif.Proofs.CoeffRel
import Verif.Props.CoeffRel
import Verif.Props.HashOrder
import Verif.Props.FloatScale
import Verif.Props.FloatSum
import Verif.Props.FloatTerm
import Verif.Props.HallShared
import Verif.Proofs.ExpLog
import Verif.Proofs.Shuffle
import Verif.Props.ExpLog
import Verif.Props.Signature
import Verif.Props.FloatExp
import Verif.Props.FloatSignature
import Verif.Conformance
import Verif.Model.Closure
import Verif.SpecClosure
import Verif.Proofs.Closure
import Verif.Props.Closure
import Verif.SpecLie
import Verif.Proofs.Lyndon
import Verif.Proofs.LyndonCount
import Verif.Proofs.LieDim
import Verif.Props.LieDim
import Verif.Props.OneLetter
import Verif.Model.Unwind
import Verif.SpecUnwind
import Verif.Proofs.Unwind
import Verif.Props.Unwind
import Verif.Proofs.Dynkin
import Verif.Props.Dynkin
import Verif.Props.Instances
import Verif.Proofs.Chow
import Verif.Props.Chow
import Verif.Proofs.Adjoint
import Verif.Props.Adjoint
import Verif.Props.Iterators
import Verif.Model.Fallible
import Verif.Props.Fallible
import Verif.Props.FallibleProduct
import Verif.Props.FallibleInplace
import Verif.Model.FallibleMore
import Verif.Props.FallibleMore
import Verif.Props.ProductOverflow
import Verif.Proofs.FreeAlgebraMathlib
import Verif.Props.FreeAlgebraMathlib
import Verif.Model.FallibleAlgebra
import Verif.Proofs.FallibleSim
import Verif.Props.Checked
import Verif.Props.CheckedProg
import Verif.SpecMass
import Verif.Props.NoOverflow
import Verif.SpecMassProg
import Verif.Props.NoOverflowProg
import Verif.Props.DenseExp
import Verif.Props.Wrapping
import Verif.Props.SparseZeros
import Verif.Props.Calls
import Verif.Props.HallMore
import Verif.Props.FloatAntisym
import Verif.SpecSteps
import Verif.Props.ExactSteps
import Verif.Props.ExactRange
import Verif.Props.FloatExactProg
import Verif.Props.ExactExpr
import Verif.SpecProgAll
import Verif.Props.ProgramAll
import Verif.SpecStepsAll
import Verif.Props.ExactAll
import Verif.Props.FloatExactAll
import Verif.Props.SparseChecked
import Verif.SpecErrorProg
import Verif.Props.FloatProgError
import Verif.Props.SparseFloat
import Verif.SpecProgWords
import Verif.Props.ProgramWords
import Verif.SpecVecProg
import Verif.Props.VecProgram
import Verif.Props.VecProgramMore
import Verif.Props.StorageProgram
import Verif.Props.PanicProgram
import Verif.Props.PanicValues
import Verif.Props.PanicLinear
import Verif.Props.PanicStorage
import Verif.Props.PanicBuilds
import Verif.Props.PanicProfiles
