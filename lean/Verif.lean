import Verif.Lemmas.ArrCategorical
import Verif.Lemmas.ArrGraph
import Verif.Lemmas.ArrTransform
import Verif.Lemmas.Axis
import Verif.Lemmas.Broadcast
import Verif.Lemmas.CdfTools
import Verif.Lemmas.ChangeVar
import Verif.Lemmas.Cond
import Verif.Lemmas.Density
import Verif.Lemmas.Described
import Verif.Lemmas.Dict
import Verif.Lemmas.Dirichlet
import Verif.Lemmas.DirichletSimplex
import Verif.Lemmas.Discrete
import Verif.Lemmas.Dist1
import Verif.Lemmas.Dist2
import Verif.Lemmas.Erfc
import Verif.Lemmas.FVal
import Verif.Lemmas.Fold
import Verif.Lemmas.Gather
import Verif.Lemmas.IRTransform
import Verif.Lemmas.JoinEntries
import Verif.Lemmas.Keywords
import Verif.Lemmas.Library
import Verif.Lemmas.MarkovSampler
import Verif.Lemmas.MarkovSource
import Verif.Lemmas.MvNormal
import Verif.Lemmas.Phi
import Verif.Lemmas.PiDensity
import Verif.Lemmas.PiSwap
import Verif.Lemmas.Posterior
import Verif.Lemmas.PrintLatex
import Verif.Lemmas.PrintNumber
import Verif.Lemmas.ProdDensity
import Verif.Lemmas.SameCensoring
import Verif.Lemmas.SameChain
import Verif.Lemmas.SameLibrary
import Verif.Lemmas.SameSeries
import Verif.Lemmas.Select
import Verif.Lemmas.ShapeText
import Verif.Lemmas.ShuffleEntries
import Verif.Lemmas.SimpleBackend
import Verif.Lemmas.SpecialCases
import Verif.Lemmas.Tower
import Verif.Lemmas.TransformClasses
import Verif.Lemmas.Undo
import Verif.Lemmas.UndoCompute
import Verif.Lemmas.Vec
import Verif.Model.Abstract
import Verif.Model.ArrCategorical
import Verif.Model.ArrDerived
import Verif.Model.ArrGraph
import Verif.Model.ArrLocal
import Verif.Model.ArrMarkov
import Verif.Model.ArrObserved
import Verif.Model.ArrRealized
import Verif.Model.ArrScan
import Verif.Model.ArrTransform
import Verif.Model.ArrayEval
import Verif.Model.Censoring
import Verif.Model.ChainVec
import Verif.Model.ClipArray
import Verif.Model.ClipDtype
import Verif.Model.CondLogprob
import Verif.Model.Convolutions
import Verif.Model.Cumsum
import Verif.Model.Definitions
import Verif.Model.Dict
import Verif.Model.Dimshuffle
import Verif.Model.Dirac
import Verif.Model.Dists
import Verif.Model.Elemwise
import Verif.Model.ElemwiseArray
import Verif.Model.FVal
import Verif.Model.Full
import Verif.Model.Graph
import Verif.Model.IR
import Verif.Model.IRTransform
import Verif.Model.Incsubtensor
import Verif.Model.Indices
import Verif.Model.Keywords
import Verif.Model.Library
import Verif.Model.LibraryDefaults
import Verif.Model.MarkovSampler
import Verif.Model.Merge
import Verif.Model.Mixture
import Verif.Model.MixtureArray
import Verif.Model.MixtureBasic
import Verif.Model.MixtureIndex
import Verif.Model.Names
import Verif.Model.Nd
import Verif.Model.NormalSum
import Verif.Model.NormalSums
import Verif.Model.ObsData
import Verif.Model.PrintExpr
import Verif.Model.PrintLatex
import Verif.Model.PrintNumber
import Verif.Model.Printing
import Verif.Model.RealizedExpr
import Verif.Model.RoundArray
import Verif.Model.Scan
import Verif.Model.ScanFind
import Verif.Model.ScanOutputs
import Verif.Model.ScanTaps
import Verif.Model.ShapeText
import Verif.Model.SharedSource
import Verif.Model.Simplex
import Verif.Model.Stack
import Verif.Model.Switching
import Verif.Model.TransformClasses
import Verif.Model.TransformValues
import Verif.Model.TransformVec
import Verif.Model.Transforms
import Verif.Model.Undo
import Verif.Model.Utils
import Verif.Model.ValueShape
import Verif.Model.VecDists
import Verif.Model.VecLibrary
import Verif.Model.Walk
import Verif.Props.Abstract
import Verif.Props.ArrCategorical
import Verif.Props.ArrDerived
import Verif.Props.ArrDerivedDemo
import Verif.Props.ArrDerivedHmm
import Verif.Props.ArrDerivedJoint
import Verif.Props.ArrDerivedMixture
import Verif.Props.ArrDerivedTransform
import Verif.Props.ArrGraph
import Verif.Props.ArrJoin
import Verif.Props.ArrJoinDemo
import Verif.Props.ArrLocal
import Verif.Props.ArrMarginal
import Verif.Props.ArrMarkov
import Verif.Props.ArrObserved
import Verif.Props.ArrRealized
import Verif.Props.ArrScan
import Verif.Props.ArrScanDemo
import Verif.Props.ArrTransform
import Verif.Props.ArrTransformGood
import Verif.Props.ArrTransformOrder
import Verif.Props.ArrTransformSimplex
import Verif.Props.Atoms
import Verif.Props.Cdf
import Verif.Props.Censoring
import Verif.Props.ChainSimplex
import Verif.Props.ChainVec
import Verif.Props.ClipArray
import Verif.Props.ClipDtype
import Verif.Props.ClipReal
import Verif.Props.Convolutions
import Verif.Props.Core
import Verif.Props.CoreOutcome
import Verif.Props.Cumsum
import Verif.Props.Defaults
import Verif.Props.Definitions
import Verif.Props.Dimshuffle
import Verif.Props.Dirac
import Verif.Props.Dirichlet
import Verif.Props.Discrete1
import Verif.Props.Discrete2
import Verif.Props.Dist1
import Verif.Props.Dist2
import Verif.Props.DrawnTerm
import Verif.Props.Elemwise
import Verif.Props.ElemwiseArray
import Verif.Props.Full
import Verif.Props.FullDensity
import Verif.Props.FullMarginal
import Verif.Props.Graph
import Verif.Props.IR
import Verif.Props.IRDensity
import Verif.Props.IRTransform
import Verif.Props.Incsubtensor
import Verif.Props.Indices
import Verif.Props.Keywords
import Verif.Props.Library
import Verif.Props.LibraryCalls
import Verif.Props.LibraryDefaults
import Verif.Props.LibraryDefaultsArr
import Verif.Props.LibraryDefaultsArrDemo
import Verif.Props.LibraryDefaultsDemo
import Verif.Props.LibraryDemo
import Verif.Props.Local
import Verif.Props.Marginal
import Verif.Props.Markov
import Verif.Props.MarkovSampler
import Verif.Props.MarkovStates
import Verif.Props.Merge
import Verif.Props.Mixture
import Verif.Props.MixtureArray
import Verif.Props.MixtureAxis
import Verif.Props.MixtureBasic
import Verif.Props.MixtureIndex
import Verif.Props.MvNormal
import Verif.Props.Names
import Verif.Props.NonFinite
import Verif.Props.NormalSum
import Verif.Props.NormalSums
import Verif.Props.ObsData
import Verif.Props.Params
import Verif.Props.Posterior
import Verif.Props.PrintExpr
import Verif.Props.PrintLatex
import Verif.Props.PrintNumber
import Verif.Props.Printing
import Verif.Props.RealizedExpr
import Verif.Props.Repeated
import Verif.Props.SameCensoring
import Verif.Props.SameChain
import Verif.Props.SameLibrary
import Verif.Props.SameSeries
import Verif.Props.SameValues
import Verif.Props.SameVariable
import Verif.Props.Scan
import Verif.Props.ScanFind
import Verif.Props.ScanOutputs
import Verif.Props.ScanTaps
import Verif.Props.Selected
import Verif.Props.SelectedDemo
import Verif.Props.ShapeText
import Verif.Props.SharedSource
import Verif.Props.Simplex
import Verif.Props.SpecialCases
import Verif.Props.Stack
import Verif.Props.StackJoint
import Verif.Props.StudentT
import Verif.Props.SumDrawn
import Verif.Props.SumJoint
import Verif.Props.SumTree
import Verif.Props.Switching
import Verif.Props.TransAtoms
import Verif.Props.TransDensity
import Verif.Props.TransformClasses
import Verif.Props.TransformOrder
import Verif.Props.TransformRows
import Verif.Props.TransformValues
import Verif.Props.TransformVec
import Verif.Props.Transforms
import Verif.Props.Triangular
import Verif.Props.Undo
import Verif.Props.Utils
import Verif.Props.ValueShape
import Verif.Props.Values
import Verif.Props.Vec1
import Verif.Props.VecLibrary
import Verif.Props.VecLibraryDefaults
import Verif.Props.VecLibraryDemo
import Verif.Props.VonMises
import Verif.Props.Wald
import Verif.Props.Walk
import Verif.Spec.ArrCategorical
import Verif.Spec.ArrDerived
import Verif.Spec.ArrGraph
import Verif.Spec.ArrLocal
import Verif.Spec.ArrMarginal
import Verif.Spec.ArrMarkov
import Verif.Spec.ArrObserved
import Verif.Spec.ArrRealized
import Verif.Spec.ArrScan
import Verif.Spec.ArrTransform
import Verif.Spec.Atoms
import Verif.Spec.Axis
import Verif.Spec.Cdf
import Verif.Spec.Censoring
import Verif.Spec.ChainVec
import Verif.Spec.ClipArray
import Verif.Spec.Core
import Verif.Spec.CoreOutcome
import Verif.Spec.Definitions
import Verif.Spec.Density
import Verif.Spec.Dimshuffle
import Verif.Spec.Dirichlet
import Verif.Spec.DrawnTerm
import Verif.Spec.Elemwise
import Verif.Spec.ElemwiseArray
import Verif.Spec.Full
import Verif.Spec.FullDensity
import Verif.Spec.FullMarginal
import Verif.Spec.Graph
import Verif.Spec.IR
import Verif.Spec.IRDensity
import Verif.Spec.IRTransform
import Verif.Spec.Incsubtensor
import Verif.Spec.Indices
import Verif.Spec.Keywords
import Verif.Spec.Laws
import Verif.Spec.Library
import Verif.Spec.LibraryCalls
import Verif.Spec.LibraryDefaults
import Verif.Spec.Local
import Verif.Spec.Marginal
import Verif.Spec.MarkovSampler
import Verif.Spec.MarkovStates
import Verif.Spec.Mass
import Verif.Spec.Merge
import Verif.Spec.Mixture
import Verif.Spec.MvDensity
import Verif.Spec.Names
import Verif.Spec.Nd
import Verif.Spec.NonFinite
import Verif.Spec.NormalSum
import Verif.Spec.NormalSums
import Verif.Spec.ObsData
import Verif.Spec.Params
import Verif.Spec.Posterior
import Verif.Spec.PrintExpr
import Verif.Spec.PrintLatex
import Verif.Spec.PrintNumber
import Verif.Spec.Printing
import Verif.Spec.RealizedExpr
import Verif.Spec.Repeated
import Verif.Spec.SameChain
import Verif.Spec.SameSeries
import Verif.Spec.SameValues
import Verif.Spec.SameVariable
import Verif.Spec.Scan
import Verif.Spec.ScanFind
import Verif.Spec.ScanTaps
import Verif.Spec.Selected
import Verif.Spec.ShapeText
import Verif.Spec.SharedSource
import Verif.Spec.Simplex
import Verif.Spec.Stack
import Verif.Spec.SumDrawn
import Verif.Spec.SumJoint
import Verif.Spec.SumTree
import Verif.Spec.Transform
import Verif.Spec.TransformClasses
import Verif.Spec.TransformVec
import Verif.Spec.Undo
import Verif.Spec.Utils
import Verif.Spec.ValueShape
import Verif.Spec.Vec
import Verif.Spec.VecLibrary
import Verif.Spec.Walk
