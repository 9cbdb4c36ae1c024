import Verif.Model.Py
import Verif.Model.Shape
import Verif.Model.Arr
import Verif.Model.SumMultiply
import Verif.Model.Utils
import Verif.Model.MoveAxis
import Verif.Model.SumToShape
import Verif.Model.BlockBanded
import Verif.Spec.Shape
import Verif.Spec.Arr
import Verif.Lemmas.Shape
import Verif.Lemmas.Arr
import Verif.Lemmas.Collapse
import Verif.Lemmas.Einsum
import Verif.Lemmas.Reshape
import Verif.Lemmas.SumMultiply
import Verif.Lemmas.ToPlates
import Verif.Lemmas.Multiplier
import Verif.Props.Shape
import Verif.Props.SumMultiply
import Verif.Props.Utils
import Verif.Props.MoveAxis
import Verif.Props.SumToShape
import Verif.Props.BlockBanded
import Verif.Spec.Engine
import Verif.Model.Engine
import Verif.Lemmas.Engine
import Verif.Props.Engine
import Verif.Props.SaveLoad
import Verif.Model.Optimize
import Verif.Props.Optimize
import Verif.Model.Graph
import Verif.Spec.Graph
import Verif.Lemmas.Graph
import Verif.Lemmas.Built
import Verif.Lemmas.Delete
import Verif.Props.Graph
import Verif.Props.Masks
import Verif.Model.Converter
import Verif.Spec.Converter
import Verif.Props.Converter
import Verif.Props.EngineMore
import Verif.Model.MarkovChain
import Verif.Spec.MarkovChain
import Verif.Lemmas.MarkovChain
import Verif.Props.MarkovChain
import Verif.Model.BlockBandedSolve
import Verif.Spec.BlockBandedSolve
import Verif.Lemmas.Cholesky
import Verif.Lemmas.BlockBandedSolve
import Verif.Lemmas.BlockTridiagonal
import Verif.Props.BlockBandedSolve
import Verif.Model.Indexing
import Verif.Lemmas.Indexing
import Verif.Model.CholSolve
import Verif.Props.CholSolve
import Verif.Model.Message
import Verif.Lemmas.Message
import Verif.Props.Message
import Verif.Lemmas.SumOver
import Verif.Model.Take
import Verif.Props.Take
import Verif.Model.Concatenate
import Verif.Props.Concatenate
import Verif.Model.Tile
import Verif.Lemmas.Tile
import Verif.Props.Tile
import Verif.Spec.Slice
import Verif.Model.Slice
import Verif.Lemmas.Slice
import Verif.Props.Slice
import Verif.Spec.Gate
import Verif.Model.Gate
import Verif.Lemmas.RightAxes
import Verif.Props.Gate
import Verif.Spec.Linalg
import Verif.Model.Linalg
import Verif.Model.Add
import Verif.Lemmas.Linalg
import Verif.Props.Add
import Verif.Model.ConcatGaussian
import Verif.Props.ConcatGaussian
import Verif.Model.ExpFamily
import Verif.Props.Observe
import Verif.Props.Gradient
import Verif.Model.Categorical
import Verif.Props.Categorical
import Verif.Spec.Density
import Verif.Model.Dist
import Verif.Props.Conjugacy
import Verif.Props.LogPdf
import Verif.Lemmas.Deriv
import Verif.Lemmas.MatrixDeriv
import Verif.Model.GaussianDist
import Verif.Props.Moments
import Verif.Props.GammaExpectation
import Verif.Props.GaussianConjugacy
import Verif.Props.GaussianMoments
import Verif.Props.Gibbs
import Verif.Model.Network
import Verif.Model.Families
import Verif.Props.LowerBound
import Verif.Props.Families
import Verif.Props.NormalModel
import Verif.Props.PhiBias
import Verif.Model.Convert
import Verif.Props.Convert
import Verif.Model.Mixture
import Verif.Props.Mixture
import Verif.Model.MixtureFamily
import Verif.Props.MixtureFamily
import Verif.Model.CategoricalChain
import Verif.Props.CategoricalChain
import Verif.Model.GaussianChain
import Verif.Props.GaussianChain
import Verif.Props.GaussianChainMoments
import Verif.Model.GaussianChainCgf
import Verif.Props.GaussianChainCgf
import Verif.Model.Rotate
import Verif.Props.Rotate
import Verif.Props.RotateAxes
import Verif.Props.RotateChain
import Verif.Spec.Keyed
import Verif.Model.SumMultiplyNode
import Verif.Lemmas.Keyed
import Verif.Lemmas.KeyedPlates
import Verif.Props.SumMultiplyInit
import Verif.Props.SumMultiplyMoments
import Verif.Props.SumMultiplyRename
import Verif.Model.SumMultiplyMessage
import Verif.Lemmas.KeyedMessage
import Verif.Props.SumMultiplyMessage
import Verif.Props.SumMultiplyParents
import Verif.Model.ComputeMessage
import Verif.Props.ComputeMessage
import Verif.Lemmas.Trigamma
import Verif.Model.EuclideanGradient
import Verif.Props.EuclideanGradient
import Verif.Props.MultinomialGradient
import Verif.Model.FactorModel
import Verif.Props.FactorModel
import Verif.Model.Transform
import Verif.Props.RotationBound
import Verif.Props.RotationGradient
import Verif.Model.PlateMultiplier
import Verif.Props.PlateMultiplier
import Verif.Model.MixtureModel
import Verif.Props.MixtureModel
import Verif.Model.VaryingChain
import Verif.Props.VaryingChain
import Verif.Lemmas.Digamma
import Verif.Model.PointEstimate
import Verif.Props.PointEstimate
import Verif.Model.Sampling
import Verif.Spec.Sampling
import Verif.Props.Sampling
import Verif.Props.GaussianExact
import Verif.Model.Support
import Verif.Props.Support
import Verif.Model.Marginals
import Verif.Props.Marginals
import Verif.Model.ChainArrays
import Verif.Props.ChainArrays
import Verif.Lemmas.WishartIntegral
import Verif.Props.ExactExpectation
import Verif.Model.Integrated
import Verif.Props.Integrated
import Verif.Model.TransformChain
import Verif.Props.TransformChain
import Verif.Props.TransformChainGradient
import Verif.Model.StateSpace
import Verif.Props.StateSpace
import Verif.Model.StateSpaceRotation
import Verif.Props.StateSpaceRotation
import Verif.Model.PlateMaps
import Verif.Props.PlateMaps
import Verif.Model.HiddenMarkov
import Verif.Props.HiddenMarkov
import Verif.Spec.Weights
import Verif.Model.Weights
import Verif.Props.Weights
import Verif.Model.Multipliers
import Verif.Props.Multipliers
import Verif.Props.Entropy
import Verif.Props.RandomMatrices
import Verif.Props.InvPsi
import Verif.Spec.Gradient
import Verif.Model.MaximumLikelihood
import Verif.Props.MaximumLikelihood
import Verif.Spec.RowMajor
import Verif.Model.FlattenAxes
import Verif.Lemmas.RowMajor
import Verif.Props.FlattenAxes
import Verif.Spec.Covariance
import Verif.Model.Covariance
import Verif.Lemmas.GaussianKernel
import Verif.Props.Covariance
import Verif.Model.TransformVarying
import Verif.Props.TransformVarying
import Verif.Model.LinalgAxes
import Verif.Lemmas.MultiAxes
import Verif.Props.LinalgAxes
import Verif.Spec.GaussianArrays
import Verif.Model.GaussianArrays
import Verif.Lemmas.PlateOps
import Verif.Props.GaussianArrays
import Verif.Spec.GammaArrays
import Verif.Model.GammaArrays
import Verif.Props.GammaArrays
import Verif.Model.RotateArrays
import Verif.Spec.RotateArrays
import Verif.Lemmas.EinsumEll
import Verif.Lemmas.AxisMatrix
import Verif.Props.RotateArrays
import Verif.Props.RotateGamma
import Verif.Props.RotatePlates
import Verif.Props.RotateExamples
import Verif.Spec.NodeBound
import Verif.Model.NodeBound
import Verif.Props.NodeBound
import Verif.Spec.CountArrays
import Verif.Model.CountArrays
import Verif.Props.CountArrays
import Verif.Spec.BandPlates
import Verif.Model.BandPlates
import Verif.Lemmas.BandPlates
import Verif.Props.BandPlates
import Verif.Model.Constant
import Verif.Spec.Constant
import Verif.Props.Constant
import Verif.Model.ChainPlates
import Verif.Spec.ChainPlates
import Verif.Lemmas.ChainPlates
import Verif.Props.ChainPlates
import Verif.Model.Plot
import Verif.Spec.Plot
import Verif.Props.Plot
import Verif.Spec.MultiMixture
import Verif.Model.MultiMixture
import Verif.Props.MultiMixture
import Verif.Lemmas.Evidence
import Verif.Spec.Evidence
import Verif.Props.Evidence
import Verif.Props.EvidenceFamilies
import Verif.Props.EvidenceModels
import Verif.Model.EngineNet
import Verif.Props.Termination
import Verif.Props.TerminationModels
import Verif.Props.TerminationChain
import Verif.Props.TerminationMixture
import Verif.Props.TerminationHidden
