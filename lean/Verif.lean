import Verif.Spec.Density
import Verif.Spec.Gauss
import Verif.Spec.Ising
import Verif.Spec.LassoFit
import Verif.Spec.Linear
import Verif.Spec.Node
import Verif.Spec.Objectives
import Verif.Spec.Opt
import Verif.Spec.Relabel
import Verif.Spec.Seq
import Verif.Spec.TV
import Verif.Spec.Temporal
import Verif.Spec.Weights
import Verif.Model.AutoKernel
import Verif.Model.Bayes
import Verif.Model.BayesGL
import Verif.Model.BayesSearch
import Verif.Model.Blankets
import Verif.Model.Clustering
import Verif.Model.Datasets
import Verif.Model.EllSampler
import Verif.Model.Ellipse
import Verif.Model.Estimators
import Verif.Model.FB
import Verif.Model.FL
import Verif.Model.GL
import Verif.Model.GLM
import Verif.Model.GLWeights
import Verif.Model.GWishart
import Verif.Model.Gaussian
import Verif.Model.Glopridu
import Verif.Model.GraphGen
import Verif.Model.GroupClassifier
import Verif.Model.GroupFit
import Verif.Model.GroupOld
import Verif.Model.Infimal
import Verif.Model.Init
import Verif.Model.Input3d
import Verif.Model.InvCov
import Verif.Model.Ising
import Verif.Model.IsingFit
import Verif.Model.IsingTop
import Verif.Model.KernelArgs
import Verif.Model.Kernels
import Verif.Model.LGL
import Verif.Model.Lasso
import Verif.Model.Loop
import Verif.Model.MYNodes
import Verif.Model.Metrics
import Verif.Model.Missing
import Verif.Model.MultiClass
import Verif.Model.NetworkFile
import Verif.Model.NodeProx
import Verif.Model.Objective
import Verif.Model.OptionTable
import Verif.Model.Options
import Verif.Model.Plotting
import Verif.Model.Poisson
import Verif.Model.PoissonGibbs
import Verif.Model.PoissonTime
import Verif.Model.Prox
import Verif.Model.Scores
import Verif.Model.Similarity
import Verif.Model.SparseLatent
import Verif.Model.Stability
import Verif.Model.StabilityMore
import Verif.Model.TGL
import Verif.Model.Temporal
import Verif.Model.TiccNew
import Verif.Model.TimeGLM
import Verif.Model.Topics
import Verif.Model.Update
import Verif.Model.Utils
import Verif.Model.UtilsMore
import Verif.Model.Validation
import Verif.Model.WPFit
import Verif.Model.WarmStart
import Verif.Model.Wishart
import Verif.Model.WishartMean
import Verif.Model.XFloat
import Verif.Lemmas.Admm
import Verif.Lemmas.Certificate
import Verif.Lemmas.Consistency
import Verif.Lemmas.Convex
import Verif.Lemmas.DR
import Verif.Lemmas.Direction
import Verif.Lemmas.Dual
import Verif.Lemmas.Exist
import Verif.Lemmas.FB
import Verif.Lemmas.Fejer
import Verif.Lemmas.Frob
import Verif.Lemmas.GL
import Verif.Lemmas.GLConv
import Verif.Lemmas.GLOpt
import Verif.Lemmas.Glopridu
import Verif.Lemmas.Group
import Verif.Lemmas.Ising
import Verif.Lemmas.Lasso
import Verif.Lemmas.LatentAdmm
import Verif.Lemmas.LatentLocal
import Verif.Lemmas.LatentLogdet
import Verif.Lemmas.LatentRun
import Verif.Lemmas.LatentSquare
import Verif.Lemmas.LogdetProx
import Verif.Lemmas.LogdetUpper
import Verif.Lemmas.Loop
import Verif.Lemmas.Markov
import Verif.Lemmas.Node
import Verif.Lemmas.Poisson
import Verif.Lemmas.ProxGrad
import Verif.Lemmas.ProxSub
import Verif.Lemmas.Relabel
import Verif.Lemmas.RidgeAdmm
import Verif.Lemmas.Saddle
import Verif.Lemmas.Screen
import Verif.Lemmas.Sensitivity
import Verif.Lemmas.Seq
import Verif.Lemmas.Soft
import Verif.Lemmas.Spectral
import Verif.Lemmas.TGL
import Verif.Lemmas.TV
import Verif.Lemmas.Temporal
import Verif.Lemmas.TimeRelabel
import Verif.Lemmas.TimeRun
import Verif.Lemmas.Weights
import Verif.Props.Adaptive
import Verif.Props.AdaptiveLatent
import Verif.Props.AutoKernel
import Verif.Props.Bayes
import Verif.Props.BayesGL
import Verif.Props.BayesSearch
import Verif.Props.Blankets
import Verif.Props.Certificate
import Verif.Props.Clustering
import Verif.Props.Components
import Verif.Props.Consistency
import Verif.Props.Datasets
import Verif.Props.EllSampler
import Verif.Props.Ellipse
import Verif.Props.ErrorNorm
import Verif.Props.Estimators
import Verif.Props.FB
import Verif.Props.FBConv
import Verif.Props.FBSearch
import Verif.Props.FL
import Verif.Props.GLConv
import Verif.Props.GLExist
import Verif.Props.GLLoop
import Verif.Props.GLM
import Verif.Props.GLMConv
import Verif.Props.GLMEmpty
import Verif.Props.GLOpt
import Verif.Props.GLRate
import Verif.Props.GLWeights
import Verif.Props.GWishart
import Verif.Props.GWishartGraphs
import Verif.Props.GaussCov
import Verif.Props.GaussGen
import Verif.Props.GaussMY
import Verif.Props.Glopridu
import Verif.Props.GlopriduFit
import Verif.Props.GraphUpdate
import Verif.Props.Group
import Verif.Props.GroupClassifier
import Verif.Props.GroupFit
import Verif.Props.GroupLasso
import Verif.Props.GroupOld
import Verif.Props.Infimal
import Verif.Props.Init
import Verif.Props.Input3d
import Verif.Props.InvCov
import Verif.Props.Ising
import Verif.Props.IsingAll
import Verif.Props.IsingConv
import Verif.Props.IsingSampler
import Verif.Props.IsingTop
import Verif.Props.KTGL
import Verif.Props.KernelArgs
import Verif.Props.Kernels
import Verif.Props.LGL
import Verif.Props.LTGL
import Verif.Props.Lasso
import Verif.Props.LatentConv
import Verif.Props.LatentLocal
import Verif.Props.LatentLogdet
import Verif.Props.LatentOne
import Verif.Props.LatentStatic
import Verif.Props.MYNodes
import Verif.Props.Missing
import Verif.Props.Moments
import Verif.Props.MultiClass
import Verif.Props.NetworkFile
import Verif.Props.Node
import Verif.Props.NodeConsistency
import Verif.Props.Objective
import Verif.Props.ObjectiveLimit
import Verif.Props.Options
import Verif.Props.Overlap
import Verif.Props.OverlapConv
import Verif.Props.OverlapRun
import Verif.Props.OverlapSmall
import Verif.Props.Plotting
import Verif.Props.Poisson
import Verif.Props.PoissonConsistency
import Verif.Props.PoissonGibbs
import Verif.Props.PoissonObjective
import Verif.Props.PoissonTime
import Verif.Props.PosDefUtils
import Verif.Props.Relabel
import Verif.Props.Scores
import Verif.Props.Screen
import Verif.Props.Sensitivity
import Verif.Props.Similarity
import Verif.Props.SimilarityKernel
import Verif.Props.Soft
import Verif.Props.SparseLatent
import Verif.Props.Spectral
import Verif.Props.Stability
import Verif.Props.StabilityMore
import Verif.Props.StructError
import Verif.Props.TGL
import Verif.Props.TiccNew
import Verif.Props.TiccOld
import Verif.Props.TimeConst
import Verif.Props.TimeConv
import Verif.Props.TimeGLM
import Verif.Props.TimeGLMConv
import Verif.Props.TimeGLMDiag
import Verif.Props.TimeNorm
import Verif.Props.TimeRelabel
import Verif.Props.TimeSeparate
import Verif.Props.Topics
import Verif.Props.Ungrouped
import Verif.Props.Unpenalised
import Verif.Props.Update
import Verif.Props.Utils
import Verif.Props.UtilsMore
import Verif.Props.Validation
import Verif.Props.WPFit
import Verif.Props.WarmStart
import Verif.Props.Wishart
import Verif.Props.WishartMean
import Verif.Audit
