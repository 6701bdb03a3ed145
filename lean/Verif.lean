import Verif.Model.GraphQuery
import Verif.Spec.Graph
import Verif.Lemmas.GraphQuery
import Verif.Props.Graph
import Verif.Model.BayesBall
import Verif.Spec.DSep
import Verif.Lemmas.BayesBall
import Verif.Props.BayesBall
import Verif.Model.MonteCarlo
import Verif.Spec.MonteCarlo
import Verif.Props.MonteCarlo
import Verif.Model.Run
import Verif.Props.Run
import Verif.Model.Gan
import Verif.Props.Gan
import Verif.Model.MultinomialMode
import Verif.Spec.Multinomial
import Verif.Props.MultinomialMode
import Verif.Model.Shape
import Verif.Spec.Shape
import Verif.Model.CheckData
import Verif.Props.CheckData
import Verif.Model.Progbar
import Verif.Props.Progbar
import Verif.Model.Session
import Verif.Props.Session
import Verif.Model.RandomVar
import Verif.Props.RandomVar
import Verif.Model.MetropolisHastings
import Verif.Lemmas.Accept
import Verif.Lemmas.MHKernel
import Verif.Props.MetropolisHastings
import Verif.Model.Hmc
import Verif.Props.Hmc
import Verif.Model.ReplicaExchange
import Verif.Props.ReplicaExchange
import Verif.Model.Gibbs
import Verif.Props.Gibbs
import Verif.Model.Langevin
import Verif.Props.Langevin
import Verif.Model.Metrics
import Verif.Props.Metrics
import Verif.Model.Criticism
import Verif.Props.Criticism
import Verif.Model.TensorUtil
import Verif.Props.TensorUtil
import Verif.Model.Distributions
import Verif.Props.Distributions
import Verif.Model.Variational
import Verif.Spec.Variational
import Verif.Lemmas.Variational
import Verif.Props.Variational
import Verif.Props.ScoreGradient
import Verif.Props.Elbo
import Verif.Model.Laplace
import Verif.Props.Laplace
import Verif.Model.Simplify
import Verif.Spec.Simplify
import Verif.Lemmas.SimplifyTerm
import Verif.Lemmas.SimplifyLoop
import Verif.Lemmas.SimplifySound
import Verif.Props.Simplify
import Verif.Lemmas.SimplifyRules
import Verif.Lemmas.SimplifyShape
import Verif.Lemmas.SimplifyConst
import Verif.Props.SimplifySound
import Verif.Model.Conjugacy
import Verif.Props.Multipliers
import Verif.Model.ConjugateLogProbs
import Verif.Spec.Densities
import Verif.Props.ConjugateLogProbs
import Verif.Model.NaturalParams
import Verif.Spec.NaturalParams
import Verif.Props.NaturalParams
import Verif.Model.Transform
import Verif.Spec.Transform
import Verif.Props.Transform
import Verif.Model.Unconstrained
import Verif.Lemmas.ChangeOfVariables
import Verif.Props.Unconstrained
import Verif.Model.Copy
import Verif.Spec.Copy
import Verif.Lemmas.Copy
import Verif.Lemmas.CopySubst
import Verif.Lemmas.CopyTotal
import Verif.Lemmas.CopyMemo
import Verif.Props.Copy
import Verif.Model.CompleteConditional
import Verif.Spec.CompleteConditional
import Verif.Lemmas.CompleteConditional
import Verif.Props.CompleteConditional
import Verif.Props.CompleteConditionalExamples
import Verif.Model.StochasticGradient
import Verif.Props.StochasticGradient
import Verif.Model.WakeSleep
import Verif.Props.WakeSleep
import Verif.Model.Implicit
import Verif.Props.Implicit
import Verif.Model.LogJointCache
import Verif.Props.LogJointCache
import Verif.Model.Feed
import Verif.Props.Feed
import Verif.Model.Debug
import Verif.Props.Debug
import Verif.Model.McmcTarget
import Verif.Props.McmcTarget
import Verif.Props.ScoreGradientGeneral
import Verif.Props.ScoreGradientRb
import Verif.Props.DirichletLaw
import Verif.Model.DpObject
import Verif.Model.StoreCast
import Verif.Props.DpObject
import Verif.Props.StoreCast
import Verif.Props.Klpq
import Verif.Model.StructuredApprox
import Verif.Props.StructuredApprox
import Verif.Model.Optimizer
import Verif.Props.Optimizer
import Verif.Model.GanLoss
import Verif.Props.GanLoss
import Verif.Props.WganPenalty
import Verif.Model.Predict
import Verif.Props.Predict
import Verif.Lemmas.Ergodic
import Verif.Model.Convergence
import Verif.Props.Convergence
import Verif.Lemmas.Draws
import Verif.Model.GibbsChain
import Verif.Props.GibbsChain
import Verif.Lemmas.GaussianChain
import Verif.Lemmas.GaussianPosterior
import Verif.Lemmas.DecreasingSteps
import Verif.Model.LangevinChain
import Verif.Props.LangevinChain
import Verif.Props.SghmcChain
import Verif.Lemmas.Positive
import Verif.Lemmas.ErgodicAverage
import Verif.Props.ConvergenceGeneral
import Verif.Props.GibbsGeneral
import Verif.Lemmas.Spread
import Verif.Model.HmcChain
import Verif.Props.HmcChain
import Verif.Props.HmcMean
import Verif.Lemmas.PiMeasure
import Verif.Lemmas.Fades
import Verif.Lemmas.MHReach
import Verif.Model.ReplicaChain
import Verif.Props.ReplicaChain
import Verif.Model.ListInit
import Verif.Props.ListInit
import Verif.Model.Descent
import Verif.Spec.Descent
import Verif.Lemmas.RobbinsMonro
import Verif.Props.Descent
import Verif.Props.DescentScore
import Verif.Props.MapDescent
import Verif.Model.NamedOptimizers
import Verif.Props.NamedOptimizers
import Verif.Model.Arguments
import Verif.Spec.Arguments
import Verif.Props.Arguments
import Verif.Model.Seeds
import Verif.Props.Seeds
import Verif.Model.Dot
import Verif.Props.Dot
import Verif.Model.Blankets
import Verif.Spec.Blankets
import Verif.Props.ScoreGradientBlanket
import Verif.Props.KlpqFinite
import Verif.Model.PointShapes
import Verif.Props.PointShapes
import Verif.Model.Expressions
import Verif.Props.Expressions
import Verif.Model.LiveList
import Verif.Props.LiveList
import Verif.Props.AcceptCounts
import Verif.Model.Batch
import Verif.Spec.Batch
import Verif.Props.Batch
import Verif.Props.BatchDescent
import Verif.Model.Compose
import Verif.Spec.Compose
import Verif.Props.Compose
import Verif.Model.VarList
import Verif.Spec.VarList
import Verif.Props.VarList
import Verif.Spec.Implicit
import Verif.Props.ImplicitGradient
import Verif.Props.GradientVariance
import Verif.Model.Observe
import Verif.Spec.Observe
import Verif.Props.Observe
import Verif.Model.MixtureInference
import Verif.Spec.MixtureInference
import Verif.Props.MixtureInference
import Verif.Model.CopyArgs
import Verif.Spec.CopyArgs
import Verif.Props.CopyArgs
import Verif.Model.KlqpVariants
import Verif.Spec.KlqpVariants
import Verif.Props.KlqpVariants
import Verif.Model.Nuisance
import Verif.Spec.Nuisance
import Verif.Props.Nuisance
import Verif.Model.Conditional
import Verif.Spec.Conditional
import Verif.Props.Conditional
import Verif.Model.HmcConditional
import Verif.Props.HmcConditional
import Verif.Props.HmcOverdispersed
import Verif.Model.Ftrl
import Verif.Props.Ftrl
import Verif.Model.MixtureArgs
import Verif.Spec.MixtureArgs
import Verif.Props.MixtureArgs
import Verif.Model.Summaries
import Verif.Spec.Summaries
import Verif.Props.Summaries
import Verif.Props.SghmcNew
import Verif.Props.KlpqConditional
import Verif.Props.SghmcMixed
import Verif.Model.ImplicitArgs
import Verif.Spec.ImplicitArgs
import Verif.Props.ImplicitArgs
import Verif.Model.MixtureMoments
import Verif.Props.MixtureMoments
