import Verif.Config.Props
import Verif.Stopping.Props
import Verif.Diffusion.Props
import Verif.Posterior.Props
import Verif.Posterior.Eval
import Verif.Ode.Props
import Verif.Ode.StepRuleProps
import Verif.LinGauss.Props
import Verif.Kalman.Props
import Verif.Kalman.Exact
import Verif.Kalman.SmoothExact
import Verif.Kalman.Dense
import Verif.Kalman.SamplingProps
import Verif.IWP.Props
import Verif.SDE.Props
import Verif.Linops.PropsSolve
import Verif.Linops.PropsDerived
import Verif.Linops.PropsSelect
import Verif.Linops.PropsCast
import Verif.Quad.PropsNodes
import Verif.Quad.PropsLoop
import Verif.Quad.PropsMatern
import Verif.GramSchmidt.Props
import Verif.Merge.Props
import Verif.Iterated.Props
import Verif.Perturbed.Props
import Verif.Linalg.PropsUpdates
import Verif.Linalg.PropsLoop
import Verif.Linalg.PropsCG
import Verif.Linalg.PropsUnitVector
import Verif.Linalg.PropsMatrixBased
import Verif.Linalg.PropsProblinsolve
import Verif.RandVars.Props
import Verif.RandVars.PropsMatmul
import Verif.RandVars.PropsIndex
import Verif.RandVars.PropsIndexSpec
import Verif.RandVars.PropsCategorical
import Verif.Particle.Props
import Verif.Approx.Props
import Verif.OdeFilter.PropsInit
import Verif.OdeFilter.PropsRun
import Verif.Functions.Props
import Verif.Cov.PropsAlgebra
import Verif.Cov.PropsPsd
import Verif.GP.Props
import Verif.Quad.PropsExpQuad
import Verif.Zoo.PropsQuad
import Verif.Zoo.PropsQuadGauss
import Verif.Zoo.PropsIvp
import Verif.FiltSmooth.Props
import Verif.Linops.CholState
import Verif.Quad.PropsBayes
import Verif.Quad.PropsFront
import Verif.Quad.PropsMulti
import Verif.Quad.PropsPolicy
import Verif.Quad.PropsPrior
import Verif.Quad.Exists
import Verif.OdeFilter.PropsFit
import Verif.OdeFilter.PropsSolve
import Verif.Perturbed.PropsSolve
import Verif.RandVars.PropsDist
import Verif.RandVars.PropsGeneric
import Verif.OdeFilter.PropsAutodiff
import Verif.Zoo.PropsLinalg
import Verif.Zoo.PropsFiltSmooth
import Verif.Cov.PropsLinop
import Verif.Zoo.PropsEmukit
import Verif.Linalg.PropsSystemBelief
import Verif.RandVars.PropsScipy
import Verif.RandVars.PropsRvList
import Verif.Utils.PropsShape
import Verif.Linops.PropsVectorize
import Verif.Zoo.PropsIvpJax
import Verif.Ode.PropsEvents
import Verif.Linalg.PropsCalibration
import Verif.Kalman.DenseSamplingProps
import Verif.Particle.LinearizedProps
import Verif.SDE.TimeVaryingProps
import Verif.OdeFilter.DenseProps
import Verif.Linops.PropsCond
import Verif.Linops.PropsCall
import Verif.Markov.Props
import Verif.Linalg.PropsBayes
import Verif.Iterated.PropsComponent
import Verif.Iterated.PropsSmoother
import Verif.SDE.PropsMatern
import Verif.SDE.PropsRegression
import Verif.SDE.PropsCovariance
import Verif.OdeFilter.PropsOrder
import Verif.OdeFilter.PropsGlobal
import Verif.OdeFilter.PropsEvery
import Verif.Perturbed.PropsConverge
import Verif.Perturbed.PropsOrder
import Verif.Perturbed.PropsLinear
import Verif.Perturbed.PropsSharp
