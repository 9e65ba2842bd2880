import Verif.SDE.Model

/-!
# Constructors of the Matérn and integrated Ornstein-Uhlenbeck processes
-/

namespace Probnum.SDE

open LinGauss Matrix

/-- The initial random variable of `MaternProcess.__init__` (`integrator/_matern.py` 98-114) and
`IntegratedOrnsteinUhlenbeckProcess.__init__` (`integrator/_ioup.py` 98-114): the argument, or a normal random variable whose
covariance is the entrywise square of `scale · I`, which is also the stored Cholesky factor.  The warning is not modelled. -/
noncomputable def initRv (n : ℕ) (initrv : Option (IWP.Rv n)) (diffuse : Bool) : IWP.Rv n :=
  match initrv with
  | some rv => rv
  | none =>
    let scale : ℝ := if diffuse then 1000 else 1
    ⟨0, Matrix.of fun i j => (scale * (1 : Matrix (Fin n) (Fin n) ℝ) i j) ^ 2, some (scale • 1)⟩

end Probnum.SDE
