import Mathlib.Analysis.SpecialFunctions.Pow.Real
import Mathlib.Data.Nat.Choose.Basic
import Verif.IWP.Precon

/-!
# Model: integrated Wiener process transitions

Models `integrator/_integrator.py`, `integrator/_preconditioner.py` and the transition of `integrator/_iwp.py`
(all under `src/probnum/randprocs/markov/`) with `config.matrix_free = False`, and `integrator/convert/_convert.py`.
-/

namespace Probnum.IWP

open Matrix Probnum.LinGauss Probnum.Kalman

/-- `np.kron(np.eye(d), B)`: row `r` belongs to block `r / k` and is row `r % k` of the block. -/
def kronEye (d : ℕ) {k l : ℕ} (B : Matrix (Fin k) (Fin l) ℝ) : Matrix (Fin (d * k)) (Fin (d * l)) ℝ :=
  Matrix.of fun r c => (if r.divNat = c.divNat then 1 else 0) * B r.modNat c.modNat

/-- A `NordsieckLikeCoordinates` object without its dimension (`_preconditioner.py` 49-63). -/
structure Nordsieck (k : ℕ) where
  powers : Fin k → ℝ
  scales : Fin k → ℝ

/-- `NordsieckLikeCoordinates.from_order` (`_preconditioner.py` 65-74): powers `q, q-1, …, 0`, plus one half, and their
factorials as scales. -/
noncomputable def Nordsieck.fromOrder (q : ℕ) : Nordsieck (q + 1) :=
  ⟨fun i => ((q - i.1 : ℕ) : ℝ) + 1 / 2, fun i => ((q - i.1).factorial : ℝ)⟩

/-- `NordsieckLikeCoordinates.inverse` (`_preconditioner.py` 84-90). -/
noncomputable def Nordsieck.inverse {k : ℕ} (c : Nordsieck k) : Nordsieck k := ⟨fun i => -c.powers i, fun i => 1 / c.scales i⟩

/-- `NordsieckLikeCoordinates.__call__` (`_preconditioner.py` 76-82) for `d` blocks. -/
noncomputable def Nordsieck.call {k : ℕ} (c : Nordsieck k) (d : ℕ) (step : ℝ) : Matrix (Fin (d * k)) (Fin (d * k)) ℝ :=
  kronEye d (Matrix.diagonal fun i => |step| ^ c.powers i / c.scales i)

/-- `precon(dt)`. -/
noncomputable def precon (q d : ℕ) (dt : ℝ) : Matrix (Fin (d * (q + 1))) (Fin (d * (q + 1))) ℝ :=
  (Nordsieck.fromOrder q).call d dt

/-- `precon.inverse(dt)` for `dt ≠ 0`. -/
noncomputable def preconInv (q d : ℕ) (dt : ℝ) : Matrix (Fin (d * (q + 1))) (Fin (d * (q + 1))) ℝ :=
  (Nordsieck.fromOrder q).inverse.call d dt

/-- `np.flip` of a matrix (both axes). -/
def flip {k l : ℕ} (M : Matrix (Fin k) (Fin l) ℝ) : Matrix (Fin k) (Fin l) ℝ := Matrix.of fun i j => M i.rev j.rev

/-- `scipy.linalg.pascal(k, kind="lower")`. -/
def pascalLower (k : ℕ) : Matrix (Fin k) (Fin k) ℝ := Matrix.of fun i j => (i.1.choose j.1 : ℝ)

/-- `scipy.linalg.hilbert(k)`. -/
noncomputable def hilbert (k : ℕ) : Matrix (Fin k) (Fin k) ℝ := Matrix.of fun i j => 1 / ((i.1 : ℝ) + j.1 + 1)

/-- `equivalent_discretisation_preconditioned` (`_iwp.py` 165-215): flipped Pascal matrix and flipped Hilbert matrix.
`np.linalg.cholesky(noise_1d)` is `chol`. -/
noncomputable def preconditioned (q d : ℕ) (chol : CovCholesky (q + 1)) :
    Transition (d * (q + 1)) (d * (q + 1)) where
  mat := kronEye d (flip (pascalLower (q + 1)))
  noise := ⟨0, kronEye d (flip (hilbert (q + 1))), kronEye d (chol.factor (flip (hilbert (q + 1))))⟩

/-- `IntegratedWienerTransition.discretise(dt)` (`_iwp.py` 282-317).  For `dt = 0` the inverse preconditioner is infinite
and the result is `nan`: `none`. -/
noncomputable def discretise (q d : ℕ) (chol : CovCholesky (q + 1)) (dt : ℝ) :
    Option (Transition (d * (q + 1)) (d * (q + 1))) :=
  open Classical in
  if dt = 0 then none else
    let tr := preconditioned q d chol
    some ⟨precon q d dt * tr.mat * preconInv q d dt,
      ⟨0, precon q d dt * tr.noise.cov * (precon q d dt)ᵀ, precon q d dt * tr.noise.chol⟩⟩

/-- `IntegratedWienerTransition.forward_rv` (`_iwp.py` 217-240), classic implementation; `none` is `nan`. -/
noncomputable def forwardRv (q d : ℕ) (chol : CovCholesky (q + 1)) (ch : CovCholesky (d * (q + 1))) (ε dt diffusion : ℝ)
    (rv : Rv (d * (q + 1))) : Option (PreForwarded (d * (q + 1))) :=
  open Classical in
  if dt = 0 then none else
    some (preForward ch ε (precon q d dt) (preconInv q d dt) (preconditioned q d chol) diffusion rv)

/-- Its gain. -/
noncomputable def forwardGain (q d : ℕ) (chol : CovCholesky (q + 1)) (ch : CovCholesky (d * (q + 1))) (ε dt diffusion : ℝ)
    (rv : Rv (d * (q + 1))) : Option (Res (Matrix (Fin (d * (q + 1))) (Fin (d * (q + 1))) ℝ)) :=
  open Classical in
  if dt = 0 then none else
    some (preGain ch ε (precon q d dt) (preconInv q d dt) (preconditioned q d chol) diffusion rv)

/-- `IntegratedWienerTransition.backward_rv` (`_iwp.py` 242-280), classic implementation; `none` is `nan`. -/
noncomputable def backwardRv (q d : ℕ) (chol : CovCholesky (q + 1)) (ch : CovCholesky (d * (q + 1))) (ε dt diffusion : ℝ)
    (obt rv : Rv (d * (q + 1))) (given : Option (Rv (d * (q + 1)) × Matrix (Fin (d * (q + 1))) (Fin (d * (q + 1))) ℝ)) :
    Option (Res (Rv (d * (q + 1)))) :=
  open Classical in
  if dt = 0 then none else
    some (preBackward ch ε (precon q d dt) (preconInv q d dt) (preconditioned q d chol) diffusion obt rv given)

/-! ## Coordinates -/

/-- `proj2coord(coord)` (`_integrator.py` 43-73). -/
def proj2coord (q d : ℕ) (coord : Fin (q + 1)) : Matrix (Fin (d * 1)) (Fin (d * (q + 1))) ℝ :=
  kronEye d (Matrix.of fun (_ : Fin 1) (j : Fin (q + 1)) => if j = coord then 1 else 0)

/-- The loop of `_derivwise2coordwise_projmat` (`_integrator.py` 75-110) after `num` iterations: iteration `p` writes rows
`p·d, …, (p+1)·d - 1` of the identity into rows `p, p + (q+1), p + 2(q+1), …`. -/
def projLoop (q d : ℕ) : ℕ → Matrix (Fin ((q + 1) * d)) (Fin ((q + 1) * d)) ℝ
  | 0 => 0
  | p + 1 => Matrix.of fun r c =>
      if r.1 % (q + 1) = p then (if c.1 = p * d + r.1 / (q + 1) then 1 else 0) else projLoop q d p r c

/-- `_derivwise2coordwise_projmat`. -/
def derivwise2coordwise (q d : ℕ) : Matrix (Fin ((q + 1) * d)) (Fin ((q + 1) * d)) ℝ := projLoop q d (q + 1)

/-- `_coordwise2derivwise_projmat` (`_integrator.py` 112-135). -/
def coordwise2derivwise (q d : ℕ) : Matrix (Fin ((q + 1) * d)) (Fin ((q + 1) * d)) ℝ := (derivwise2coordwise q d)ᵀ

/-- `convert_derivwise_to_coordwise` (`convert/_convert.py` 9-30). -/
def convertDerivwiseToCoordwise (q d : ℕ) (state : Fin ((q + 1) * d) → ℝ) : Fin ((q + 1) * d) → ℝ :=
  derivwise2coordwise q d *ᵥ state

/-- `convert_coordwise_to_derivwise` (`convert/_convert.py` 33-54). -/
def convertCoordwiseToDerivwise (q d : ℕ) (state : Fin ((q + 1) * d) → ℝ) : Fin ((q + 1) * d) → ℝ :=
  coordwise2derivwise q d *ᵥ state

end Probnum.IWP
