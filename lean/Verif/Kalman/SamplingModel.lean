import Verif.Kalman.StateSpace

/-!
# Model: transforming base measure realizations into joint samples

Models `jointly_transform_base_measure_realization_list_forward` and `..._backward`
(`src/probnum/randprocs/markov/_transition.py` 347-477) for linear Gaussian transitions, and the single-sample case of
`MarkovProcess._sample_at_input` (`_markov.py` 51-70).
Simplification: `cov_cholesky` is any exact square root of the covariance (the code's
`damped cholesky` adds `1e-12` to the diagonal).
-/

namespace Probnum.Kalman

open Matrix Probnum.LinGauss

variable {n : ℕ}

/-- `Normal.cov_cholesky`, computed from the covariance. -/
structure CovCholesky (n : ℕ) where
  factor : Matrix (Fin n) (Fin n) ℝ → Matrix (Fin n) (Fin n) ℝ
  gram : ∀ C : Matrix (Fin n) (Fin n) ℝ, C.PosSemidef → factor C * (factor C)ᵀ = C

/-- `curr_rv.mean + curr_rv.cov_cholesky @ base_measure_realizations[i]`. -/
def transformBase (ch : CovCholesky n) (rv : Updated n) (b : Fin n → ℝ) : Fin n → ℝ := rv.mean + ch.factor rv.cov *ᵥ b

/-- The loop of the backward transformation (`_transition.py` 387-412): entries are
`(rv_list[idx-1], t[idx-1], _diffusion_list[idx-1], base[idx-1])` in descending order of `idx`;
`backward_realization` wraps the sample in a `Constant`. -/
def sampleBackFrom (prior : Prior ℝ (Updated n) ℝ) (ch : CovCholesky n) :
    (Fin n → ℝ) → ℝ → List (Updated n × ℝ × ℝ × (Fin n → ℝ)) → Res (List (Fin n → ℝ))
  | _, _, [] => .ok []
  | x, t, (rv, t', d, b) :: rest => do
    let c ← prior.backward ⟨x, 0⟩ rv t' (t - t') d none
    let more ← sampleBackFrom prior ch (transformBase ch c b) t' rest
    .ok (transformBase ch c b :: more)

/-- `jointly_transform_base_measure_realization_list_backward` (`_transition.py` 347-414) for `N + 1` random variables
`rv 0, …, rv N` at times `t 0, …, t N`. -/
def sampleBackward (prior : Prior ℝ (Updated n) ℝ) (ch : CovCholesky n) (N : ℕ) (base : ℕ → Fin n → ℝ) (t : ℕ → ℝ)
    (rv : ℕ → Updated n) (d : ℕ → ℝ) : Res (List (Fin n → ℝ)) := do
  let last := transformBase ch (rv N) (base N)
  let out ← sampleBackFrom prior ch last (t N) ((List.range N).reverse.map fun i => (rv i, t i, d i, base i))
  .ok (out.reverse ++ [last])

/-- The loop of the forward transformation (`_transition.py` 456-477): entry `idx` uses `base[idx-1]`. -/
def sampleForwFrom (prior : Prior ℝ (Updated n) ℝ) (ch : CovCholesky n) :
    (Fin n → ℝ) → ℝ → List (ℝ × (Fin n → ℝ)) → Res (List (Fin n → ℝ))
  | _, _, [] => .ok []
  | x, t, (t', b) :: rest => do
    let c ← prior.forward ⟨x, 0⟩ t (t' - t) none
    let more ← sampleForwFrom prior ch (transformBase ch c b) t' rest
    .ok (transformBase ch c b :: more)

/-- `jointly_transform_base_measure_realization_list_forward` (`_transition.py` 416-477) at times `t 0, …, t N` with unit
diffusions, as called by `MarkovProcess._sample_at_input` (`_markov.py` 61-73): the first sample uses `base[0]`, sample
`idx ≥ 1` uses `base[idx - 1]`. -/
def sampleForward (prior : Prior ℝ (Updated n) ℝ) (ch : CovCholesky n) (N : ℕ) (base : ℕ → Fin n → ℝ) (t : ℕ → ℝ)
    (initrv : Updated n) : Res (List (Fin n → ℝ)) := do
  let first := transformBase ch initrv (base 0)
  let out ← sampleForwFrom prior ch first (t 0) ((List.range N).map fun i => (t (i + 1), base i))
  .ok (first :: out)

end Probnum.Kalman
