import Verif.OdeFilter.PropsOrder

/-!
# Specification: the recursion of EK0

One dimension of an integrated Wiener process with `q` derivatives, predicted and then observed exactly in its first
derivative; and the trapezoidal rule with an explicit prediction.
-/

namespace Probnum.OdeFilter

open Matrix

variable {d q : ℕ}

/-- The covariance of one dimension after the prediction over a step `h` with squared diffusion `s`. -/
noncomputable def predCov (q : ℕ) (s h : ℝ) (P : Matrix (Fin (q + 1)) (Fin (q + 1)) ℝ) : Matrix (Fin (q + 1)) (Fin (q + 1)) ℝ :=
  IWP.taylor q h * P * (IWP.taylor q h)ᵀ + s • IWP.noiseCov q h

/-- The covariance after observing the coordinate `a` exactly. -/
noncomputable def observeCov (Q : Matrix (Fin (q + 1)) (Fin (q + 1)) ℝ) (a : Fin (q + 1)) : Matrix (Fin (q + 1)) (Fin (q + 1)) ℝ :=
  Matrix.of fun k l => Q k l - Q k a * Q l a / Q a a

/-- The covariance of one dimension at the last of the given times, started with `P` at the first: at every further time
predict with unit diffusion and observe the first derivative exactly.  It does not mention an ODE. -/
noncomputable def covAfter (q : ℕ) (a : Fin (q + 1)) : Matrix (Fin (q + 1)) (Fin (q + 1)) ℝ → List ℝ → Matrix (Fin (q + 1)) (Fin (q + 1)) ℝ
  | P, [] => P
  | P, [_] => P
  | P, t :: t' :: ts => covAfter q a (observeCov (predCov q 1 (t' - t) P) a) (t' :: ts)

/-- The sum of the third powers of the distances of consecutive times. -/
noncomputable def sumCubes : List ℝ → ℝ
  | [] => 0
  | [_] => 0
  | t :: t' :: ts => (t' - t) ^ 3 + sumCubes (t' :: ts)

/-- One step of the trapezoidal rule from the value `x` and the derivative `v`: the derivative at the new time is the vector
field at the explicit Euler prediction. -/
noncomputable def trapezoidStep (g : (Fin d → ℝ) → Fin d → ℝ) (h : ℝ) (x v : Fin d → ℝ) : (Fin d → ℝ) × (Fin d → ℝ) :=
  (x + (h / 2) • (v + g (x + h • v)), g (x + h • v))

end Probnum.OdeFilter
