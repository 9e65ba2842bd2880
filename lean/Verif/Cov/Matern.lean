import Mathlib.Data.Rat.Cast.CharZero
import Mathlib.Analysis.SpecialFunctions.Exp
import Mathlib.Analysis.SpecialFunctions.Pow.Real
import Verif.Cov.Bessel

/-!
# Matérn covariance functions

Models `src/probnum/randprocs/covfuncs/_matern.py`.

Numbers are exact: the coefficients are rational (as in the code), the values real.  `scipy.special.kv` and
`scipy.special.gamma` are the mathematical functions.
-/

namespace Probnum.Cov

/-- The loop `for i in range(p - 1, -1, -1)` of `half_integer_coefficients`: `n` is the number of remaining turns, the
loop variable is `i = n - 1`.
`src/probnum/randprocs/covfuncs/_matern.py:259-260`. -/
def coeffLoop (p : ℕ) : ℕ → List ℚ → List ℚ
  | 0, cs => cs
  | i + 1, cs => coeffLoop p i (cs ++ [cs.getLastD 0 * 2 * (i + 1) / (p + i + 1) / (p - i)])

/-- `Matern.half_integer_coefficients`: `_matern.py:227-262`. -/
def halfIntegerCoefficients (p : ℕ) : List ℚ := coeffLoop p p [1]

/-- The loop `for i in range(self.p - 1, -1, -1)` of `Matern._evaluate` (Horner's method): `n` is the number of remaining
turns. `_matern.py:186-188`. -/
noncomputable def hornerLoop (cs : List ℚ) (u : ℝ) : ℕ → ℝ → ℝ
  | 0, res => res
  | i + 1, res => hornerLoop cs u i (res * u + (cs.getD i 0 : ℚ))

/-- The value of a Matérn covariance function with `ν = p + 1/2` at a scaled distance `u`: `_matern.py:180-193`. -/
noncomputable def maternValue (p : ℕ) (u : ℝ) : ℝ :=
  hornerLoop (halfIntegerCoefficients p) u p ((halfIntegerCoefficients p).getD p 0 : ℚ) * Real.exp (-u)

/-- A Matérn covariance function of scalar inputs, `ν = p + 1/2`, lengthscale `l`: the scaled distance is
`|√(2ν)/l · x0 - √(2ν)/l · x1|`-like; `_matern.py:171-178` with `_covariance_function.py`
(`IsotropicMixin._euclidean_distances`: square root of the sum of the squares of the scaled differences). -/
noncomputable def matern1 (p : ℕ) (l x0 x1 : ℝ) : ℝ :=
  maternValue p (Real.sqrt ((Real.sqrt (2 * (p + 1 / 2)) / l * (x0 - x1)) ^ 2))

/-- `np.finfo(np.float64).eps`. -/
noncomputable def machineEps : ℝ := (1 / 2) ^ 52

/-- `_matern_bessel` (`_matern.py:270-279`), for double precision. -/
noncomputable def maternBessel (ν u : ℝ) : ℝ :=
  2 ^ (1 - ν) / Real.Gamma ν * max u machineEps ^ ν * besselK ν (max u machineEps)

/-- `Matern._evaluate` as a function of the scaled distance, for `ν > 0` (`_matern.py:176-193` with the property `p`,
142-155). -/
noncomputable def maternRadial (ν u : ℝ) : ℝ :=
  if ν - 1 / 2 = (⌊ν - 1 / 2⌋₊ : ℕ) then maternValue ⌊ν - 1 / 2⌋₊ u else maternBessel ν u

end Probnum.Cov
