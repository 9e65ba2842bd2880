import Verif.SDE.FundamentalExists
import Verif.SDE.Props
import Verif.LinGauss.Props

/-!
# C101: linear SDEs with time-varying coefficients

Specification: with a fundamental matrix `Ψ` of `x' = G(t) x`, the solution of `dx = (G(t) x + u(t)) dt + L(t) dw` satisfies
`x(b) = Φ(b, a) x(a) + w`, where `Φ(b, a) = Ψ(b) Ψ(a)⁻¹` and `w` is normal and independent of `x(a)`, with mean `∫ₐᵇ Φ(b, τ) u(τ) dτ`
and covariance `d ∫ₐᵇ Φ(b, τ) L(τ) L(τ)ᵀ Φ(b, τ)ᵀ dτ`.
-/

namespace Probnum.SDE

open MeasureTheory ProbabilityTheory Matrix Set Probnum.LinGauss Probnum.Kalman Probnum.Gauss

variable {n s : ℕ}

/-! ## Specification -/

/-- `Ψ` is a fundamental matrix of `x' = G(t) x`. -/
structure Fundamental (G Ψ : ℝ → Matrix (Fin n) (Fin n) ℝ) : Prop where
  deriv : ∀ t i j, HasDerivAt (fun τ => Ψ τ i j) ((G t * Ψ t) i j) t
  det : ∀ t, (Ψ t).det ≠ 0

/-- There is a fundamental matrix for all continuous coefficients, so that the theorems below apply to all of them. -/
theorem exists_fundamental {G : ℝ → Matrix (Fin n) (Fin n) ℝ} (hG : Continuous G) : ∃ Ψ, Fundamental G Ψ := by
  obtain ⟨Ψ, h1, h2⟩ := exists_fundamental_matrix hG
  exact ⟨Ψ, h1, h2⟩

/-- The state transition matrix from time `a` to time `b`. -/
noncomputable def transMat (Ψ : ℝ → Matrix (Fin n) (Fin n) ℝ) (b a : ℝ) : Matrix (Fin n) (Fin n) ℝ := Ψ b * (Ψ a)⁻¹

/-- The mean of the noise. -/
noncomputable def noiseMean (Ψ : ℝ → Matrix (Fin n) (Fin n) ℝ) (u : ℝ → Fin n → ℝ) (b a : ℝ) : Fin n → ℝ :=
  fun i => ∫ τ in a..b, (transMat Ψ b τ *ᵥ u τ) i

/-- The covariance of the noise, for unit diffusion. -/
noncomputable def noiseCovar (Ψ : ℝ → Matrix (Fin n) (Fin n) ℝ) (L : ℝ → Matrix (Fin n) (Fin s) ℝ) (b a : ℝ) :
    Matrix (Fin n) (Fin n) ℝ :=
  Matrix.of fun i j => ∫ τ in a..b, (transMat Ψ b τ * L τ * (transMat Ψ b τ * L τ)ᵀ) i j

/-- `sol` solves `y' = f(t, y)` from time `a` to time `b`, with `y(a) = y₀`. -/
structure IsSolution (f : ℝ → Moments n → Moments n) (a b : ℝ) (y₀ : Moments n) (sol : ℝ → Moments n) : Prop where
  start : sol a = y₀
  mean : ∀ τ ∈ uIcc a b, ∀ i, HasDerivWithinAt (fun σ => (sol σ).mean i) ((f τ (sol τ)).mean i) (uIcc a b) τ
  cov : ∀ τ ∈ uIcc a b, ∀ i j, HasDerivWithinAt (fun σ => (sol σ).cov i j) ((f τ (sol τ)).cov i j) (uIcc a b) τ

/-- An ODE solver without error: it returns a solution if there is one. -/
def Exact (solve : Solver n) : Prop :=
  ∀ f a b y₀, (∃ sol, IsSolution f a b y₀ sol) → IsSolution f a b y₀ (solve f a b y₀)

open Classical in
theorem exists_exact (n : ℕ) : ∃ solve : Solver n, Exact solve := by
  refine ⟨fun f a b y₀ => if h : ∃ sol, IsSolution f a b y₀ sol then h.choose else fun _ => y₀, fun f a b y₀ h => ?_⟩
  simp only [dif_pos h]
  exact h.choose_spec

/-! ## Explicit solutions -/

section Explicit

variable {G Ψ : ℝ → Matrix (Fin n) (Fin n) ℝ} (hΨ : Fundamental G Ψ)
include hΨ

theorem Fundamental.isUnit (t : ℝ) : IsUnit (Ψ t).det := isUnit_iff_ne_zero.2 (hΨ.det t)

theorem Fundamental.inv_deriv (t : ℝ) : MDeriv (fun s => (Ψ s)⁻¹) (-((Ψ t)⁻¹ * G t)) t := by
  refine (MDeriv.inv (hΨ.deriv t) (hΨ.det t)).congr ?_
  rw [← Matrix.mul_assoc (Ψ t)⁻¹, Matrix.mul_assoc _ (Ψ t), Matrix.mul_nonsing_inv _ (hΨ.isUnit t), Matrix.mul_one]

theorem Fundamental.continuous_inv : Continuous fun t => (Ψ t)⁻¹ :=
  continuous_matrix fun i j => continuous_iff_continuousAt.2 fun t => (hΨ.inv_deriv t i j).continuousAt

theorem Fundamental.trans_continuous (b : ℝ) : Continuous fun τ => transMat Ψ b τ :=
  continuous_const.matrix_mul hΨ.continuous_inv

theorem Fundamental.trans_self (a : ℝ) : transMat Ψ a a = 1 := Matrix.mul_nonsing_inv _ (hΨ.isUnit a)

theorem Fundamental.trans_deriv (a t : ℝ) : MDeriv (fun b => transMat Ψ b a) (G t * transMat Ψ t a) t := by
  refine (MDeriv.mul (B := fun _ => (Ψ a)⁻¹) (hΨ.deriv t) (MDeriv.const _)).congr ?_
  simp [transMat, Matrix.mul_assoc]

theorem Fundamental.noiseMean_eq {u : ℝ → Fin n → ℝ} (hu : Continuous u) (a b : ℝ) :
    Matrix.replicateCol Unit (noiseMean Ψ u b a) = Ψ b * intM (fun τ => (Ψ τ)⁻¹ * Matrix.replicateCol Unit (u τ)) a b := by
  have hc : Continuous fun τ => (Ψ τ)⁻¹ * Matrix.replicateCol Unit (u τ) :=
    hΨ.continuous_inv.matrix_mul (continuous_matrix fun i _ => (continuous_pi_iff.1 hu i))
  rw [mul_intM hc]
  ext i j
  simp only [noiseMean, intM, Matrix.replicateCol_apply, Matrix.of_apply, transMat]
  refine intervalIntegral.integral_congr fun τ _ => ?_
  show ((Ψ b * (Ψ τ)⁻¹) *ᵥ u τ) i = (Ψ b * ((Ψ τ)⁻¹ * Matrix.replicateCol Unit (u τ))) i j
  rw [← Matrix.mul_assoc]
  rfl

theorem Fundamental.noiseCovar_eq {L : ℝ → Matrix (Fin n) (Fin s) ℝ} (hL : Continuous L) (a b : ℝ) :
    noiseCovar Ψ L b a = Ψ b * intM (fun τ => (Ψ τ)⁻¹ * L τ * ((Ψ τ)⁻¹ * L τ)ᵀ) a b * (Ψ b)ᵀ := by
  have hc : Continuous fun τ => (Ψ τ)⁻¹ * L τ * ((Ψ τ)⁻¹ * L τ)ᵀ :=
    (hΨ.continuous_inv.matrix_mul hL).matrix_mul (hΨ.continuous_inv.matrix_mul hL).matrix_transpose
  rw [mul_intM hc, intM_mul (continuous_const.matrix_mul hc)]
  ext i j
  simp only [noiseCovar, intM, Matrix.of_apply, transMat]
  refine intervalIntegral.integral_congr fun τ _ => ?_
  simp only [Matrix.transpose_mul, Matrix.mul_assoc]

theorem Fundamental.noiseMean_deriv {u : ℝ → Fin n → ℝ} (hu : Continuous u) (a t : ℝ) :
    VDeriv (fun b => noiseMean Ψ u b a) (G t *ᵥ noiseMean Ψ u t a + u t) t := by
  have hc : Continuous fun τ => (Ψ τ)⁻¹ * Matrix.replicateCol Unit (u τ) :=
    hΨ.continuous_inv.matrix_mul (continuous_matrix fun i _ => (continuous_pi_iff.1 hu i))
  have h := MDeriv.mul (hΨ.deriv t) (intM_deriv hc a t)
  simp only [← hΨ.noiseMean_eq hu] at h
  rw [Matrix.mul_assoc, ← hΨ.noiseMean_eq hu, ← Matrix.mul_assoc, Matrix.mul_nonsing_inv _ (hΨ.isUnit t), Matrix.one_mul] at h
  intro i
  have := h i ()
  simpa [Matrix.mul_apply, Matrix.mulVec, dotProduct] using this

theorem Fundamental.noiseCovar_deriv {L : ℝ → Matrix (Fin n) (Fin s) ℝ} (hL : Continuous L) (a t : ℝ) :
    MDeriv (fun b => noiseCovar Ψ L b a) (G t * noiseCovar Ψ L t a + noiseCovar Ψ L t a * (G t)ᵀ + L t * (L t)ᵀ) t := by
  have hc : Continuous fun τ => (Ψ τ)⁻¹ * L τ * ((Ψ τ)⁻¹ * L τ)ᵀ :=
    (hΨ.continuous_inv.matrix_mul hL).matrix_mul (hΨ.continuous_inv.matrix_mul hL).matrix_transpose
  have h := (MDeriv.mul (hΨ.deriv t) (intM_deriv hc a t)).mul (MDeriv.transpose (hΨ.deriv t))
  simp only [← hΨ.noiseCovar_eq hL] at h
  refine h.congr ?_
  rw [hΨ.noiseCovar_eq hL]
  have e1 : Ψ t * ((Ψ t)⁻¹ * L t * ((Ψ t)⁻¹ * L t)ᵀ) * (Ψ t)ᵀ = L t * (L t)ᵀ := by
    have : (Ψ t * ((Ψ t)⁻¹ * L t)) * (Ψ t * ((Ψ t)⁻¹ * L t))ᵀ = L t * (L t)ᵀ := by
      rw [← Matrix.mul_assoc (Ψ t), Matrix.mul_nonsing_inv _ (hΨ.isUnit t), Matrix.one_mul]
    rw [← this]
    simp only [Matrix.transpose_mul, Matrix.mul_assoc]
  generalize intM (fun τ => (Ψ τ)⁻¹ * L τ * ((Ψ τ)⁻¹ * L τ)ᵀ) a t = Z
  rw [Matrix.add_mul, e1]
  simp only [Matrix.transpose_mul, Matrix.mul_assoc]
  abel

theorem Fundamental.noiseMean_self (u : ℝ → Fin n → ℝ) (a : ℝ) : noiseMean Ψ u a a = 0 := by
  ext i; simp [noiseMean]

theorem Fundamental.noiseCovar_self (L : ℝ → Matrix (Fin n) (Fin s) ℝ) (a : ℝ) : noiseCovar Ψ L a a = 0 := by
  ext i j; simp [noiseCovar]

theorem Fundamental.noiseCovar_posSemidef {L : ℝ → Matrix (Fin n) (Fin s) ℝ} (hL : Continuous L) {a b : ℝ} (hab : a ≤ b) :
    (noiseCovar Ψ L b a).PosSemidef := by
  refine intM_posSemidef (F := fun τ => transMat Ψ b τ * L τ * (transMat Ψ b τ * L τ)ᵀ) ?_ (fun τ => ?_) hab
  · have := (hΨ.trans_continuous b).matrix_mul hL
    exact this.matrix_mul this.matrix_transpose
  · have := Matrix.posSemidef_self_mul_conjTranspose (transMat Ψ b τ * L τ)
    rwa [Matrix.conjTranspose_eq_transpose_of_trivial] at this

end Explicit

/-- The exact transition from time `a` to time `b`; the Cholesky factor plays no role. -/
noncomputable def exactTransition (sde : LinearSDE n s) (Ψ : ℝ → Matrix (Fin n) (Fin n) ℝ) (b a : ℝ) : Transition n n :=
  ⟨transMat Ψ b a, ⟨noiseMean Ψ sde.force b a, noiseCovar Ψ sde.dispersion b a, 0⟩⟩

/-- The moments of the exact solution. -/
noncomputable def exactMoments (sde : LinearSDE n s) (Ψ : ℝ → Matrix (Fin n) (Fin n) ℝ) (d a : ℝ) (rv : Normal n) (b : ℝ) : Moments n :=
  ⟨transMat Ψ b a *ᵥ rv.mean + noiseMean Ψ sde.force b a,
    transMat Ψ b a * rv.cov * (transMat Ψ b a)ᵀ + d • noiseCovar Ψ sde.dispersion b a⟩

/-- Solutions of linear equations for vectors are unique. -/
theorem mean_unique {a b : ℝ} {Θ H : ℝ → Matrix (Fin n) (Fin n) ℝ} {c x y : ℝ → Fin n → ℝ}
    (hΘ : ∀ t ∈ uIcc a b, MDeriv Θ (H t * Θ t) t) (hdet : ∀ t ∈ uIcc a b, (Θ t).det ≠ 0)
    (hx : ∀ t ∈ uIcc a b, ∀ i, HasDerivWithinAt (fun s => x s i) ((H t *ᵥ x t + c t) i) (uIcc a b) t)
    (hy : ∀ t ∈ uIcc a b, ∀ i, HasDerivWithinAt (fun s => y s i) ((H t *ᵥ y t + c t) i) (uIcc a b) t) (h0 : x a = y a) :
    ∀ t ∈ uIcc a b, x t = y t := by
  intro t ht
  have := lin_unique (κ := Unit) (X := fun t => Matrix.replicateCol Unit (x t)) (Y := fun t => Matrix.replicateCol Unit (y t))
    (C := fun t => Matrix.replicateCol Unit (c t)) hΘ hdet
    (fun t ht i _ => by simpa [Matrix.mul_apply, Matrix.mulVec, dotProduct] using hx t ht i)
    (fun t ht i _ => by simpa [Matrix.mul_apply, Matrix.mulVec, dotProduct] using hy t ht i) (by rw [h0]) t ht
  exact Matrix.replicateCol_injective this

section Forward

variable {sde : LinearSDE n s} {Ψ : ℝ → Matrix (Fin n) (Fin n) ℝ} (hΨ : Fundamental sde.drift Ψ) (hu : Continuous sde.force)
  (hL : Continuous sde.dispersion)
include hΨ hu hL

theorem exactMoments_mean_deriv (d a : ℝ) (rv : Normal n) (t : ℝ) :
    VDeriv (fun b => (exactMoments sde Ψ d a rv b).mean)
      (sde.drift t *ᵥ (exactMoments sde Ψ d a rv t).mean + sde.force t) t := by
  refine ((VDeriv.mulVec (hΨ.trans_deriv a t) (VDeriv.const rv.mean)).add (hΨ.noiseMean_deriv hu a t)).congr ?_
  simp only [exactMoments, Matrix.mulVec_zero, add_zero, Matrix.mulVec_add, Matrix.mulVec_mulVec]
  abel

theorem exactMoments_cov_deriv (d a : ℝ) (rv : Normal n) (t : ℝ) :
    MDeriv (fun b => (exactMoments sde Ψ d a rv b).cov)
      (sde.drift t * (exactMoments sde Ψ d a rv t).cov + (exactMoments sde Ψ d a rv t).cov * (sde.drift t)ᵀ
        + d • (sde.dispersion t * (sde.dispersion t)ᵀ)) t := by
  refine ((((hΨ.trans_deriv a t).mul (MDeriv.const rv.cov)).mul (hΨ.trans_deriv a t).transpose).add
    ((hΨ.noiseCovar_deriv hL a t).smul d)).congr ?_
  simp only [exactMoments, Matrix.mul_zero, add_zero, Matrix.transpose_mul, Matrix.mul_add, Matrix.add_mul, smul_add, Matrix.mul_smul,
    Matrix.smul_mul, Matrix.mul_assoc]
  abel

theorem exactMoments_solves (d a b : ℝ) (rv : Normal n) :
    IsSolution (sde.fieldClassic d) a b ⟨rv.mean, rv.cov⟩ (exactMoments sde Ψ d a rv) where
  start := by simp [exactMoments, hΨ.trans_self, hΨ.noiseMean_self, hΨ.noiseCovar_self]
  mean τ _ i := (exactMoments_mean_deriv hΨ hu hL d a rv τ i).hasDerivWithinAt
  cov τ _ i j := (exactMoments_cov_deriv hΨ hu hL d a rv τ i j).hasDerivWithinAt

theorem classic_unique (d a b : ℝ) (rv : Normal n) {sol : ℝ → Moments n}
    (h : IsSolution (sde.fieldClassic d) a b ⟨rv.mean, rv.cov⟩ sol) :
    ∀ τ ∈ uIcc a b, sol τ = exactMoments sde Ψ d a rv τ := by
  have h' := exactMoments_solves hΨ hu hL d a b rv
  have hd : ∀ t ∈ uIcc a b, MDeriv Ψ (sde.drift t * Ψ t) t := fun t _ => hΨ.deriv t
  have hdet : ∀ t ∈ uIcc a b, (Ψ t).det ≠ 0 := fun t _ => hΨ.det t
  intro τ hτ
  have e1 := mean_unique hd hdet (x := fun t => (sol t).mean) (y := fun t => (exactMoments sde Ψ d a rv t).mean)
    h.mean h'.mean (by rw [h.start, h'.start]) τ hτ
  have e2 := lyap_unique hd hdet (X := fun t => (sol t).cov) (Y := fun t => (exactMoments sde Ψ d a rv t).cov)
    (C := fun t => d • (sde.dispersion t * (sde.dispersion t)ᵀ)) h.cov h'.cov (by rw [h.start, h'.start]) τ hτ
  calc sol τ = ⟨(sol τ).mean, (sol τ).cov⟩ := rfl
    _ = _ := by rw [e1, e2]

/-- **C101 (a).**  Forward transitions are exact: the result has mean and covariance of the solution of the SDE, and the dense output
those at the times between. -/
theorem forward_rv_exact (himp : sde.implementation = .classic) (ch : CovCholesky n) {solve : Solver n} (hs : Exact solve)
    (rv : Normal n) (t dt d : ℝ) :
    ∃ (r : Normal n) (sol : ℝ → Moments n), sde.forwardRv ch solve rv t (some dt) d = .ok (r, sol) ∧
      r.mean = transMat Ψ (t + dt) t *ᵥ rv.mean + noiseMean Ψ sde.force (t + dt) t ∧
      r.cov = transMat Ψ (t + dt) t * rv.cov * (transMat Ψ (t + dt) t)ᵀ + d • noiseCovar Ψ sde.dispersion (t + dt) t ∧
      ∀ τ ∈ uIcc t (t + dt), sol τ = exactMoments sde Ψ d t rv τ := by
  have h := classic_unique hΨ hu hL d t (t + dt) rv (hs _ _ _ _ ⟨_, exactMoments_solves hΨ hu hL d t (t + dt) rv⟩)
  have hf : sde.forwardRv ch solve rv t (some dt) d
      = .ok (⟨(solve (sde.fieldClassic d) t (t + dt) ⟨rv.mean, rv.cov⟩ (t + dt)).mean,
          (solve (sde.fieldClassic d) t (t + dt) ⟨rv.mean, rv.cov⟩ (t + dt)).cov,
          ch.factor (solve (sde.fieldClassic d) t (t + dt) ⟨rv.mean, rv.cov⟩ (t + dt)).cov⟩,
        solve (sde.fieldClassic d) t (t + dt) ⟨rv.mean, rv.cov⟩) := by
    simp only [LinearSDE.forwardRv, himp]
  refine ⟨_, _, hf, ?_, ?_, h⟩
  · show (solve (sde.fieldClassic d) t (t + dt) ⟨rv.mean, rv.cov⟩ (t + dt)).mean = _
    rw [h _ right_mem_uIcc]; rfl
  · show (solve (sde.fieldClassic d) t (t + dt) ⟨rv.mean, rv.cov⟩ (t + dt)).cov = _
    rw [h _ right_mem_uIcc]; rfl

/-- **C101 (a), distributions.**  If `X` has the given distribution and `W` is the noise of the SDE, then the result is the
distribution of the state at the end. -/
theorem forward_rv_law {Ω : Type*} {mΩ : MeasurableSpace Ω} {P : Measure Ω} (himp : sde.implementation = .classic)
    (ch : CovCholesky n) {solve : Solver n} (hs : Exact solve) (rv : Normal n) (t dt d : ℝ) (X W : Ω → Fin n → ℝ)
    (hX : IsNormal P X rv.mean rv.cov)
    (hW : IsNormal P W (noiseMean Ψ sde.force (t + dt) t) (d • noiseCovar Ψ sde.dispersion (t + dt) t)) (hXW : IndepFun X W P) :
    ∃ (r : Normal n) (sol : ℝ → Moments n), sde.forwardRv ch solve rv t (some dt) d = .ok (r, sol) ∧
      IsNormal P (fun ω => transMat Ψ (t + dt) t *ᵥ X ω + W ω) r.mean r.cov := by
  obtain ⟨r, sol, h, hm, hc, -⟩ := forward_rv_exact hΨ hu hL himp ch hs rv t dt d
  refine ⟨r, sol, h, ?_⟩
  have := (forward_classic_is_pushforward (exactTransition sde Ψ (t + dt) t) d rv X W hX hW hXW).1
  rw [hm, hc]
  simpa [forwardClassic, exactTransition, Matrix.mul_assoc] using this

/-! ## Backward transitions -/

/-- With a regular start, the covariance stays regular. -/
theorem exactMoments_posDef {d a b : ℝ} (hd : 0 ≤ d) (hab : a ≤ b) {rv : Normal n} (hP : rv.cov.PosDef) :
    (exactMoments sde Ψ d a rv b).cov.PosDef := by
  have hdet : IsUnit (transMat Ψ b a) := by
    rw [Matrix.isUnit_iff_isUnit_det, transMat, Matrix.det_mul]
    exact (hΨ.isUnit b).mul (by rw [Matrix.isUnit_nonsing_inv_det_iff]; exact hΨ.isUnit a)
  have h1 : (transMat Ψ b a * rv.cov * (transMat Ψ b a)ᵀ).PosDef := by
    have := hP.mul_mul_conjTranspose_same (B := transMat Ψ b a) (Matrix.vecMul_injective_of_isUnit hdet)
    rwa [Matrix.conjTranspose_eq_transpose_of_trivial] at this
  exact h1.add_posSemidef ((hΨ.noiseCovar_posSemidef hL hab).smul hd)

/-- The moments given by the exact backward transition from `b`. -/
noncomputable def exactBackward (sde : LinearSDE n s) (Ψ : ℝ → Matrix (Fin n) (Fin n) ℝ) (d a b : ℝ) (obt rv : Normal n) (τ : ℝ) :
    Moments n :=
  let K := (exactMoments sde Ψ d a rv τ).cov * (transMat Ψ b τ)ᵀ * (exactMoments sde Ψ d a rv b).cov⁻¹
  ⟨(exactMoments sde Ψ d a rv τ).mean + K *ᵥ (obt.mean - (exactMoments sde Ψ d a rv b).mean),
    (exactMoments sde Ψ d a rv τ).cov + K * (obt.cov - (exactMoments sde Ψ d a rv b).cov) * Kᵀ⟩

theorem backward_unique {d a b : ℝ} (hd : 0 ≤ d) (hab : a ≤ b) {rv : Normal n} (hP : rv.cov.PosDef) (obt : Normal n)
    {fwd : ℝ → Moments n} (hf : ∀ τ ∈ uIcc b a, fwd τ = exactMoments sde Ψ d a rv τ) {solve : Solver n} (hs : Exact solve) :
    ∀ τ ∈ uIcc b a, solve (sde.fieldBackward d fwd) b a ⟨obt.mean, obt.cov⟩ τ = exactBackward sde Ψ d a b obt rv τ := by
  set M := exactMoments sde Ψ d a rv with hM
  have hpd : ∀ τ ∈ uIcc b a, (M τ).cov.PosDef := fun τ hτ => by
    rw [uIcc_of_ge hab] at hτ
    exact exactMoments_posDef hΨ hu hL hd hτ.1 hP
  have hu' : ∀ τ ∈ uIcc b a, IsUnit (M τ).cov.det := fun τ hτ => isUnit_iff_ne_zero.2 (hpd τ hτ).det_pos.ne'
  have hsym : ∀ τ ∈ uIcc b a, (M τ).covᵀ = (M τ).cov := fun τ hτ => by
    have := (hpd τ hτ).1.eq
    rwa [Matrix.conjTranspose_eq_transpose_of_trivial] at this
  set LL : ℝ → Matrix (Fin n) (Fin n) ℝ := fun τ => d • (sde.dispersion τ * (sde.dispersion τ)ᵀ) with hLL
  have hLLs : ∀ τ, (LL τ)ᵀ = LL τ := fun τ => by simp [hLL, Matrix.transpose_mul]
  set H : ℝ → Matrix (Fin n) (Fin n) ℝ := fun τ => sde.drift τ + LL τ * (M τ).cov⁻¹ with hH
  have hX : ∀ τ ∈ uIcc b a, ((fwd τ).cov⁻¹ * (LL τ)ᵀ)ᵀ = LL τ * (M τ).cov⁻¹ := fun τ hτ => by
    rw [hf τ hτ, Matrix.transpose_mul, Matrix.transpose_transpose, Matrix.transpose_nonsing_inv, hsym τ hτ]
  set Θ : ℝ → Matrix (Fin n) (Fin n) ℝ := fun τ => (M τ).cov * ((Ψ τ)⁻¹)ᵀ with hΘ
  have hΘd : ∀ τ ∈ uIcc b a, MDeriv Θ (H τ * Θ τ) τ := fun τ hτ => by
    refine ((exactMoments_cov_deriv hΨ hu hL d a rv τ).mul (hΨ.inv_deriv τ).transpose).congr ?_
    have e : LL τ * (M τ).cov⁻¹ * ((M τ).cov * ((Ψ τ)⁻¹)ᵀ) = LL τ * ((Ψ τ)⁻¹)ᵀ := by
      rw [← Matrix.mul_assoc, Matrix.mul_assoc (LL τ), Matrix.nonsing_inv_mul _ (hu' τ hτ), Matrix.mul_one]
    simp only [hH, hΘ]
    rw [Matrix.add_mul (sde.drift τ) (LL τ * (M τ).cov⁻¹), e, ← hM]
    simp only [Matrix.add_mul, Matrix.transpose_neg, Matrix.transpose_mul, Matrix.mul_neg, Matrix.mul_assoc, hLL]
    abel
  have hΘdet : ∀ τ ∈ uIcc b a, (Θ τ).det ≠ 0 := fun τ hτ => by
    simp only [hΘ, Matrix.det_mul, Matrix.det_transpose]
    refine mul_ne_zero (hpd τ hτ).det_pos.ne' ?_
    rw [← isUnit_iff_ne_zero, Matrix.isUnit_nonsing_inv_det_iff]
    exact hΨ.isUnit τ
  set Z := (Ψ b)ᵀ * (M b).cov⁻¹ with hZ
  have hK : ∀ τ, (M τ).cov * (transMat Ψ b τ)ᵀ * (M b).cov⁻¹ = Θ τ * Z := fun τ => by
    simp only [hΘ, hZ, transMat, Matrix.transpose_mul, Matrix.mul_assoc]
  have hKd : ∀ τ ∈ uIcc b a, MDeriv (fun τ => Θ τ * Z) (H τ * (Θ τ * Z)) τ := fun τ hτ => by
    refine ((hΘd τ hτ).mul (MDeriv.const Z)).congr ?_
    rw [Matrix.mul_zero, add_zero, Matrix.mul_assoc]
  set Y := exactBackward sde Ψ d a b obt rv with hY
  have hYm : ∀ τ, (Y τ).mean = (M τ).mean + (Θ τ * Z) *ᵥ (obt.mean - (M b).mean) := fun τ => by
    rw [← hK]; rfl
  have hYc : ∀ τ, (Y τ).cov = (M τ).cov + Θ τ * Z * (obt.cov - (M b).cov) * (Θ τ * Z)ᵀ := fun τ => by
    rw [← hK]; rfl
  have hsolves : IsSolution (sde.fieldBackward d fwd) b a ⟨obt.mean, obt.cov⟩ Y := by
    refine ⟨?_, fun τ hτ i => ?_, fun τ hτ i j => ?_⟩
    · have e : Θ b * Z = 1 := by
        rw [← hK, hΨ.trans_self, Matrix.transpose_one, Matrix.mul_one, Matrix.mul_nonsing_inv _ (hu' b left_mem_uIcc)]
      calc Y b = ⟨(Y b).mean, (Y b).cov⟩ := rfl
        _ = _ := by rw [hYm, hYc, e]; simp
    · simp only [hYm]
      have h1 : VDeriv (fun t => (M t).mean) _ τ := exactMoments_mean_deriv hΨ hu hL d a rv τ
      refine (((h1.add (VDeriv.mulVec (hKd τ hτ) (VDeriv.const (obt.mean - (M b).mean)))).congr ?_) i).hasDerivWithinAt
      simp only [LinearSDE.fieldBackward, mdeBackward, Matrix.mulVec_zero, add_zero, ← hM]
      rw [show d • (sde.dispersion τ * (sde.dispersion τ)ᵀ) = LL τ from rfl, hX τ hτ, hf τ hτ, hYm, ← Matrix.mulVec_mulVec]
      simp only [hH, Matrix.add_mulVec, Matrix.mulVec_add, add_sub_cancel_left]
      abel
    · simp only [hYc]
      have h1 : MDeriv (fun t => (M t).cov) _ τ := exactMoments_cov_deriv hΨ hu hL d a rv τ
      refine (((h1.add (((hKd τ hτ).mul (MDeriv.const (obt.cov - (M b).cov))).mul (hKd τ hτ).transpose)).congr ?_)
        i j).hasDerivWithinAt
      have c1 : LL τ * (M τ).cov⁻¹ * (M τ).cov = LL τ := by
        rw [Matrix.mul_assoc, Matrix.nonsing_inv_mul _ (hu' τ hτ), Matrix.mul_one]
      have c2 : (M τ).cov * (LL τ * (M τ).cov⁻¹)ᵀ = LL τ := by
        rw [Matrix.transpose_mul, Matrix.transpose_nonsing_inv, hsym τ hτ, hLLs, ← Matrix.mul_assoc,
          Matrix.mul_nonsing_inv _ (hu' τ hτ), Matrix.one_mul]
      simp only [LinearSDE.fieldBackward, mdeBackward, ← hM]
      rw [show d • (sde.dispersion τ * (sde.dispersion τ)ᵀ) = LL τ from rfl, hX τ hτ, hYc,
        Matrix.transpose_mul (H τ) (Θ τ * Z)]
      generalize Θ τ * Z = K
      generalize obt.cov - (M b).cov = Λ
      simp only [hH, Matrix.transpose_add, Matrix.add_mul, Matrix.mul_add, c1, c2, Matrix.mul_zero, add_zero]
      simp only [Matrix.mul_assoc]
      abel
  have hsol := hs _ _ _ _ ⟨_, hsolves⟩
  intro τ hτ
  have e1 := mean_unique hΘd hΘdet (x := fun t => (solve (sde.fieldBackward d fwd) b a ⟨obt.mean, obt.cov⟩ t).mean)
    (y := fun t => (Y t).mean) (c := fun t => sde.force t - (LL t * (M t).cov⁻¹) *ᵥ (M t).mean)
    (fun t ht i => by
      refine (hsol.mean t ht i).congr_deriv (congrFun ?_ i)
      simp only [LinearSDE.fieldBackward, mdeBackward]
      rw [show d • (sde.dispersion t * (sde.dispersion t)ᵀ) = LL t from rfl, hX t ht, hf t ht]
      simp only [hH, Matrix.add_mulVec, Matrix.mulVec_sub]
      abel)
    (fun t ht i => by
      refine (hsolves.mean t ht i).congr_deriv (congrFun ?_ i)
      simp only [LinearSDE.fieldBackward, mdeBackward]
      rw [show d • (sde.dispersion t * (sde.dispersion t)ᵀ) = LL t from rfl, hX t ht, hf t ht]
      simp only [hH, Matrix.add_mulVec, Matrix.mulVec_sub]
      abel) (by rw [hsol.start, hsolves.start]) τ hτ
  have e2 := lyap_unique hΘd hΘdet (X := fun t => (solve (sde.fieldBackward d fwd) b a ⟨obt.mean, obt.cov⟩ t).cov)
    (Y := fun t => (Y t).cov) (C := fun t => -LL t)
    (fun t ht i j => by
      refine (hsol.cov t ht i j).congr_deriv (congrFun (congrFun ?_ i) j)
      simp only [LinearSDE.fieldBackward, mdeBackward]
      rw [show d • (sde.dispersion t * (sde.dispersion t)ᵀ) = LL t from rfl, hX t ht, sub_eq_add_neg])
    (fun t ht i j => by
      refine (hsolves.cov t ht i j).congr_deriv (congrFun (congrFun ?_ i) j)
      simp only [LinearSDE.fieldBackward, mdeBackward]
      rw [show d • (sde.dispersion t * (sde.dispersion t)ᵀ) = LL t from rfl, hX t ht, sub_eq_add_neg])
    (by rw [hsol.start, hsolves.start]) τ hτ
  calc solve (sde.fieldBackward d fwd) b a ⟨obt.mean, obt.cov⟩ τ = ⟨_, _⟩ := rfl
    _ = _ := by rw [e1, e2]

/-- **C101 (b).**  Backward transitions are exact: the result is that of the exact (Rauch–Tung–Striebel) backward transition. -/
theorem backward_rv_exact (himp : sde.implementation = .classic) (ch : CovCholesky n) {solve : Solver n} (hs : Exact solve)
    (obt : Normal n) {rv : Normal n} (hP : rv.cov.PosDef) (t : ℝ) {dt d : ℝ} (hdt : 0 ≤ dt) (hd : 0 ≤ d) :
    ∃ (r : Updated n) (sol : ℝ → Moments n), sde.backwardRv ch solve obt rv t (some dt) d = .ok (r, sol) ∧
      backwardClassic (exactTransition sde Ψ (t + dt) t) d obt rv none = .ok r ∧
      ∀ τ ∈ uIcc (t + dt) t, sol τ = exactBackward sde Ψ d t (t + dt) obt rv τ := by
  obtain ⟨r, fwd, h1, -, -, h2⟩ := forward_rv_exact hΨ hu hL himp ch hs rv t dt d
  rw [uIcc_comm] at h2
  have hab : t ≤ t + dt := by linarith
  have hpd := exactMoments_posDef hΨ hu hL hd hab hP
  have h3 := backward_unique hΨ hu hL hd hab hP obt h2 hs
  have hdet : (fwd (t + dt)).cov.det ≠ 0 := by rw [h2 _ left_mem_uIcc]; exact hpd.det_pos.ne'
  have hb : sde.backwardRv ch solve obt rv t (some dt) d
      = .ok (⟨(solve (sde.fieldBackward d fwd) (t + dt) t ⟨obt.mean, obt.cov⟩ t).mean,
          (solve (sde.fieldBackward d fwd) (t + dt) t ⟨obt.mean, obt.cov⟩ t).cov⟩,
        solve (sde.fieldBackward d fwd) (t + dt) t ⟨obt.mean, obt.cov⟩) := by
    simp only [LinearSDE.backwardRv, h1, if_neg hdet]
  refine ⟨_, _, hb, ?_, h3⟩
  rw [h3 t right_mem_uIcc]
  have e0 : exactMoments sde Ψ d t rv t = ⟨rv.mean, rv.cov⟩ := (exactMoments_solves hΨ hu hL d t t rv).start
  have hpred : predCov (exactTransition sde Ψ (t + dt) t) d rv = (exactMoments sde Ψ d t rv (t + dt)).cov := by
    simp [predCov, exactTransition, exactMoments, forwardClassic, Matrix.mul_assoc]
  have hS : (predCov (exactTransition sde Ψ (t + dt) t) d rv).det ≠ 0 := by rw [hpred]; exact hpd.det_pos.ne'
  have hm : (forwardClassic (exactTransition sde Ψ (t + dt) t) d rv).mean = (exactMoments sde Ψ d t rv (t + dt)).mean := rfl
  have hc : (forwardClassic (exactTransition sde Ψ (t + dt) t) d rv).cov = (exactMoments sde Ψ d t rv (t + dt)).cov := hpred
  simp only [backwardClassic, gainClassic_eq _ _ _ hS, bind, Except.bind, conditionStateOnRv, hm, hc, optGain, hpred]
  simp only [exactBackward, e0]
  rfl

/-- **C101 (b), distributions.**  `backward_realization` conditions on the state at the end: if `X` is the state at time `t`, and `W` the
noise of the SDE up to time `t + dt`, then the result for a value `y` is the conditional distribution of `X` given that the state at
time `t + dt` is `y`. -/
theorem backward_realization_conditional {Ω : Type*} {mΩ : MeasurableSpace Ω} {P : Measure Ω}
    (himp : sde.implementation = .classic) (ch : CovCholesky n) {solve : Solver n} (hs : Exact solve)
    {rv : Normal n} (hP : rv.cov.PosDef) (t : ℝ) {dt d : ℝ} (hdt : 0 ≤ dt) (hd : 0 ≤ d) (X W : Ω → Fin n → ℝ)
    (hX : IsNormal P X rv.mean rv.cov)
    (hW : IsNormal P W (noiseMean Ψ sde.force (t + dt) t) (d • noiseCovar Ψ sde.dispersion (t + dt) t)) (hXW : IndepFun X W P) :
    ∃ (f : (Fin n → ℝ) → Fin n → ℝ) (C : Matrix (Fin n) (Fin n) ℝ),
      IsConditional P X (fun ω => transMat Ψ (t + dt) t *ᵥ X ω + W ω) f C ∧
      ∀ y, ∃ sol, sde.backwardRealization ch solve y rv t (some dt) d = .ok (⟨f y, C⟩, sol) := by
  have hab : t ≤ t + dt := by linarith
  have hpd := exactMoments_posDef hΨ hu hL hd hab hP
  have hc : (forwardClassic (exactTransition sde Ψ (t + dt) t) d rv).cov = (exactMoments sde Ψ d t rv (t + dt)).cov := by
    simp [exactTransition, exactMoments, forwardClassic, Matrix.mul_assoc]
  obtain ⟨f, C, h1, h2⟩ := backward_realization_is_conditioning (exactTransition sde Ψ (t + dt) t) d rv X W hX hW hXW
    (by have := (hΨ.noiseCovar_posSemidef hL hab).1.eq; rwa [Matrix.conjTranspose_eq_transpose_of_trivial] at this)
    (by rw [hc]; exact hpd.det_pos.ne')
  refine ⟨f, C, h2, fun y => ?_⟩
  obtain ⟨r, sol, h3, h4, -⟩ := backward_rv_exact hΨ hu hL himp ch hs (Normal.const y) hP t hdt hd
  rw [h1 y] at h4
  injection h4 with h4
  exact ⟨sol, by rw [LinearSDE.backwardRealization, h3, h4]⟩

end Forward

/-! ## The square-root implementation -/

/-- **C101 (c).**  The square-root implementation is exact as long as, along the solution, the factor is regular and no diagonal entry
decreases.  Missing: decreasing diagonal entries, for which it is wrong (`forward_sqrt_wrong`). -/
theorem forward_sqrt_exact_partial {sde : LinearSDE n s} {Ψ : ℝ → Matrix (Fin n) (Fin n) ℝ} (hΨ : Fundamental sde.drift Ψ)
    (hu : Continuous sde.force) (hL : Continuous sde.dispersion) (himp : sde.implementation = .sqrt) (ch : CovCholesky n)
    (solve : Solver n) (rv : Normal n) (hrv : rv.chol * rv.cholᵀ = rv.cov) (t dt : ℝ) {d : ℝ} (hd : 0 ≤ d)
    (hsol : IsSolution (sde.fieldSqrt d) t (t + dt) ⟨rv.mean, rv.chol⟩ (solve (sde.fieldSqrt d) t (t + dt) ⟨rv.mean, rv.chol⟩))
    (hgood : ∀ τ ∈ uIcc t (t + dt), let S := (solve (sde.fieldSqrt d) t (t + dt) ⟨rv.mean, rv.chol⟩ τ).cov
      S.det ≠ 0 ∧ (∀ i j, i < j → S i j = 0) ∧ ∀ i, 0 ≤ sqrtDerivative (sde.drift τ) (sde.dispersion τ) d S i i) :
    ∃ (r : Normal n) (sol : ℝ → Moments n), sde.forwardRv ch solve rv t (some dt) d = .ok (r, sol) ∧
      r.mean = transMat Ψ (t + dt) t *ᵥ rv.mean + noiseMean Ψ sde.force (t + dt) t ∧
      r.cov = transMat Ψ (t + dt) t * rv.cov * (transMat Ψ (t + dt) t)ᵀ + d • noiseCovar Ψ sde.dispersion (t + dt) t ∧
      r.chol * r.cholᵀ = r.cov ∧ (∀ i j, i < j → r.chol i j = 0) ∧
      ∀ τ ∈ uIcc t (t + dt), sol τ = exactMoments sde Ψ d t rv τ := by
  set Y := solve (sde.fieldSqrt d) t (t + dt) ⟨rv.mean, rv.chol⟩ with hY
  have h0 : Y t = ⟨rv.mean, rv.chol⟩ := hsol.start
  have hdiag : ¬∃ i, rv.chol i i = 0 := by
    rintro ⟨i, hi⟩
    have hg := hgood t left_mem_uIcc
    rw [h0] at hg
    refine hg.1 ?_
    have := Matrix.det_of_lowerTriangular rv.chol (fun i j hij => hg.2.1 i j hij)
    rw [this]
    exact Finset.prod_eq_zero (Finset.mem_univ i) hi
  have hcl : IsSolution (sde.fieldClassic d) t (t + dt) ⟨rv.mean, rv.cov⟩ fun τ => ⟨(Y τ).mean, (Y τ).cov * (Y τ).covᵀ⟩ := by
    refine ⟨by simp only [h0, hrv], fun τ hτ i => hsol.mean τ hτ i, fun τ hτ i j => ?_⟩
    obtain ⟨g1, g2, g3⟩ := hgood τ hτ
    have e := (mde_sqrt_partial (sde.drift τ) (sde.force τ) (sde.dispersion τ) hd (Y τ) (isUnit_iff_ne_zero.2 g1) g2 g3).1
    have hS : MDerivW (uIcc t (t + dt)) (fun τ => (Y τ).cov) ((sde.fieldSqrt d τ (Y τ)).cov) τ := hsol.cov τ hτ
    exact (hS.mul hS.transpose).congr e i j
  have h := classic_unique hΨ hu hL d t (t + dt) rv hcl
  have hf : sde.forwardRv ch solve rv t (some dt) d
      = .ok (⟨(Y (t + dt)).mean, (Y (t + dt)).cov * (Y (t + dt)).covᵀ, (Y (t + dt)).cov⟩,
        fun τ => ⟨(Y τ).mean, (Y τ).cov * (Y τ).covᵀ⟩) := by
    simp only [LinearSDE.forwardRv, himp, if_neg hdiag]
    rfl
  have h1 := h _ right_mem_uIcc
  exact ⟨_, _, hf, congrArg Moments.mean h1, congrArg Moments.cov h1, rfl, (hgood _ right_mem_uIcc).2.1, h⟩

/-- The Ornstein-Uhlenbeck process `dx = -x dt + dw` with the square-root implementation. -/
def ouSqrt : LinearSDE 1 1 := ⟨fun _ => -1, fun _ => 0, fun _ => 1, .sqrt⟩

theorem ouSqrt_field (τ : ℝ) (y : Moments 1) : (ouSqrt.fieldSqrt 1 τ y).cov 0 0
    = |y.cov 0 0 * (2⁻¹ * ((y.cov 0 0)⁻¹ * -y.cov 0 0 + (y.cov 0 0)⁻¹ * -y.cov 0 0 + (y.cov 0 0)⁻¹ * (y.cov 0 0)⁻¹))| := by
  have e : sqrtDerivative (ouSqrt.drift τ) (ouSqrt.dispersion τ) 1 y.cov 0 0
      = y.cov 0 0 * (2⁻¹ * ((y.cov 0 0)⁻¹ * -y.cov 0 0 + (y.cov 0 0)⁻¹ * -y.cov 0 0 + (y.cov 0 0)⁻¹ * (y.cov 0 0)⁻¹)) := by
    have hi : y.cov⁻¹ 0 0 = (y.cov 0 0)⁻¹ := by
      rw [Matrix.inv_def, Matrix.smul_apply, Matrix.adjugate_subsingleton, Matrix.det_unique]
      simp [Ring.inverse_eq_inv']
    simp [sqrtDerivative, lowerHalf, ouSqrt, Matrix.mul_apply, hi]
    exact Or.inl (mul_comm _ _)
  simp only [LinearSDE.fieldSqrt, mdeForwardSqrt, trilToPositiveTril, Matrix.of_apply, posSign, e]
  split_ifs with h
  · rw [abs_of_neg h]; ring
  · rw [abs_of_nonneg (not_lt.1 h)]; ring

theorem ouSqrt_field_of_ge {τ : ℝ} {y : Moments 1} (h : 1 ≤ y.cov 0 0) :
    (ouSqrt.fieldSqrt 1 τ y).cov 0 0 = y.cov 0 0 - (2 * y.cov 0 0)⁻¹ := by
  rw [ouSqrt_field]
  set x := y.cov 0 0
  have hx : x ≠ 0 := by linarith
  have e : x * (2⁻¹ * (x⁻¹ * -x + x⁻¹ * -x + x⁻¹ * x⁻¹)) = -(x - (2 * x)⁻¹) := by field_simp; ring
  rw [e, abs_neg, abs_of_nonneg]
  have : (2 * x)⁻¹ ≤ 1 := inv_le_one_of_one_le₀ (by linarith)
  linarith

/-- Any solution of the equations of the square-root implementation grows. -/
theorem ouSqrt_solution (m : Fin 1 → ℝ) {Y : ℝ → Moments 1} (h : IsSolution (ouSqrt.fieldSqrt 1) 0 1 ⟨m, 1⟩ Y) :
    (Y 1).cov 0 0 ^ 2 = (1 + Real.exp 2) / 2 := by
  have hI : uIcc (0 : ℝ) 1 = Icc 0 1 := uIcc_of_le zero_le_one
  have hc := h.cov
  rw [hI] at hc
  have h0 : (Y 0).cov 0 0 = 1 := by rw [h.start]; simp
  have hmono : MonotoneOn (fun τ => (Y τ).cov 0 0) (Icc 0 1) :=
    monotoneOn_of_hasDerivWithinAt_nonneg (convex_Icc 0 1) (fun τ hτ => (hc τ hτ 0 0).continuousWithinAt)
      (fun τ hτ => (hc τ (interior_subset hτ) 0 0).mono interior_subset) fun τ _ => by rw [ouSqrt_field]; exact abs_nonneg _
  have hge : ∀ τ ∈ Icc (0 : ℝ) 1, 1 ≤ (Y τ).cov 0 0 := fun τ hτ => by
    have := hmono (left_mem_Icc.2 zero_le_one) hτ hτ.1
    simp only [h0] at this
    exact this
  have hconst : ∀ τ ∈ Icc (0 : ℝ) 1,
      HasDerivWithinAt (fun τ => ((Y τ).cov 0 0 ^ 2 - 1 / 2) * Real.exp (-2 * τ)) 0 (Icc 0 1) τ := fun τ hτ => by
    have h1 := hc τ hτ 0 0
    rw [ouSqrt_field_of_ge (hge τ hτ)] at h1
    have h2 : HasDerivWithinAt (fun τ : ℝ => Real.exp (-2 * τ)) (Real.exp (-2 * τ) * -2) (Icc 0 1) τ := by
      have := ((hasDerivAt_id τ).const_mul (-2 : ℝ)).exp.hasDerivWithinAt (s := Icc 0 1)
      simpa using this
    refine (((h1.pow 2).sub_const (1 / 2)).mul h2).congr_deriv ?_
    have hx : (Y τ).cov 0 0 ≠ 0 := by linarith [hge τ hτ]
    simp only [Pi.pow_apply]
    field_simp
    push_cast
    ring
  have hd := (convex_Icc (0 : ℝ) 1).norm_image_sub_le_of_norm_hasDerivWithin_le (C := 0) hconst (fun _ _ => by simp)
    (left_mem_Icc.2 zero_le_one) (right_mem_Icc.2 zero_le_one)
  simp only [zero_mul, norm_le_zero_iff, sub_eq_zero, h0, mul_zero, Real.exp_zero, mul_one] at hd
  have he : Real.exp (-2) * Real.exp 2 = 1 := by rw [← Real.exp_add]; simp
  have := congrArg (· * Real.exp 2) hd
  simp only [mul_assoc, he, mul_one] at this
  linarith

theorem ouSqrt_exists (m : Fin 1 → ℝ) : ∃ Y, IsSolution (ouSqrt.fieldSqrt 1) 0 1 ⟨m, 1⟩ Y := by
  let x : ℝ → ℝ := fun τ => Real.sqrt ((1 + Real.exp (2 * τ)) / 2)
  have hpos : ∀ τ, 0 < (1 + Real.exp (2 * τ)) / 2 := fun τ => by have := Real.exp_pos (2 * τ); linarith
  have hsq : ∀ τ, x τ ^ 2 = (1 + Real.exp (2 * τ)) / 2 := fun τ => Real.sq_sqrt (hpos τ).le
  refine ⟨fun τ => ⟨fun i => Real.exp (-τ) * m i, Matrix.of fun _ _ => x τ⟩, ?_, fun τ hτ i => ?_, fun τ hτ i j => ?_⟩
  · simp only [x]
    norm_num
    ext i j
    rw [Subsingleton.elim i 0, Subsingleton.elim j 0]
    simp
  · rw [Subsingleton.elim i 0]
    have := ((hasDerivAt_neg τ).exp.mul_const (m 0)).hasDerivWithinAt (s := uIcc 0 1)
    refine this.congr_deriv ?_
    simp [LinearSDE.fieldSqrt, mdeForwardSqrt, ouSqrt, Matrix.neg_mulVec]
  · rw [Subsingleton.elim i 0, Subsingleton.elim j 0]
    rw [uIcc_of_le zero_le_one] at hτ
    have hge : 1 ≤ x τ := by
      rw [Real.one_le_sqrt]
      have := Real.one_le_exp (x := 2 * τ) (by linarith [hτ.1])
      linarith
    rw [ouSqrt_field_of_ge (by simpa using hge)]
    simp only [Matrix.of_apply]
    have h1 : HasDerivAt (fun τ : ℝ => (1 + Real.exp (2 * τ)) / 2) (Real.exp (2 * τ)) τ := by
      have := ((((hasDerivAt_id τ).const_mul (2 : ℝ)).exp).const_add 1).div_const 2
      simpa using this
    refine ((h1.sqrt (hpos τ).ne').congr_deriv ?_).hasDerivWithinAt
    have hx : x τ ≠ 0 := by linarith
    show Real.exp (2 * τ) / (2 * x τ) = x τ - (2 * x τ)⁻¹
    have := hsq τ
    field_simp
    linarith

/-- **C101: violated.**  For `dx = -x dt + dw`, starting with variance 1, the square-root implementation returns the variance
`(1 + e²) / 2` at time 1, however exact the ODE solver; the variance of the solution is `(1 + e⁻²) / 2`. -/
theorem forward_sqrt_wrong (ch : CovCholesky 1) {solve : Solver 1} (hs : Exact solve) (m : Fin 1 → ℝ)
    {Ψ : ℝ → Matrix (Fin 1) (Fin 1) ℝ} (hΨ : Fundamental ouSqrt.drift Ψ) :
    ∃ r sol, ouSqrt.forwardRv ch solve ⟨m, 1, 1⟩ 0 (some 1) 1 = .ok (r, sol) ∧ r.cov 0 0 = (1 + Real.exp 2) / 2 ∧
      (exactMoments ouSqrt Ψ 1 0 ⟨m, 1, 1⟩ 1).cov 0 0 = (1 + Real.exp (-2)) / 2 := by
  have hd : ¬∃ i : Fin 1, (1 : Matrix (Fin 1) (Fin 1) ℝ) i i = 0 := by simp
  have hY := ouSqrt_solution m (hs _ _ _ _ (ouSqrt_exists m))
  refine ⟨⟨(solve (ouSqrt.fieldSqrt 1) 0 1 ⟨m, 1⟩ 1).mean, (solve (ouSqrt.fieldSqrt 1) 0 1 ⟨m, 1⟩ 1).cov
      * (solve (ouSqrt.fieldSqrt 1) 0 1 ⟨m, 1⟩ 1).covᵀ, (solve (ouSqrt.fieldSqrt 1) 0 1 ⟨m, 1⟩ 1).cov⟩,
    fun τ => ⟨(solve (ouSqrt.fieldSqrt 1) 0 1 ⟨m, 1⟩ τ).mean,
      (solve (ouSqrt.fieldSqrt 1) 0 1 ⟨m, 1⟩ τ).cov * (solve (ouSqrt.fieldSqrt 1) 0 1 ⟨m, 1⟩ τ).covᵀ⟩, ?_, ?_, ?_⟩
  · show (if _ then _ else _) = _
    rw [if_neg hd]
    simp only [zero_add]
  · rw [← hY]
    simp [Matrix.mul_apply, sq]
  · have hsol : IsSolution (ouSqrt.fieldClassic 1) 0 1 ⟨m, 1⟩
        fun τ => ⟨fun i => Real.exp (-τ) * m i, Matrix.of fun _ _ => (1 + Real.exp (-2 * τ)) / 2⟩ := by
      refine ⟨?_, fun τ _ i => ?_, fun τ _ i j => ?_⟩
      · norm_num
        ext i j
        rw [Subsingleton.elim i 0, Subsingleton.elim j 0]
        simp
      · rw [Subsingleton.elim i 0]
        have := ((hasDerivAt_neg τ).exp.mul_const (m 0)).hasDerivWithinAt (s := uIcc 0 1)
        refine this.congr_deriv ?_
        simp [LinearSDE.fieldClassic, mdeForward, ouSqrt, Matrix.neg_mulVec]
      · rw [Subsingleton.elim i 0, Subsingleton.elim j 0]
        have h1 : HasDerivAt (fun τ : ℝ => (1 + Real.exp (-2 * τ)) / 2) (-Real.exp (-2 * τ)) τ := by
          refine (((((hasDerivAt_id τ).const_mul (-2 : ℝ)).exp).const_add 1).div_const 2).congr_deriv ?_
          simp only [id_eq]
          ring
        refine (h1.hasDerivWithinAt).congr_deriv ?_
        simp [LinearSDE.fieldClassic, mdeForward, ouSqrt]
        ring
    have := classic_unique hΨ continuous_const continuous_const 1 0 1 ⟨m, 1, 1⟩ hsol 1 right_mem_uIcc
    rw [← this]
    simp

/-- **C101: violated.**  With the square-root implementation, `forward_realization` always raises LinAlgError. -/
theorem sqrt_realization_raises (sde : LinearSDE (n + 1) s) (himp : sde.implementation = .sqrt) (ch : CovCholesky (n + 1))
    (solve : Solver (n + 1)) (x : Fin (n + 1) → ℝ) (t dt d : ℝ) :
    sde.forwardRealization ch solve x t (some dt) d = .error .linAlgError := by
  have : ∃ i : Fin (n + 1), (Normal.const x).chol i i = 0 := ⟨0, rfl⟩
  simp only [LinearSDE.forwardRealization, LinearSDE.forwardRv, himp, if_pos this]

/-- **C101 (d).**  Without a time increment all transitions raise ValueError. -/
theorem transitions_need_dt (sde : LinearSDE n s) (ch : CovCholesky n) (solve : Solver n) (rv obt : Normal n) (x : Fin n → ℝ)
    (t d : ℝ) : sde.forwardRv ch solve rv t none d = .error .valueError ∧
      sde.backwardRv ch solve obt rv t none d = .error .valueError ∧
      sde.forwardRealization ch solve x t none d = .error .valueError ∧
      sde.backwardRealization ch solve x rv t none d = .error .valueError := ⟨rfl, rfl, rfl, rfl⟩

/-- The hypotheses of (a) and (b) are met: a drift that grows with time, `dx = (t x + 1) dt + e^t dw`. -/
example : ∃ (sde : LinearSDE 1 1) (Ψ : ℝ → Matrix (Fin 1) (Fin 1) ℝ) (solve : Solver 1), sde.drift 1 0 0 = 1 ∧ sde.drift 2 0 0 = 2 ∧
    Fundamental sde.drift Ψ ∧ Continuous sde.force ∧ Continuous sde.dispersion ∧ sde.implementation = .classic ∧ Exact solve := by
  let sde : LinearSDE 1 1 := ⟨fun t => Matrix.of fun _ _ => t, fun _ => 1, fun t => Matrix.of fun _ _ => Real.exp t, .classic⟩
  obtain ⟨Ψ, hΨ⟩ := exists_fundamental (G := sde.drift) (continuous_matrix fun _ _ => continuous_id)
  obtain ⟨solve, hs⟩ := exists_exact 1
  exact ⟨sde, Ψ, solve, rfl, rfl, hΨ, continuous_const, continuous_matrix fun _ _ => Real.continuous_exp, rfl, hs⟩

/-- Brownian motion with the square-root implementation. -/
def bmSqrt : LinearSDE 1 1 := ⟨fun _ => 0, fun _ => 0, fun _ => 1, .sqrt⟩

theorem bmSqrt_derivative (τ x : ℝ) (hx : 0 < x) :
    sqrtDerivative (bmSqrt.drift τ) (bmSqrt.dispersion τ) 1 (Matrix.of fun _ _ => x) 0 0 = 1 / (2 * x) := by
  have hi : (Matrix.of fun _ _ => x : Matrix (Fin 1) (Fin 1) ℝ)⁻¹ 0 0 = x⁻¹ := by
    rw [Matrix.inv_def, Matrix.smul_apply, Matrix.adjugate_subsingleton, Matrix.det_unique]
    simp [Ring.inverse_eq_inv']
  simp [sqrtDerivative, lowerHalf, bmSqrt, Matrix.mul_apply, hi]
  field_simp

/-- The hypotheses of (c) are met: for `dx = dw`, starting with variance 1, the factor is `√(1 + t)`. -/
example : ∃ (Ψ : ℝ → Matrix (Fin 1) (Fin 1) ℝ) (solve : Solver 1), Fundamental bmSqrt.drift Ψ ∧
    IsSolution (bmSqrt.fieldSqrt 1) 0 (0 + 1) ⟨0, 1⟩ (solve (bmSqrt.fieldSqrt 1) 0 (0 + 1) ⟨0, 1⟩) ∧
    ∀ τ ∈ uIcc (0 : ℝ) (0 + 1), let S := (solve (bmSqrt.fieldSqrt 1) 0 (0 + 1) ⟨0, 1⟩ τ).cov
      S.det ≠ 0 ∧ (∀ i j, i < j → S i j = 0) ∧ ∀ i, 0 ≤ sqrtDerivative (bmSqrt.drift τ) (bmSqrt.dispersion τ) 1 S i i := by
  have hpos : ∀ τ ∈ uIcc (0 : ℝ) (0 + 1), 0 < 1 + τ := fun τ hτ => by
    rw [zero_add, uIcc_of_le zero_le_one] at hτ
    linarith [hτ.1]
  have hx : ∀ τ ∈ uIcc (0 : ℝ) (0 + 1), 0 < Real.sqrt (1 + τ) := fun τ hτ => Real.sqrt_pos.2 (hpos τ hτ)
  refine ⟨fun _ => 1, fun _ _ _ _ τ => ⟨0, Matrix.of fun _ _ => Real.sqrt (1 + τ)⟩, ⟨fun t i j => ?_, fun _ => by simp⟩,
    ⟨?_, fun τ _ i => ?_, fun τ hτ i j => ?_⟩, fun τ hτ => ⟨?_, fun i j h => ?_, fun i => ?_⟩⟩
  · simpa [bmSqrt] using hasDerivAt_const t ((1 : Matrix (Fin 1) (Fin 1) ℝ) i j)
  · rw [Moments.mk.injEq]
    refine ⟨rfl, ?_⟩
    ext i j
    rw [Subsingleton.elim i 0, Subsingleton.elim j 0]
    simp
  · refine (hasDerivWithinAt_const _ _ _).congr_deriv ?_
    simp [LinearSDE.fieldSqrt, mdeForwardSqrt, bmSqrt]
  · rw [Subsingleton.elim i 0, Subsingleton.elim j 0]
    simp only [LinearSDE.fieldSqrt, mdeForwardSqrt, trilToPositiveTril, Matrix.of_apply, bmSqrt_derivative τ _ (hx τ hτ), posSign]
    have h1 := ((hasDerivAt_id τ).const_add (1 : ℝ)).sqrt (by simpa using (hpos τ hτ).ne')
    refine h1.hasDerivWithinAt.congr_deriv ?_
    rw [if_neg (not_lt.2 (by have := hx τ hτ; positivity))]
    simp
  · simpa [Matrix.det_unique] using (hx τ hτ).ne'
  · exact absurd h (by simp [Subsingleton.elim i j])
  · rw [Subsingleton.elim i 0, bmSqrt_derivative τ _ (hx τ hτ)]
    have := hx τ hτ
    positivity

end Probnum.SDE
