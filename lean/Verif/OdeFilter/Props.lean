import Verif.OdeFilter.Model
import Verif.RandVars.ArithLemmas
import Mathlib.Analysis.Calculus.FDeriv.Add
import Mathlib.Analysis.Calculus.FDeriv.Comp
import Mathlib.Analysis.Calculus.FDeriv.Linear
import Mathlib.Analysis.Calculus.FDeriv.Prod
import Mathlib.Analysis.Calculus.Deriv.Comp
import Mathlib.Analysis.Calculus.Deriv.Pow
import Mathlib.Analysis.Calculus.Deriv.Mul
import Mathlib.Analysis.Calculus.Deriv.Pi
import Mathlib.Topology.Algebra.Module.FiniteDimension
import Mathlib.LinearAlgebra.Matrix.ToLin
import Mathlib.Data.List.GetD
import Mathlib.Tactic.Ring
import Mathlib.Tactic.Linarith
import Mathlib.Tactic.FinCases

/-!
# C52, C68: ODE information operators, regression problems and initialisation

Specification: a state `x` has, for every ODE coordinate `i`, the consecutive entries `y_i, y_i', …, y_i^(q)`
(`coord x k i` is the `k`-th derivative of coordinate `i`).  The residual of `y' = f(t, y)` is
`coord x 1 - f(t, coord x 0)`.
-/

namespace Probnum.OdeFilter

open Matrix LinGauss Approx RandVars

variable {d q : ℕ}

/-- The `k`-th derivatives stored in a state, `k ≤ q`. -/
def coord (x : Fin (d * (q + 1)) → ℝ) (k : ℕ) (i : Fin d) : ℝ :=
  if h : i.1 * (q + 1) + k < d * (q + 1) then x ⟨i.1 * (q + 1) + k, h⟩ else 0

theorem coord_lt (i : Fin d) {k : ℕ} (hk : k ≤ q) : i.1 * (q + 1) + k < d * (q + 1) := by
  have h1 : (i.1 + 1) * (q + 1) ≤ d * (q + 1) := Nat.mul_le_mul_right _ i.2
  have h2 : (i.1 + 1) * (q + 1) = i.1 * (q + 1) + (q + 1) := by ring
  omega

/-- The matrices used by the operator read off derivatives. -/
theorem proj_mulVec (x : Fin (d * (q + 1)) → ℝ) {k : ℕ} (hk : k ≤ q) : proj d q k *ᵥ x = coord x k := by
  funext i
  have hlt := coord_lt (q := q) i hk
  rw [coord, dif_pos hlt]
  simp only [Matrix.mulVec, dotProduct, proj, Matrix.of_apply]
  rw [Finset.sum_eq_single ⟨_, hlt⟩]
  · simp
  · intro b _ hb
    have : b.1 ≠ i.1 * (q + 1) + k := fun e => hb (Fin.ext e)
    simp [this]
  · simp

/-- `proj` is the projection matrix of the integrator model (C20). -/
theorem proj_eq_iwp {k : ℕ} (hk : k < q + 1) (i : Fin d) (j : Fin (d * (q + 1))) :
    proj d q k i j = IWP.proj2coord q d ⟨k, hk⟩ (Fin.cast (Nat.mul_one d).symm i) j := by
  simp only [proj, IWP.proj2coord, IWP.kronEye, Matrix.of_apply]
  have hd : j.1 = j.1 / (q + 1) * (q + 1) + j.1 % (q + 1) := by
    have := Nat.div_add_mod j.1 (q + 1); rw [Nat.mul_comm] at this; omega
  have hm := Nat.mod_lt j.1 (Nat.succ_pos q)
  by_cases h : j.1 = i.1 * (q + 1) + k
  · have h1 : j.1 / (q + 1) = i.1 := by
      rw [h, Nat.mul_comm, Nat.mul_add_div (Nat.succ_pos q), Nat.div_eq_of_lt hk]; rfl
    have h2 : j.1 % (q + 1) = k := by rw [h, Nat.mul_comm, Nat.mul_add_mod, Nat.mod_eq_of_lt hk]
    rw [if_pos h, if_pos (by apply Fin.ext; simp [Fin.divNat, h1]), if_pos (by apply Fin.ext; simp [Fin.modNat, h2])]
    norm_num
  · rw [if_neg h]
    by_cases h1 : i.1 = j.1 / (q + 1)
    · have h2 : ¬ j.modNat = (⟨k, hk⟩ : Fin (q + 1)) := by
        intro e
        have e' : j.1 % (q + 1) = k := congrArg Fin.val e
        rw [e', ← h1] at hd
        exact h hd
      rw [if_neg h2, mul_zero]
    · rw [if_neg (by intro e; have := congrArg Fin.val e; simp [Fin.divNat] at this; exact h1 this), zero_mul]

/-! ## C52 (a): the residual operator -/

/-- Once an ODE is incorporated, the operator maps a state to (first derivatives) minus `f(t, values)`. -/
theorem residual_value (hq : 1 ≤ q) (ivp : Ivp d) (t : ℝ) (x : Fin (d * (q + 1)) → ℝ) :
    ((Residual.new d q).incorporate ivp).bind (fun R => R.call t x) = .ok (coord x 1 - ivp.f t (coord x 0)) := by
  have h0 : q ≠ 0 := by omega
  simp [Residual.new, Residual.incorporate, h0, Except.bind, Residual.call, proj_mulVec x hq, proj_mulVec x (Nat.zero_le q)]

/-- It vanishes exactly on states whose derivative is the vector field at their value. -/
theorem residual_zero_iff (hq : 1 ≤ q) (ivp : Ivp d) (t : ℝ) (x : Fin (d * (q + 1)) → ℝ) :
    ((Residual.new d q).incorporate ivp).bind (fun R => R.call t x) = .ok 0 ↔ coord x 1 = ivp.f t (coord x 0) := by
  rw [residual_value hq]
  constructor
  · intro h; exact sub_eq_zero.mp (Except.ok.inj h)
  · intro h; rw [h, sub_self]

/-- In particular it vanishes along every solution of the ODE: if `y` solves the ODE and the state holds `y(t)` and
`y'(t)`. -/
theorem residual_on_solution (hq : 1 ≤ q) (ivp : Ivp d) (y : ℝ → Fin d → ℝ) (t : ℝ) (y' : Fin d → ℝ) (hy : HasDerivAt y y' t)
    (hs : deriv y t = ivp.f t (y t)) (x : Fin (d * (q + 1)) → ℝ) (h0 : coord x 0 = y t) (h1 : coord x 1 = y') :
    ((Residual.new d q).incorporate ivp).bind (fun R => R.call t x) = .ok 0 := by
  rw [residual_zero_iff hq, h0, h1, ← hs, hy.deriv]

/-- Matrices as continuous linear maps. -/
noncomputable def clm {m n : ℕ} (A : Matrix (Fin m) (Fin n) ℝ) : (Fin n → ℝ) →L[ℝ] (Fin m → ℝ) :=
  LinearMap.toContinuousLinearMap A.mulVecLin

/-- With EK1 (the operator itself) the Jacobian is the derivative of the residual, if `df` is the derivative of the vector
field. -/
theorem residual_jacobian (hq : 1 ≤ q) (ivp : Ivp d) (df : ℝ → (Fin d → ℝ) → Matrix (Fin d) (Fin d) ℝ)
    (hdf : ivp.df = some df) (t : ℝ) (x : Fin (d * (q + 1)) → ℝ)
    (hder : HasFDerivAt (ivp.f t) (clm (df t (coord x 0))) (coord x 0)) :
    ∃ R J, (Residual.new d q).incorporate ivp = .ok R ∧ R.jacobian t x = .ok J ∧
      HasFDerivAt (fun x => coord x 1 - ivp.f t (coord x 0)) (clm J) x := by
  have h0 : q ≠ 0 := by omega
  refine ⟨⟨some ivp⟩, proj d q 1 - df t (proj d q 0 *ᵥ x) * proj d q 0, ?_, ?_, ?_⟩
  · simp [Residual.new, Residual.incorporate, h0]
  · simp [Residual.jacobian, hdf]
  · have e : (fun x : Fin (d * (q + 1)) → ℝ => coord x 1 - ivp.f t (coord x 0))
        = fun x => clm (proj d q 1) x - ivp.f t (clm (proj d q 0) x) := by
      funext z
      show _ = proj d q 1 *ᵥ z - ivp.f t (proj d q 0 *ᵥ z)
      rw [proj_mulVec z hq, proj_mulVec z (Nat.zero_le q)]
    rw [e]
    have hp : clm (proj d q 0) x = coord x 0 := proj_mulVec x (Nat.zero_le q)
    have h1 : HasFDerivAt (clm (proj d q 1)) (clm (proj d q 1)) x := (clm (proj d q 1)).hasFDerivAt
    have h2 : HasFDerivAt (clm (proj d q 0)) (clm (proj d q 0)) x := (clm (proj d q 0)).hasFDerivAt
    have h3 : HasFDerivAt (ivp.f t) (clm (df t (coord x 0))) (clm (proj d q 0) x) := by rw [hp]; exact hder
    have h4 := h1.sub (h3.comp x h2)
    have e2 : clm (proj d q 1) - (clm (df t (coord x 0))).comp (clm (proj d q 0))
        = clm (proj d q 1 - df t (proj d q 0 *ᵥ x) * proj d q 0) := by
      ext z i
      simp [clm, proj_mulVec x (Nat.zero_le q), Matrix.sub_mulVec, Matrix.mulVec_mulVec]
    rw [← e2]
    exact h4

/-- With EK0 the residual is the same function and the vector-field term is dropped from the Jacobian, whether or not `df`
is given. -/
theorem ek0_operator (hq : 1 ≤ q) (ivp : Ivp d) (t : ℝ) (x : Fin (d * (q + 1)) → ℝ) :
    ∃ R R0, (Residual.new d q).incorporate ivp = .ok R ∧ Strategy.ek0.apply R = .ok R0 ∧ R0.call t x = R.call t x ∧
      ∃ J, R0.jacobian t x = .ok J ∧ ∀ z, J *ᵥ z = coord z 1 := by
  have h0 : q ≠ 0 := by omega
  refine ⟨⟨some ivp⟩, ⟨some { ivp with df := some fun _ _ => 0 }⟩, ?_, ?_, rfl, proj d q 1, ?_, fun z => proj_mulVec z hq⟩
  · simp [Residual.new, Residual.incorporate, h0]
  · simp [Strategy.apply, Residual.new, Residual.incorporate, h0]
  · simp [Residual.jacobian]

/-- EK1 keeps the operator; without `df` its Jacobian raises. -/
theorem ek1_operator (R : Residual d q) : Strategy.ek1.apply R = .ok R := rfl

theorem ek1_needs_df (ivp : Ivp d) (h : ivp.df = none) (t : ℝ) (x : Fin (d * (q + 1)) → ℝ) :
    Residual.jacobian (⟨some ivp⟩ : Residual d q) t x = .error .typeError := by
  simp [Residual.jacobian, h]

/-- An ODE is incorporated at most once; before that the operator can be neither turned into a transition nor
approximated by EK0. -/
theorem incorporate_once (R : Residual d q) (ivp ivp' : Ivp d) (R' : Residual d q) (h : R.incorporate ivp = .ok R') :
    R'.incorporate ivp' = .error .valueError ∧ R'.ode = some ivp := by
  simp only [Residual.incorporate] at h
  split at h
  · cases h
  · split at h
    · cases h
    · have := Except.ok.inj h; subst this; exact ⟨rfl, rfl⟩

theorem before_incorporation (noise : Option (Normal d)) :
    (Residual.new d q).asTransition noise = .error .valueError ∧
    Strategy.ek0.apply (Residual.new d q) = .error .valueError := ⟨rfl, rfl⟩

/-- A prior without derivatives is rejected when the ODE is incorporated. -/
theorem no_derivatives_rejected (ivp : Ivp d) : (Residual.new d 0).incorporate ivp = .error .indexError := rfl

/-- Logistic equation, two prior derivatives. -/
noncomputable def logistic : Ivp 1 :=
  { f := fun _ y i => y i * (1 - y i), t0 := 0, y0 := fun _ => 1 / 2, df := some fun _ y => !![1 - 2 * y 0], solution := none }

theorem logistic_df (t : ℝ) (y : Fin 1 → ℝ) : HasFDerivAt (logistic.f t) (clm !![1 - 2 * y 0]) y := by
  rw [hasFDerivAt_pi']
  intro i
  have hi : i = 0 := Subsingleton.elim _ _
  subst hi
  have h1 : HasFDerivAt (fun y : Fin 1 → ℝ => y 0) (ContinuousLinearMap.proj 0 : (Fin 1 → ℝ) →L[ℝ] ℝ) y :=
    (ContinuousLinearMap.proj (R := ℝ) (φ := fun _ : Fin 1 => ℝ) 0).hasFDerivAt
  have h2 := h1.mul ((hasFDerivAt_const (1 : ℝ) y).sub h1)
  refine h2.congr_fderiv ?_
  ext z
  simp [clm, Matrix.mulVec, dotProduct]
  ring

example (x : Fin (1 * (2 + 1)) → ℝ) : ∃ df, logistic.df = some df ∧
    HasFDerivAt (logistic.f 0) (clm (df 0 (coord x 0))) (coord x 0) := ⟨_, rfl, logistic_df 0 _⟩

/-! ## C52 (b): regression problems -/

theorem reshape_index {d q i j : ℕ} (hi : i < d) (hj : j < d * (q + 1)) :
    (j * d + i) / (d * (q + 1)) = (j * d + i) % (d * (q + 1)) ↔ j = i * (q + 1) := by
  have hd : 0 < d := by omega
  have hD : 0 < d * (q + 1) := Nat.mul_pos hd (Nat.succ_pos q)
  constructor
  · intro e
    have h1 := Nat.div_add_mod (j * d + i) (d * (q + 1))
    rw [← e] at h1
    have hp_lt : j * d + i < d * (q + 1) * d := by
      have : (j + 1) * d ≤ d * (q + 1) * d := Nat.mul_le_mul_right _ hj
      have e3 : (j + 1) * d = j * d + d := by ring
      omega
    have ha_lt : (j * d + i) / (d * (q + 1)) < d := Nat.div_lt_of_lt_mul hp_lt
    generalize (j * d + i) / (d * (q + 1)) = a at h1 ha_lt
    have h2 : d * j + i = d * ((q + 1) * a) + a := by
      rw [Nat.mul_comm d j, ← h1]; ring
    have h3 : (d * j + i) % d = (d * ((q + 1) * a) + a) % d := by rw [h2]
    rw [Nat.mul_add_mod, Nat.mul_add_mod, Nat.mod_eq_of_lt hi, Nat.mod_eq_of_lt ha_lt] at h3
    subst h3
    have h4 : d * j = d * ((q + 1) * i) := by omega
    rw [Nat.eq_of_mul_eq_mul_left hd h4, Nat.mul_comm]
  · intro h
    have hp : j * d + i = d * (q + 1) * i + i := by rw [h]; ring
    have hin : i < d * (q + 1) := lt_of_lt_of_le hi (Nat.le_mul_of_pos_right d (Nat.succ_pos q))
    rw [hp, Nat.mul_add_div hD, Nat.mul_add_mod, Nat.div_eq_of_lt hin, Nat.mod_eq_of_lt hin]; rfl

/-- The reshaped identity of the initial-condition model reads off the values. -/
theorem initMatrix_eq (d q : ℕ) : initMatrix d q = proj d q 0 := by
  ext i j
  simp only [initMatrix, proj, Matrix.of_apply, Nat.add_zero, reshape_index i.2 j.2]

/-- The mean of a measurement at state `x` and time `t`. -/
def Model.mean (M : Model d q) (t : ℝ) (x : Fin (d * (q + 1)) → ℝ) : Res (Fin d → ℝ) :=
  match M with
  | .initial tr => .ok (tr.mat *ᵥ x + tr.noise.mean)
  | .ode M => (M.fn t x).map (· + M.noise.mean)

/-- Everything the function returns: one zero observation and one model per location; with the initial condition the
first model is that of the initial value, all others are the residual model with the requested noise. -/
theorem regression_ok (hq : 1 ≤ q) (ivp : Ivp d) (locs : List ℝ) (hl : locs ≠ []) (s : Option Strategy) (v : ℝ) (ex : Bool) :
    ∃ p R M, toRegression ivp locs (Residual.new d q) s v ex = .ok (p, R) ∧ R.ode = some ivp ∧
      p.locations = locs ∧ p.observations = List.replicate locs.length 0 ∧ p.models.length = locs.length ∧
      p.solution = ivp.solution.map (fun y => locs.map y) ∧
      p.models = (if ex then List.replicate locs.length (.ode M)
        else .initial ⟨proj d q 0, initNoise ivp v⟩ :: List.replicate (locs.length - 1) (.ode M)) ∧
      (∀ t x, M.fn t x = .ok (coord x 1 - ivp.f t (coord x 0))) ∧
      M.noise = (odeNoise ivp v).getD (Normal.const 0) := by
  have h0 : q ≠ 0 := by omega
  have hlen : 0 < locs.length := List.length_pos_iff.mpr hl
  obtain ⟨R'', hR'', hcall⟩ : ∃ R'' : Residual d q, applyStrategy s (⟨some ivp⟩ : Residual d q) = .ok R'' ∧
      ∃ ivp', R''.ode = some ivp' ∧ ivp'.f = ivp.f := by
    rcases s with _ | s
    · exact ⟨_, rfl, ivp, rfl, rfl⟩
    · rcases s with _ | _
      · exact ⟨⟨some { ivp with df := some fun _ _ => 0 }⟩,
          by simp [applyStrategy, Strategy.apply, Residual.new, Residual.incorporate, h0], _, rfl, rfl⟩
      · exact ⟨_, rfl, ivp, rfl, rfl⟩
  obtain ⟨ivp', hode, hf⟩ := hcall
  set M : Meas d q := ⟨R''.call, R''.jacobian, (odeNoise ivp v).getD (Normal.const 0)⟩ with hM
  set models : List (Model d q) := (if ex then List.replicate locs.length (.ode M)
        else .initial ⟨proj d q 0, initNoise ivp v⟩ :: List.replicate (locs.length - 1) (.ode M)) with hmod
  have hml : models.length = locs.length := by
    rw [hmod]; cases ex <;> simp <;> omega
  have hsol : solutionAt ivp locs = .ok (ivp.solution.map fun y => locs.map y) := by
    unfold solutionAt
    cases ivp.solution with
    | none => rfl
    | some y => simp [hl]
  refine ⟨⟨locs, List.replicate locs.length 0, models, ivp.solution.map fun y => locs.map y⟩, ⟨some ivp⟩, M, ?_, rfl, rfl,
    rfl, hml, rfl, rfl, ?_, rfl⟩
  · have hi : (Residual.new d q).incorporate ivp = .ok ⟨some ivp⟩ := by simp [Residual.new, Residual.incorporate, h0]
    have ht : R''.asTransition (odeNoise ivp v) = .ok M := by simp only [Residual.asTransition, hode, hM]
    simp only [toRegression, hsol, hi, hR'', ht, Except.bind, initMatrix_eq]
    rw [show mkProblem locs (List.replicate locs.length 0) models (ivp.solution.map fun y => locs.map y)
      = .ok ⟨locs, List.replicate locs.length 0, models, ivp.solution.map fun y => locs.map y⟩ by
        simp [mkProblem, hml]]
    rfl
  · intro t x
    show R''.call t x = _
    simp [Residual.call, hode, hf, proj_mulVec x hq, proj_mulVec x (Nat.zero_le q)]

/-- **C52 (b), exact data.**  Without measurement variance the mean of the first model vanishes exactly on states with the
initial value, and the mean of every other model exactly on states satisfying the ODE. -/
theorem regression_means_partial (hq : 1 ≤ q) (ivp : Ivp d) (locs : List ℝ) (hl : locs ≠ []) (s : Option Strategy) (v : ℝ)
    (hv : v ≤ 0 ∨ ivp.y0 = 0) :
    ∃ p R M0 M, toRegression ivp locs (Residual.new d q) s v false = .ok (p, R) ∧
      p.models = M0 :: List.replicate (locs.length - 1) M ∧
      (∀ t x, M0.mean t x = .ok 0 ↔ coord x 0 = ivp.y0) ∧
      ∀ t x, M.mean t x = .ok 0 ↔ coord x 1 = ivp.f t (coord x 0) := by
  obtain ⟨p, R, M, h1, _, _, _, _, _, h2, h3, h4⟩ := regression_ok hq ivp locs hl s v false
  refine ⟨p, R, _, _, h1, h2, fun t x => ?_, fun t x => ?_⟩
  · have hn : (initNoise ivp v).mean = -ivp.y0 := by unfold initNoise; split <;> rfl
    simp only [Model.mean, hn, proj_mulVec x (Nat.zero_le q)]
    constructor
    · intro h
      have := Except.ok.inj h
      exact sub_eq_zero.mp (by rwa [sub_eq_add_neg])
    · intro h; rw [h, add_neg_cancel]
  · have hn : M.noise.mean = 0 := by
      rw [h4]
      unfold odeNoise
      by_cases hp : 0 < v
      · have hy : ivp.y0 = 0 := hv.resolve_left (by linarith)
        simp [hp, initNoise, hy]
      · simp [hp, Normal.const]
    simp only [Model.mean, h3, Except.map, hn, add_zero]
    constructor
    · intro h; exact sub_eq_zero.mp (Except.ok.inj h)
    · intro h; rw [h, sub_self]

/-- **Violation.**  With a positive measurement variance the noise of the ODE models has mean `-y0` instead of zero: on
every state satisfying the ODE the mean of the measurement is `-y0`, so it does not vanish unless `y0 = 0`. -/
theorem regression_means_wrong (hq : 1 ≤ q) (ivp : Ivp d) (locs : List ℝ) (hl : locs ≠ []) (s : Option Strategy) (v : ℝ)
    (hv : 0 < v) (ex : Bool) :
    ∃ p R M, toRegression ivp locs (Residual.new d q) s v ex = .ok (p, R) ∧
      (ex = true → p.models = List.replicate locs.length M) ∧ (1 < locs.length → M ∈ p.models) ∧
      ∀ t x, coord x 1 = ivp.f t (coord x 0) → M.mean t x = .ok (-ivp.y0) := by
  obtain ⟨p, R, M, h1, _, _, _, _, _, h2, h3, h4⟩ := regression_ok hq ivp locs hl s v ex
  refine ⟨p, R, .ode M, h1, fun h => by rw [h2, if_pos h], fun h => ?_, fun t x h => ?_⟩
  · rw [h2]
    cases ex
    · simp; omega
    · simp; omega
  · have hn : M.noise.mean = -ivp.y0 := by
      rw [h4]; unfold odeNoise initNoise; simp [hv]
    simp [Model.mean, h3, h, Except.map, hn]

example : logistic.y0 ≠ 0 ∧ (0 : ℝ) < 1 ∧ ([0, 1] : List ℝ) ≠ [] := by
  refine ⟨fun h => ?_, one_pos, by simp⟩
  have := congrFun h 0
  norm_num [logistic] at this

/-- The covariance and its Cholesky factor are right for every variance. -/
theorem regression_noise_valid (ivp : Ivp d) (v : ℝ) :
    (initNoise ivp v).cov = max v 0 • (1 : Matrix (Fin d) (Fin d) ℝ) ∧
    (initNoise ivp v).chol * (initNoise ivp v).cholᵀ = (initNoise ivp v).cov := by
  unfold initNoise
  by_cases hv : 0 < v
  · rw [if_pos hv]
    refine ⟨by rw [max_eq_left hv.le], ?_⟩
    have e : (v • (1 : Matrix (Fin d) (Fin d) ℝ)).map Real.sqrt = Real.sqrt v • 1 := by
      ext i j
      by_cases h : i = j <;> simp [Matrix.one_apply, h]
    simp only [e, Matrix.transpose_smul, Matrix.transpose_one, Matrix.smul_mul, Matrix.mul_smul, Matrix.one_mul, smul_smul,
      Real.mul_self_sqrt hv.le]
  · rw [if_neg hv]
    simp [Normal.const, max_eq_right (not_lt.mp hv)]

/-- Linearised at the state itself, the predicted mean is the mean of the model: linearisation does not change which
states have zero mean. -/
theorem linearised_mean (M : Meas d q) (t : ℝ) (x : Fin (d * (q + 1)) → ℝ) (g : Fin d → ℝ)
    (J : Matrix (Fin d) (Fin (d * (q + 1))) ℝ) (hg : M.fn t x = .ok g) (hJ : M.jac t x = .ok J) :
    M.linearisedMean t x x = (Model.ode M).mean t x := by
  simp only [Meas.linearisedMean, hg, hJ, Except.bind, Except.map, Model.mean]
  congr 1
  abel

/-- The operator is used up: a second call with it raises ValueError. -/
theorem regression_second_call (hq : 1 ≤ q) (ivp ivp' : Ivp d) (locs locs' : List ℝ) (hl : locs ≠ []) (hl' : locs' ≠ [])
    (s s' : Option Strategy) (v v' : ℝ) (ex ex' : Bool) :
    ∃ p R, toRegression ivp locs (Residual.new d q) s v ex = .ok (p, R) ∧
      toRegression ivp' locs' R s' v' ex' = .error .valueError := by
  obtain ⟨p, R, M, h1, h2, _⟩ := regression_ok hq ivp locs hl s v ex
  refine ⟨p, R, h1, ?_⟩
  have hi : R.incorporate ivp' = .error .valueError := by simp [Residual.incorporate, h2]
  have hs : ∃ z, solutionAt ivp' locs' = .ok z := by
    unfold solutionAt
    cases ivp'.solution with
    | none => exact ⟨_, rfl⟩
    | some y => exact ⟨some (locs'.map y), by simp [hl']⟩
  obtain ⟨z, hz⟩ := hs
  simp [toRegression, hz, hi, Except.bind]

/-- Without locations the call raises ValueError, unless the initial condition is excluded and no solution is given. -/
theorem regression_empty (hq : 1 ≤ q) (ivp : Ivp d) (s : Option Strategy) (v : ℝ) (ex : Bool)
    (h : ex = false ∨ ivp.solution ≠ none) :
    toRegression ivp [] (Residual.new d q) s v ex = .error .valueError := by
  have h0 : q ≠ 0 := by omega
  cases hsol : ivp.solution with
  | some y => simp [toRegression, solutionAt, hsol, Except.bind]
  | none =>
    have hex : ex = false := h.resolve_right (by simp [hsol])
    subst hex
    have hi : (Residual.new d q).incorporate ivp = .ok ⟨some ivp⟩ := by simp [Residual.new, Residual.incorporate, h0]
    rcases s with _ | _ | _ <;>
      simp [toRegression, solutionAt, hsol, Except.bind, hi, applyStrategy, Strategy.apply, Residual.asTransition,
        Residual.new, Residual.incorporate, h0, mkProblem, Except.map]

end Probnum.OdeFilter
