import Verif.IWP.Props
import Verif.SDE.Props
import Verif.Zoo.FiltSmoothLemmas
import Verif.Zoo.PropsIvp
import Mathlib.Analysis.SpecialFunctions.Trigonometric.Deriv
import Mathlib.Analysis.SpecialFunctions.Trigonometric.DerivHyp

/-!
# C88: the filtering and smoothing problems of the zoo are the documented state space models
-/

namespace Probnum.FiltZoo

open MeasureTheory ProbabilityTheory Matrix LinGauss Kalman Gauss

variable {n m : ℕ}

/-! ## Sampling -/

theorem linearForward_eq (H : Transition n m) (x : Fin n → ℝ) (t : ℝ) :
    linearForward H x t = ⟨H.mat *ᵥ x + H.noise.mean, H.noise.cov⟩ := by
  simp [linearForward, forwardClassic, Normal.const]

theorem classicPrior_forward (t0 : ℝ) (init : Updated n) (disc : ℝ → Transition n n) (x : Fin n → ℝ) (t dt : ℝ) :
    (classicPrior t0 init disc).forward ⟨x, 0⟩ t dt none
      = .ok ⟨(disc dt).mat *ᵥ x + (disc dt).noise.mean, (disc dt).noise.cov⟩ := by
  simp [classicPrior, forwardClassic, toNormal]

theorem prior_forward (M : Nonlinear n n) (t0 : ℝ) (init : Updated n) (x : Fin n → ℝ) (t dt : ℝ) :
    (M.prior t0 init).forward ⟨x, 0⟩ t dt none = .ok ⟨M.fn t x + (M.noise t).mean, (M.noise t).cov⟩ := by
  simp [Nonlinear.prior, Nonlinear.forwardRealization]

theorem measurable_affine (A : Matrix (Fin m) (Fin n) ℝ) (c : Fin m → ℝ) : Measurable fun x => A *ᵥ x + c :=
  (measurable_mulVec A).add measurable_const

/-- `generate_artificial_measurements` for a linear Gaussian model: with standard normal draws the states start with the
initial distribution, every step adds noise of the documented distribution, which is independent of the past except for the
first step, and the observations are the documented functions of the states plus independent noise. -/
theorem linear_data (initarg : ℝ) (init : Updated n) (disc : ℝ → Transition n n) (H : Transition n m) (ch : CovCholesky n)
    (chm : CovCholesky m) (N : ℕ) (times : List ℝ) (ht : times.length = N + 1) (hi : init.cov.PosSemidef)
    (hR : H.noise.cov.PosSemidef)
    (hQ : ∀ k, k + 1 < N + 1 → (disc (times.getD (k + 1) 0 - times.getD k 0)).noise.cov.PosSemidef) :
    ∃ (X : ℕ → (Idx n m N → ℝ) → Fin n → ℝ) (Y : ℕ → (Idx n m N → ℝ) → Fin m → ℝ),
      (∀ x, generate chm (sampleAt (classicPrior initarg init disc) ch (stateBase N x)) (linearForward H) (obsBase N x) times
        = .ok ((List.range (N + 1)).map fun k => X k x, (List.range (N + 1)).map fun k => Y k x)) ∧
      Evolves (stdBase (Idx n m N)) (N + 1) init
        (fun k x => (disc (times.getD (k + 1) 0 - times.getD k 0)).mat *ᵥ x
          + (disc (times.getD (k + 1) 0 - times.getD k 0)).noise.mean)
        (fun k => (disc (times.getD (k + 1) 0 - times.getD k 0)).noise.cov) X (fun k => 0 < k ∨ ch.factor init.cov = 0) ∧
      Observes (stdBase (Idx n m N)) (N + 1) X Y (fun _ x => H.mat *ᵥ x) H.noise.mean H.noise.cov := by
  have hne : times ≠ [] := by rintro rfl; simp at ht
  refine ⟨_, _, fun x => ?_, chain_evolves N (g := fun _ dt x => (disc dt).mat *ᵥ x + (disc dt).noise.mean)
    (Q := fun _ dt => (disc dt).noise.cov) (t := fun k => times.getD k 0) (ch := ch)
    (fun _ dt => measurable_affine _ _) hi fun k => ?_,
    chain_observes N (fun _ dt => measurable_affine _ _) (fun _ x => H.mat *ᵥ x) (fun _ => measurable_mulVec _) chm
      H.noise.mean hR⟩
  · have hs := sampleAt_chain (classicPrior_forward initarg init disc) ch (stateBase N x) hne
    rw [generate_eq hs, ht]
    simp only [linearForward_eq, transformBase]
    rfl
  · by_cases h : k + 1 < N + 1
    · exact .inl (hQ k h)
    · exact .inr h

/-! ## `car_tracking` -/

/-- The documented model: the transition matrix of the docstring for the state `(x₁, x₂, x₁', x₂')`. -/
def carDocumented (h : ℝ) : Matrix (Fin 4) (Fin 4) ℝ := !![1, 0, h, 0; 0, 1, 0, h; 0, 0, 1, 0; 0, 0, 0, 1]

/-- **C88** (`car_tracking`, partial): for every order, variance, positive step and time span, and for every initial random
variable, the problem consists of the grid of the time span, the integrated Wiener process with this step, the given (or
default) initial random variable at the left end, observation noise with the given variance, and data: the states start
from the initial random variable and every step adds the process noise, the observations are the measurement matrix times
the states plus independent noise.
Missing: the noise of the first step is not independent of the initial state (`car_states_wrong`), the measurement matrix
does not measure the two positions (`car_second_position_unobserved`) and the diffusion is ignored. -/
theorem car_tracking_partial (q : ℕ) (chol : CovCholesky (q + 1)) (ch : CovCholesky (2 * (q + 1))) (ch2 : CovCholesky 2)
    {variance t0 t1 step : ℝ} (diffusion : ℝ) (hv : 0 ≤ variance) (hs : 0 < step) (ht : t0 < t1)
    (initrv : Option (Updated (2 * (q + 1)))) (hi : ∀ rv, initrv = some rv → rv.cov.PosSemidef) :
    ∃ N dyn grid X Y, IsGrid t0 t1 step grid ∧ grid.length = N + 1 ∧ IWP.discretise q 2 chol step = some dyn ∧
      (∀ x, ∃ H, carTracking q chol ch ch2 (stateBase N x) (obsBase N x) variance diffusion t0 t1 step initrv
        = .ok ⟨fun _ => dyn, H, initrv.getD ⟨0, variance • 1⟩, t0, grid, (List.range (N + 1)).map fun k => X k x,
            (List.range (N + 1)).map fun k => Y k x⟩ ∧
          H.mat = eye 2 (2 * (q + 1)) ∧ H.noise.mean = 0 ∧ H.noise.cov = variance • 1) ∧
      Evolves (stdBase (Idx (2 * (q + 1)) 2 N)) (N + 1) (initrv.getD ⟨0, variance • 1⟩) (fun _ x => dyn.mat *ᵥ x)
        (fun _ => dyn.noise.cov) X (fun k => 0 < k ∨ ch.factor (initrv.getD ⟨0, variance • 1⟩).cov = 0) ∧
      Observes (stdBase (Idx (2 * (q + 1)) 2 N)) (N + 1) X Y (fun _ x => eye 2 (2 * (q + 1)) *ᵥ x) 0 (variance • 1) := by
  obtain ⟨grid, hg, hG⟩ := arange_spec (t0 := t0) (t1 := t1) hs
  obtain ⟨dyn, hd, hmean, -⟩ := IWP.discretise_entries q 2 chol hs.ne'
  obtain ⟨dyn', hd', hpos, -⟩ := IWP.noise_positive_definite q 2 chol hs.ne'
  have e : dyn' = dyn := Option.some.inj (hd'.symm.trans hd)
  subst e
  have hl : grid.length = grid.length - 1 + 1 := by
    have := List.length_pos_of_ne_nil (hG.ne_nil ht); omega
  have hpsd : ∀ {k : ℕ}, (variance • (1 : Matrix (Fin k) (Fin k) ℝ)).PosSemidef := Matrix.PosSemidef.one.smul hv
  have hinit : (initrv.getD (carInit q variance)).cov.PosSemidef := by
    cases initrv with
    | none => exact hpsd
    | some rv => exact hi rv rfl
  obtain ⟨X, Y, h1, h2, h3⟩ := linear_data t0 (initrv.getD (carInit q variance)) (fun _ => dyn') (carMeas q variance) ch ch2
    (grid.length - 1) grid hl hinit hpsd (fun _ _ => hpos.posSemidef)
  simp only [hmean, add_zero] at h2
  refine ⟨grid.length - 1, dyn', grid, X, Y, hG, hl, hd, fun x => ⟨carMeas q variance, ?_, rfl, rfl, rfl⟩, h2, h3⟩
  simp only [carTracking, hd, hg, hG.first ht, h1 x, bind, Except.bind]
  rfl

/-- For an empty time span there is no first grid point (IndexError), for a step of zero no grid (ZeroDivisionError). -/
theorem car_tracking_rejects (q : ℕ) (chol : CovCholesky (q + 1)) (ch : CovCholesky (2 * (q + 1))) (ch2 : CovCholesky 2)
    (base : ℕ → Fin (2 * (q + 1)) → ℝ) (noise : ℕ → Fin 2 → ℝ) (variance diffusion t0 t1 step : ℝ)
    (initrv : Option (Updated (2 * (q + 1)))) :
    (0 < step → t1 ≤ t0 →
      carTracking q chol ch ch2 base noise variance diffusion t0 t1 step initrv = .error .indexError) ∧
    carTracking q chol ch ch2 base noise variance diffusion t0 t1 0 initrv = .error .zeroDivisionError := by
  constructor
  · intro hs ht
    obtain ⟨grid, hg, hG⟩ := arange_spec (t0 := t0) (t1 := t1) hs
    obtain ⟨dyn, hd, -⟩ := IWP.discretise_entries q 2 chol hs.ne'
    simp only [carTracking, hd, hg, hG.nil ht, bind, Except.bind]
    rfl
  · simp only [carTracking, IWP.zero_step_undefined, bind, Except.bind]

/-- **C88, violated**: `process_diffusion` has no effect. -/
theorem car_diffusion_ignored (q : ℕ) (chol : CovCholesky (q + 1)) (ch : CovCholesky (2 * (q + 1))) (ch2 : CovCholesky 2)
    (base : ℕ → Fin (2 * (q + 1)) → ℝ) (noise : ℕ → Fin 2 → ℝ) (variance d d' t0 t1 step : ℝ)
    (initrv : Option (Updated (2 * (q + 1)))) :
    carTracking q chol ch ch2 base noise variance d t0 t1 step initrv
      = carTracking q chol ch ch2 base noise variance d' t0 t1 step initrv := rfl

theorem fin_prod_index {q : ℕ} (i : Fin 2) (k : Fin (q + 1)) : (finProdFinEquiv (i, k)).1 = k.1 + (q + 1) * i.1 := rfl

/-- The transition matrix is the documented one up to the order of the coordinates: state `k + 2 i` (derivative `k` of
position `i`) of the returned model is documented coordinate `i + 2 k`. -/
theorem car_transition_reordered (chol : CovCholesky (1 + 1)) {step : ℝ} (hs : 0 < step) :
    ∃ dyn, IWP.discretise 1 2 chol step = some dyn ∧ ∀ (i j : Fin 2) (k l : Fin (1 + 1)),
      dyn.mat (finProdFinEquiv (i, k)) (finProdFinEquiv (j, l))
        = carDocumented step (finProdFinEquiv (k, i)) (finProdFinEquiv (l, j)) := by
  obtain ⟨dyn, hd, -, h⟩ := IWP.discretise_entries 1 2 chol hs.ne'
  refine ⟨dyn, hd, fun i j k l => ?_⟩
  rw [(h i j k l).1, abs_of_pos hs]
  have e : ∀ a b : Fin 2, (finProdFinEquiv (a, b) : Fin (2 * 2)) = ⟨b.1 + 2 * a.1, by omega⟩ := fun a b => rfl
  rw [e, e]
  fin_cases i <;> fin_cases j <;> fin_cases k <;> fin_cases l <;> simp [carDocumented]

/-- **C88, violated**: the transition matrix is not the documented matrix. -/
theorem car_transition_wrong (chol : CovCholesky (1 + 1)) {step : ℝ} (hs : 0 < step) :
    ∃ dyn, IWP.discretise 1 2 chol step = some dyn ∧ dyn.mat ≠ carDocumented step := by
  obtain ⟨dyn, hd, h⟩ := car_transition_reordered chol hs
  refine ⟨dyn, hd, fun e => ?_⟩
  have := h 0 0 0 1
  rw [e] at this
  have e : ∀ a b : Fin 2, (finProdFinEquiv (a, b) : Fin (2 * 2)) = ⟨b.1 + 2 * a.1, by omega⟩ := fun a b => rfl
  rw [e, e, e] at this
  simp [carDocumented] at this
  exact hs.ne this

/-- **C88, violated**: for every order `q ≥ 1` the observations do not depend on the second position of the car: after any
number of noise-free steps, two initial states that differ in the coordinates of the second position (and its derivatives)
only are observed as the same.  The documented observations are the two positions. -/
theorem car_second_position_unobserved (q : ℕ) (hq : 1 ≤ q) (chol : CovCholesky (q + 1)) {step : ℝ} (hs : step ≠ 0) :
    ∃ dyn, IWP.discretise q 2 chol step = some dyn ∧ ∀ (N : ℕ) (x y : Fin (2 * (q + 1)) → ℝ),
      (∀ k : Fin (q + 1), x (finProdFinEquiv (0, k)) = y (finProdFinEquiv (0, k))) →
      eye 2 (2 * (q + 1)) *ᵥ (dyn.mat ^ N *ᵥ x) = eye 2 (2 * (q + 1)) *ᵥ (dyn.mat ^ N *ᵥ y) := by
  obtain ⟨dyn, hd, -, h⟩ := IWP.discretise_entries q 2 chol hs
  refine ⟨dyn, hd, fun N x y hxy => ?_⟩
  have key : ∀ N, ∀ k : Fin (q + 1), (dyn.mat ^ N *ᵥ x) (finProdFinEquiv (0, k)) = (dyn.mat ^ N *ᵥ y) (finProdFinEquiv (0, k)) := by
    intro N
    induction N with
    | zero => simpa using hxy
    | succ N ih =>
      intro k
      rw [pow_succ', ← Matrix.mulVec_mulVec, ← Matrix.mulVec_mulVec]
      rw [Matrix.mulVec, Matrix.mulVec, dotProduct, dotProduct, ← Equiv.sum_comp finProdFinEquiv,
        ← Equiv.sum_comp finProdFinEquiv, Fintype.sum_prod_type, Fintype.sum_prod_type, Fin.sum_univ_two, Fin.sum_univ_two]
      congr 1
      · exact Finset.sum_congr rfl fun l _ => by rw [ih l]
      · have : ∀ l : Fin (q + 1), dyn.mat (finProdFinEquiv (0, k)) (finProdFinEquiv (1, l)) = 0 := fun l => by
          rw [(h 0 1 k l).1]; simp
        simp [this]
  have heye : ∀ (z : Fin (2 * (q + 1)) → ℝ) (i : Fin 2),
      (eye 2 (2 * (q + 1)) *ᵥ z) i = z (finProdFinEquiv (0, (⟨i.1, by omega⟩ : Fin (q + 1)))) := by
    intro z i
    rw [Matrix.mulVec, dotProduct, Finset.sum_eq_single (finProdFinEquiv ((0 : Fin 2), (⟨i.1, by omega⟩ : Fin (q + 1))))]
    · simp [eye]
    · intro j _ hj
      have : i.1 ≠ j.1 := fun e => hj (Fin.ext (by simp [← e]))
      simp [eye, this]
    · simp
  funext i
  rw [heye, heye, key]

/-- The documented model observes the second position. -/
example : (eye 2 4 *ᵥ (carDocumented 1 ^ 0 *ᵥ ![0, 1, 0, 0])) 1 = 1 := by
  simp [eye, Matrix.mulVec, dotProduct, Fin.sum_univ_four]

/-- Without derivatives the measurement matrix is the documented one: it extracts the two positions. -/
theorem car_positions_partial : eye 2 (2 * (0 + 1)) = OdeFilter.proj 2 0 0 := by
  ext i j
  simp [eye, OdeFilter.proj, eq_comm]

/-- **C88, violated**: for every positive variance, every order and every lower triangular `cov_cholesky`, the second state
does not have the distribution of the process after one step. -/
theorem car_states_wrong (q : ℕ) (chol : CovCholesky (q + 1)) (ch : CovCholesky (2 * (q + 1))) (ch2 : CovCholesky 2)
    {variance t0 t1 step : ℝ} (diffusion : ℝ) (hv : 0 < variance) (hs : 0 < step) (ht : t0 + step < t1)
    (hl : ∀ C i j, i < j → ch.factor C i j = 0) (hp : ∀ C i, 0 ≤ ch.factor C i i) :
    ∃ N dyn X, IWP.discretise q 2 chol step = some dyn ∧
      (∀ x, ∃ S, carTracking q chol ch ch2 (stateBase N x) (obsBase N x) variance diffusion t0 t1 step none = .ok S ∧
        S.states[1]? = some (X x)) ∧
      ¬ IsNormal (stdBase (Idx (2 * (q + 1)) 2 N)) X 0 (dyn.mat * (variance • 1) * dyn.matᵀ + dyn.noise.cov) := by
  obtain ⟨grid, hg, hG⟩ := arange_spec (t0 := t0) (t1 := t1) hs
  obtain ⟨dyn, hd, hmean, hent⟩ := IWP.discretise_entries q 2 chol hs.ne'
  obtain ⟨dyn', hd', hpos, -⟩ := IWP.noise_positive_definite q 2 chol hs.ne'
  have e : dyn' = dyn := Option.some.inj (hd'.symm.trans hd)
  subst e
  have hne : grid ≠ [] := hG.ne_nil (by linarith)
  have hlen : 2 ≤ grid.length := by
    have h1 := (hG.2 (t0 + step)).2 ⟨1, by simp, ht⟩
    by_contra hc
    obtain ⟨a, rfl⟩ := List.length_eq_one_iff.1 (show grid.length = 1 by
      have := List.length_pos_of_ne_nil hne; omega)
    have h0 := hG.1 0 (by simp)
    simp at h0 h1
    linarith
  set L0 := ch.factor (variance • (1 : Matrix (Fin (2 * (q + 1))) (Fin (2 * (q + 1))) ℝ)) with hL0
  set L1 := ch.factor dyn'.noise.cov with hL1
  have g0 : L0 * L0ᵀ = variance • 1 := ch.gram _ (Matrix.PosSemidef.one.smul hv.le)
  have g1 : L1 * L1ᵀ = dyn'.noise.cov := ch.gram _ hpos.posSemidef
  refine ⟨grid.length - 1, dyn', fun x => dyn'.mat *ᵥ (L0 *ᵥ stateBase _ x 0) + L1 *ᵥ stateBase _ x 0, hd, fun x => ?_, ?_⟩
  · have hs := sampleAt_chain (classicPrior_forward t0 (carInit q variance) fun _ => dyn') ch (stateBase (grid.length - 1) x) hne
    refine ⟨_, by simp only [carTracking, hd, hg, hG.first (by linarith : t0 < t1), Option.getD_none,
      generate_eq hs, bind, Except.bind]; rfl, ?_⟩
    simp only [List.getElem?_map]
    rw [List.getElem?_range (by omega)]
    simp only [Option.map_some]
    congr 1
    show dyn'.mat *ᵥ ((0 : Fin _ → ℝ) + L0 *ᵥ _) + dyn'.noise.mean + L1 *ᵥ _ = _
    rw [hmean, zero_add, add_zero]
  · intro h
    have hn := base_normal (ι := Idx (2 * (q + 1)) 2 (grid.length - 1))
      (fun i : Fin (2 * (q + 1)) => Sum.inl (Fin.ofNat (grid.length - 1 + 1) 0, i)) (fun a b h => by simpa using h)
      (dyn'.mat * L0 + L1) 0
    have hX : (fun x : Idx (2 * (q + 1)) 2 (grid.length - 1) → ℝ =>
        (dyn'.mat * L0 + L1) *ᵥ (fun i => x (Sum.inl (Fin.ofNat (grid.length - 1 + 1) 0, i))) + 0)
        = fun x => dyn'.mat *ᵥ (L0 *ᵥ stateBase _ x 0) + L1 *ᵥ stateBase _ x 0 := by
      funext x
      rw [add_zero, Matrix.add_mulVec, ← Matrix.mulVec_mulVec]
      rfl
    rw [hX] at hn
    let z : Fin (2 * (q + 1)) := ⟨0, by omega⟩
    have hz : ∀ j, j ≠ z → z < j := fun j hj => Fin.lt_def.2 (Nat.pos_of_ne_zero fun e => hj (Fin.ext e))
    have hzz : z = finProdFinEquiv ((0 : Fin 2), (0 : Fin (q + 1))) := Fin.ext (by simp [z])
    have hA : dyn'.mat z z = 1 := by rw [hzz, (hent 0 0 0 0).1]; simp
    have row : ∀ (L M : Matrix (Fin (2 * (q + 1))) (Fin (2 * (q + 1))) ℝ) (i), (∀ j, z < j → M z j = 0) →
        (L * Mᵀ) i z = L i z * M z z := by
      intro L M i hM
      rw [Matrix.mul_apply, Finset.sum_eq_single z]
      · rfl
      · intro j _ hj; rw [Matrix.transpose_apply, hM j (hz j hj), mul_zero]
      · simp
    have h00 : L0 z z * L0 z z = variance := by
      rw [← row L0 L0 z (hl _ z), g0]; simp
    have hpos0 : 0 < L0 z z := lt_of_le_of_ne (hp _ z) fun e => by rw [← e] at h00; simp at h00; linarith
    have h11 : L1 z z * L1 z z = dyn'.noise.cov z z := by rw [← row L1 L1 z (hl _ z), g1]
    have hpos1 : 0 < L1 z z := lt_of_le_of_ne (hp _ z) fun e => by
      rw [← e] at h11; simp at h11; exact absurd h11 hpos.diag_pos.ne
    have hcol : ∀ j, j ≠ z → L0 j z = 0 := fun j hj => by
      have := row L0 L0 j (hl _ z)
      rw [g0] at this
      simp [hj] at this
      exact this.resolve_right hpos0.ne'
    have hcross : (dyn'.mat * L0 * L1ᵀ) z z = L0 z z * L1 z z := by
      rw [row _ L1 z (hl _ z), Matrix.mul_apply, Finset.sum_eq_single z, hA, one_mul]
      · intro j _ hj; rw [hcol j hj, mul_zero]
      · simp
    have h1 := h.cov z z
    rw [hn.cov z z] at h1
    have e1 : (dyn'.mat * L0 + L1) * (dyn'.mat * L0 + L1)ᵀ
        = dyn'.mat * (variance • 1) * dyn'.matᵀ + dyn'.noise.cov
          + (dyn'.mat * L0 * L1ᵀ + (dyn'.mat * L0 * L1ᵀ)ᵀ) := by
      rw [← g0, ← g1]
      simp only [Matrix.transpose_add, Matrix.transpose_mul, Matrix.add_mul, Matrix.mul_add, Matrix.mul_assoc,
        Matrix.transpose_transpose]
      abel
    rw [e1] at h1
    simp only [Matrix.add_apply, Matrix.transpose_apply, hcross] at h1
    have := mul_pos hpos0 hpos1
    linarith

/-- Lower triangular factors with nonnegative diagonal exist. -/
theorem exists_lower_cholesky {n : ℕ} (hn : 0 < n) : ∃ ch : CovCholesky n,
    (∀ C i j, i < j → ch.factor C i j = 0) ∧ (∀ C i, 0 ≤ ch.factor C i i) := by
  classical
  obtain ⟨ch, -⟩ := exists_covCholesky n
  obtain ⟨Q⟩ := QR.exists
  have key : ∀ C : Matrix (Fin n) (Fin n) ℝ, ∃ L : Matrix (Fin n) (Fin n) ℝ, (C.PosSemidef → L * Lᵀ = C) ∧
      (∀ i j : Fin n, i < j → L i j = 0) ∧ ∀ i, 0 ≤ L i i := fun C => by
    obtain ⟨L, -, h1, h2, h3⟩ := cholesky_update_single_correct Q hn (ch.factor C)
    exact ⟨L, fun hC => by rw [h1, ch.gram C hC], h2, h3⟩
  exact ⟨⟨fun C => (key C).choose, fun C hC => (key C).choose_spec.1 hC⟩, fun C => (key C).choose_spec.2.1,
    fun C => (key C).choose_spec.2.2⟩

/-- The hypotheses of the theorems about `car_tracking` are met with the default arguments. -/
example : ∃ (chol : CovCholesky (1 + 1)) (ch : CovCholesky (2 * (1 + 1))) (ch2 : CovCholesky 2),
    (∃ N dyn X, IWP.discretise 1 2 chol (1 / 5) = some dyn ∧
      (∀ x, ∃ S, carTracking 1 chol ch ch2 (stateBase N x) (obsBase N x) (1 / 2) 1 0 20 (1 / 5) none = .ok S ∧
        S.states[1]? = some (X x)) ∧
      ¬ IsNormal (stdBase (Idx (2 * (1 + 1)) 2 N)) X 0 (dyn.mat * ((1 / 2 : ℝ) • 1) * dyn.matᵀ + dyn.noise.cov)) := by
  obtain ⟨chol, -⟩ := exists_covCholesky (1 + 1)
  obtain ⟨ch2, -⟩ := exists_covCholesky 2
  obtain ⟨ch, h1, h2⟩ := exists_lower_cholesky (n := 2 * (1 + 1)) (by norm_num)
  exact ⟨chol, ch, ch2, car_states_wrong 1 chol ch ch2 1 (by norm_num) (by norm_num) (by norm_num) h1 h2⟩

/-! ## `ornstein_uhlenbeck` -/

/-- The matrices of the SDE: drift `-driftspeed`, unit dispersion, no force. -/
theorem ou_matrices (speed : ℝ) : (ouSde speed).drift = Matrix.diagonal (fun _ => -speed) ∧
    (ouSde speed).dispersion * (ouSde speed).dispersionᵀ = 1 ∧ (ouSde speed).force = 0 := by
  have h1 : ∀ i : Fin (1 * (0 + 1)), i = 0 := fun i => Fin.ext (by omega)
  have h2 : ∀ i : Fin (1 * 1), i = 0 := fun i => Fin.ext (by omega)
  refine ⟨?_, ?_, rfl⟩
  · ext i j
    rw [h1 i, h1 j]
    simp [ouSde, SDE.integrator, IWP.kronEye, SDE.driftIoup, Fin.modNat]
  · ext i j
    rw [h1 i, h1 j, Matrix.mul_apply]
    simp [ouSde, SDE.integrator, IWP.kronEye, SDE.dispersion1d, Fin.modNat]

/-- **C88** (`ornstein_uhlenbeck`): the transition over an increment `h` is that of the Ornstein-Uhlenbeck process with unit
diffusion, `x(t + h) = exp(-λ h) x(t) + N(0, (1 - exp(-2 λ h)) / (2 λ))`, for every nonzero drift speed `λ`. -/
theorem ou_transition (ch : CovCholesky (1 * (0 + 1))) {speed : ℝ} (hsp : speed ≠ 0) (h : ℝ) :
    ((ouSde speed).discretise ch h).mat = Real.exp (-speed * h) • 1 ∧
    ((ouSde speed).discretise ch h).noise.mean = 0 ∧
    ((ouSde speed).discretise ch h).noise.cov = ((1 - Real.exp (-2 * speed * h)) / (2 * speed)) • 1 := by
  obtain ⟨e1, e2, e3⟩ := SDE.discretise_eq ch (ouSde speed) h
  obtain ⟨m1, m2, m3⟩ := ou_matrices speed
  refine ⟨?_, ?_, ?_⟩
  · rw [e1, (SDE.mfdA_eq _ _ _).1, m1, ← Matrix.diagonal_smul, Matrix.exp_diagonal, Matrix.smul_one_eq_diagonal]
    congr 1
    funext i
    rw [Pi.coe_exp]
    simp [Real.exp_eq_exp_ℝ, mul_comm]
  · rw [e3, m3]
    exact Matrix.mulVec_zero _
  · rw [e2]
    refine SDE.lyapunov_unique (ouSde speed).drift (X := SDE.mfdQ (ouSde speed).drift (ouSde speed).dispersion)
      (Y := fun t => ((1 - Real.exp (-2 * speed * t)) / (2 * speed)) • 1) (C := fun _ => (ouSde speed).dispersion
        * (ouSde speed).dispersionᵀ) (fun t => SDE.mfdQ_deriv _ _ t) (fun t => ?_) (by simp [SDE.mfdQ_zero]) h
    rw [m2, m1]
    intro i j
    have hd : HasDerivAt (fun t : ℝ => (1 - Real.exp (-2 * speed * t)) / (2 * speed)) (Real.exp (-2 * speed * t)) t := by
      have h1 : HasDerivAt (fun t : ℝ => -2 * speed * t) (-2 * speed) t := by
        simpa using (hasDerivAt_id t).const_mul (-2 * speed)
      exact ((h1.exp.const_sub 1).div_const (2 * speed)).congr_deriv (by field_simp)
    by_cases hij : i = j
    · subst hij
      simp only [Matrix.smul_apply, Matrix.one_apply_eq, smul_eq_mul, mul_one]
      convert hd using 1
      simp [Matrix.mul_apply, Matrix.diagonal_apply, Matrix.one_apply]
      field_simp
      ring
    · exact absurd (Fin.ext (by omega)) hij

/-- **C88, violated**: the documentation has the drift `+λ x`, whose transition matrix would be `exp(λ h)`. -/
theorem ou_drift_sign (ch : CovCholesky (1 * (0 + 1))) {speed h : ℝ} (hsp : speed ≠ 0) (hh : h ≠ 0) :
    ((ouSde speed).discretise ch h).mat ≠ Real.exp (speed * h) • 1 := by
  rw [(ou_transition ch hsp h).1]
  intro e
  have := congrFun (congrFun e 0) 0
  simp only [Matrix.smul_apply, Matrix.one_apply_eq, smul_eq_mul, mul_one, Real.exp_eq_exp] at this
  have h2 : speed * h = 0 := by linarith
  rcases mul_eq_zero.1 h2 with h0 | h0
  · exact hsp h0
  · exact hh h0

/-- **C88** (`ornstein_uhlenbeck`, partial): with strictly increasing time points the problem consists of these points (by
default `0, 0.2, …` before 20), the process above, the given initial random variable (by default `N(10, 1)`), observations
of the state with the given noise variance, and data of this model, except that the noise of the first step is not
independent of the initial state. -/
theorem ou_partial (ch : CovCholesky (1 * (0 + 1))) (ch1 : CovCholesky 1) {variance : ℝ} (speed diffusion : ℝ)
    (hv : 0 ≤ variance) (timeGrid : Option (List ℝ)) (initrv : Option (Updated (1 * (0 + 1))))
    (hg : ∀ g, timeGrid = some g → g ≠ [] ∧ g.Pairwise (· < ·)) (hi : ∀ rv, initrv = some rv → rv.cov.PosSemidef) :
    ∃ N grid X Y, grid.length = N + 1 ∧ (timeGrid = some grid ∨ timeGrid = none ∧ IsGrid 0 20 (1 / 5) grid) ∧
      (∀ x, ∃ H, ornsteinUhlenbeck ch ch1 (stateBase N x) (obsBase N x) variance speed diffusion timeGrid initrv
        = .ok ⟨(ouSde speed).discretise ch, H, initrv.getD ⟨fun _ => 10, 1⟩, grid.getD 0 0, grid,
            (List.range (N + 1)).map fun k => X k x, (List.range (N + 1)).map fun k => Y k x⟩ ∧
          H.mat = 1 ∧ H.noise.mean = 0 ∧ H.noise.cov = variance • 1) ∧
      Evolves (stdBase (Idx (1 * (0 + 1)) 1 N)) (N + 1) (initrv.getD ⟨fun _ => 10, 1⟩)
        (fun k x => ((ouSde speed).discretise ch (grid.getD (k + 1) 0 - grid.getD k 0)).mat *ᵥ x
          + ((ouSde speed).discretise ch (grid.getD (k + 1) 0 - grid.getD k 0)).noise.mean)
        (fun k => ((ouSde speed).discretise ch (grid.getD (k + 1) 0 - grid.getD k 0)).noise.cov) X
        (fun k => 0 < k ∨ ch.factor (initrv.getD ⟨fun _ => 10, 1⟩).cov = 0) ∧
      Observes (stdBase (Idx (1 * (0 + 1)) 1 N)) (N + 1) X Y (fun _ x => x) 0 (variance • 1) := by
  obtain ⟨grid, hgrid, hne, hpair, hspec⟩ : ∃ grid, (match timeGrid with
      | none => arange 0 20 (1 / 5)
      | some g => .ok g) = .ok grid ∧ grid ≠ [] ∧ grid.Pairwise (· < ·) ∧
      (timeGrid = some grid ∨ timeGrid = none ∧ IsGrid 0 20 (1 / 5) grid) := by
    cases timeGrid with
    | some g => exact ⟨g, rfl, (hg g rfl).1, (hg g rfl).2, .inl rfl⟩
    | none =>
      obtain ⟨g, h1, h2⟩ := arange_spec (t0 := 0) (t1 := 20) (step := 1 / 5) (by norm_num)
      refine ⟨g, h1, h2.ne_nil (by norm_num), ?_, .inr ⟨rfl, h2⟩⟩
      rw [List.pairwise_iff_getElem]
      intro i j hi hj hij
      rw [h2.1 i hi, h2.1 j hj]
      have : (i : ℝ) < j := by exact_mod_cast hij
      linarith
  have hl : grid.length = grid.length - 1 + 1 := by
    have := List.length_pos_of_ne_nil hne; omega
  have hfirst : firstTime grid = .ok (grid.getD 0 0) := by
    cases grid with
    | nil => exact absurd rfl hne
    | cons a g => rfl
  let H : Transition (1 * (0 + 1)) 1 := ⟨eye 1 1, ⟨0, variance • 1, Real.sqrt variance • 1⟩⟩
  have hinit : (initrv.getD ⟨fun _ => 10, 1⟩).cov.PosSemidef := by
    cases initrv with
    | none => exact Matrix.PosSemidef.one
    | some rv => exact hi rv rfl
  obtain ⟨X, Y, h1, h2, h3⟩ := linear_data (grid.getD 0 0) (initrv.getD ⟨fun _ => 10, 1⟩) ((ouSde speed).discretise ch) H ch ch1
    (grid.length - 1) grid hl hinit (Matrix.PosSemidef.one.smul hv) (fun k hk => by
      refine SDE.discretise_noise_posSemidef ch _ ?_
      have hk1 : k + 1 < grid.length := by omega
      have := List.pairwise_iff_getElem.1 hpair k (k + 1) (by omega) hk1 (by omega)
      rw [List.getD_eq_getElem?_getD, List.getD_eq_getElem?_getD, List.getElem?_eq_getElem hk1,
        List.getElem?_eq_getElem (by omega : k < grid.length)]
      simp only [Option.getD_some]
      linarith)
  have hH : eye 1 1 = (1 : Matrix (Fin 1) (Fin 1) ℝ) := by
    ext i j; simp [eye, Matrix.one_apply, Fin.ext_iff]
  refine ⟨grid.length - 1, grid, X, Y, hl, hspec, fun x => ⟨H, ?_, hH, rfl, rfl⟩, h2, ?_⟩
  · unfold ornsteinUhlenbeck
    have h1x := h1 x
    cases timeGrid with
    | none =>
      simp only at hgrid
      simp only [hgrid, hfirst, bind, Except.bind]
      rw [show (⟨eye 1 1, ⟨0, variance • 1, Real.sqrt variance • 1⟩⟩ : Transition (1 * (0 + 1)) 1) = H from rfl, h1x]
    | some g =>
      have := Except.ok.inj hgrid
      subst this
      simp only [hfirst, bind, Except.bind]
      rw [show (⟨eye 1 1, ⟨0, variance • 1, Real.sqrt variance • 1⟩⟩ : Transition (1 * (0 + 1)) 1) = H from rfl, h1x]
  · have : (fun (_ : ℕ) (x : Fin (1 * (0 + 1)) → ℝ) => H.mat *ᵥ x) = fun _ x => x := by
      funext k x
      show eye 1 1 *ᵥ x = x
      rw [hH]
      exact Matrix.one_mulVec x
    rw [this] at h3
    exact h3

/-- **C88, violated**: `process_diffusion` has no effect. -/
theorem ou_diffusion_ignored (ch : CovCholesky (1 * (0 + 1))) (ch1 : CovCholesky 1) (base : ℕ → Fin (1 * (0 + 1)) → ℝ)
    (noise : ℕ → Fin 1 → ℝ) (variance speed d d' : ℝ) (timeGrid : Option (List ℝ)) (initrv : Option (Updated (1 * (0 + 1)))) :
    ornsteinUhlenbeck ch ch1 base noise variance speed d timeGrid initrv
      = ornsteinUhlenbeck ch ch1 base noise variance speed d' timeGrid initrv := rfl

/-! ## `pendulum` -/

/-- **C88** (`pendulum`): the function is the documented one, the Jacobians are the derivatives of the dynamics and of the
measurement function. -/
theorem pendulum_functions (step t : ℝ) (x : Fin 2 → ℝ) :
    pendulumF step t x = ![x 0 + x 1 * step, x 1 - 981 / 100 * Real.sin (x 0) * step] ∧
    HasFDerivAt (pendulumF step t) (LinearMap.toContinuousLinearMap (Matrix.toLin' (pendulumDf step t x))) x ∧
    pendulumH t x = ![Real.sin (x 0)] ∧
    HasFDerivAt (pendulumH t) (LinearMap.toContinuousLinearMap (Matrix.toLin' (pendulumDh t x))) x := by
  have h0 := Zoo.coord (0 : Fin 2) x
  have h1 := Zoo.coord (1 : Fin 2) x
  refine ⟨rfl, ?_, rfl, ?_⟩
  · rw [hasFDerivAt_pi']
    intro i
    fin_cases i
    · refine (h0.add (h1.mul_const step)).congr_fderiv ?_
      ext v
      simp [pendulumDf, Matrix.mulVec, dotProduct, Fin.sum_univ_two]
    · refine (h1.sub ((h0.sin.const_mul gravity).mul_const step)).congr_fderiv ?_
      ext v
      simp [pendulumDf, Matrix.mulVec, dotProduct, Fin.sum_univ_two]
      ring
  · rw [hasFDerivAt_pi']
    intro i
    fin_cases i
    refine h0.sin.congr_fderiv ?_
    ext v
    simp [pendulumDh, Matrix.mulVec, dotProduct, Fin.sum_univ_two]

/-- **C88** (`pendulum`): the process noise covariance is the documented matrix, symmetric positive definite for positive
steps. -/
theorem pendulum_cov (step : ℝ) :
    pendulumCov step = !![step ^ 3 / 3, step ^ 2 / 2; step ^ 2 / 2, step] ∧ (0 < step → (pendulumCov step).PosDef) := by
  have e : pendulumCov step = !![step ^ 3 / 3, step ^ 2 / 2; step ^ 2 / 2, step] := by
    ext i j
    fin_cases i <;> fin_cases j <;> simp [pendulumCov, npDiag2, npDiagUp, npDiagDown]
  refine ⟨e, fun hs => ?_⟩
  rw [e]
  refine Matrix.PosDef.of_dotProduct_mulVec_pos ?_ fun x hx => ?_
  · ext i j
    fin_cases i <;> fin_cases j <;> simp
  · have hpos : 0 < step * (step * x 0 / 2 + x 1) ^ 2 + step ^ 3 / 12 * x 0 ^ 2 := by
      by_cases h0 : x 0 = 0
      · have h1 : x 1 ≠ 0 := fun h1 => hx (by funext i; fin_cases i <;> simp [h0, h1])
        have : 0 < step * x 1 ^ 2 := by positivity
        simpa [h0] using this
      · have : 0 < step ^ 3 / 12 * x 0 ^ 2 := by positivity
        have h2 : 0 ≤ step * (step * x 0 / 2 + x 1) ^ 2 := by positivity
        linarith
    have : star x ⬝ᵥ (!![step ^ 3 / 3, step ^ 2 / 2; step ^ 2 / 2, step] *ᵥ x)
        = step * (step * x 0 / 2 + x 1) ^ 2 + step ^ 3 / 12 * x 0 ^ 2 := by
      simp [dotProduct, Matrix.mulVec, Fin.sum_univ_two]
      ring
    rw [this]
    exact hpos

/-- **C88** (`pendulum`, partial): for every variance, positive step and time span the data are those of the documented model,
except that the noise of the first step is not independent of the initial state; by default the initial random variable is
`N((1, 1), variance I)` at the left end of the time span. -/
theorem pendulum_partial (ch : CovCholesky 2) (ch1 : CovCholesky 1) {variance t0 t1 step : ℝ} (hv : 0 ≤ variance)
    (hs : 0 < step) (ht : t0 < t1) (initrv : Option (Updated 2)) (initarg : Option ℝ)
    (hi : ∀ rv, initrv = some rv → rv.cov.PosSemidef) :
    ∃ N grid X Y, IsGrid t0 t1 step grid ∧ grid.length = N + 1 ∧
      (∀ x, ∃ D M, pendulum ch ch1 (stateBase N x) (obsBase N x) variance t0 t1 step initrv initarg
        = .ok ⟨D, M, initrv.getD ⟨fun _ => 1, variance • 1⟩, initarg.getD t0, grid,
            (List.range (N + 1)).map fun k => X k x, (List.range (N + 1)).map fun k => Y k x⟩ ∧
          D.fn = pendulumF step ∧ D.jac = pendulumDf step ∧ (∀ t, D.noise t = ⟨0, pendulumCov step⟩) ∧
          M.fn = pendulumH ∧ M.jac = pendulumDh ∧ (∀ t, M.noise t = ⟨0, variance • 1⟩)) ∧
      Evolves (stdBase (Idx 2 1 N)) (N + 1) (initrv.getD ⟨fun _ => 1, variance • 1⟩)
        (fun _ x => ![x 0 + x 1 * step, x 1 - 981 / 100 * Real.sin (x 0) * step])
        (fun _ => !![step ^ 3 / 3, step ^ 2 / 2; step ^ 2 / 2, step]) X
        (fun k => 0 < k ∨ ch.factor (initrv.getD ⟨fun _ => 1, variance • 1⟩).cov = 0) ∧
      Observes (stdBase (Idx 2 1 N)) (N + 1) X Y (fun _ x => ![Real.sin (x 0)]) 0 (variance • 1) := by
  obtain ⟨grid, hg, hG⟩ := arange_spec (t0 := t0) (t1 := t1) hs
  have hne := hG.ne_nil ht
  have hl : grid.length = grid.length - 1 + 1 := by
    have := List.length_pos_of_ne_nil hne; omega
  have hpsd : ∀ {k : ℕ}, (variance • (1 : Matrix (Fin k) (Fin k) ℝ)).PosSemidef := Matrix.PosSemidef.one.smul hv
  have hinit : (initrv.getD ⟨fun _ => 1, variance • 1⟩).cov.PosSemidef := by
    cases initrv with
    | none => exact hpsd
    | some rv => exact hi rv rfl
  let D : Nonlinear 2 2 := ⟨pendulumF step, pendulumDf step, fun _ => ⟨0, pendulumCov step⟩⟩
  let M : Nonlinear 2 1 := ⟨pendulumH, pendulumDh, fun _ => ⟨0, variance • 1⟩⟩
  have hDm : Measurable (pendulumF step 0) := by
    refine Continuous.measurable (continuous_iff_continuousAt.2 fun x => ?_)
    exact (pendulum_functions step 0 x).2.1.continuousAt
  have hMm : Measurable (pendulumH 0) := by
    refine Continuous.measurable (continuous_iff_continuousAt.2 fun x => ?_)
    exact (pendulum_functions step 0 x).2.2.2.continuousAt
  have harg : (match initarg with
      | none => firstTime grid
      | some t => .ok t) = .ok (initarg.getD t0) := by
    cases initarg with
    | none => exact hG.first ht
    | some t => rfl
  have hE := chain_evolves (m := 1) (ch := ch) (init := initrv.getD ⟨fun _ => 1, variance • 1⟩) (grid.length - 1)
    (g := fun _ _ x => pendulumF step 0 x) (Q := fun _ _ => pendulumCov step) (t := fun k => grid.getD k 0)
    (fun _ _ => hDm) hinit fun k => .inl ((pendulum_cov step).2 hs).posSemidef
  have hO := chain_observes (ch := ch) (init := initrv.getD ⟨fun _ => 1, variance • 1⟩) (grid.length - 1)
    (g := fun _ _ x => pendulumF step 0 x) (Q := fun _ _ => pendulumCov step) (t := fun k => grid.getD k 0)
    (fun _ _ => hDm) (fun _ x => pendulumH 0 x) (fun _ => hMm) ch1 0 (hpsd (k := 1))
  rw [(pendulum_cov step).1] at hE hO
  refine ⟨grid.length - 1, grid, _, _, hG, hl, fun x => ⟨D, M, ?_, rfl, rfl, fun _ => rfl, rfl, rfl, fun _ => rfl⟩, hE, hO⟩
  have hf : ∀ y t dt, (D.prior (initarg.getD t0) (initrv.getD ⟨fun _ => 1, variance • 1⟩)).forward ⟨y, 0⟩ t dt none
      = .ok ⟨pendulumF step 0 y, !![step ^ 3 / 3, step ^ 2 / 2; step ^ 2 / 2, step]⟩ := fun y t dt => by
    rw [prior_forward, ← (pendulum_cov step).1]
    simp [D]
    rfl
  have hsm := sampleAt_chain hf ch (stateBase (grid.length - 1) x) hne
  unfold pendulum
  have hgen := generate_eq (ch := ch1) (fwd := fun x t => M.forwardRealization x t 1)
    (noise := obsBase (grid.length - 1) x) hsm
  cases initarg with
  | none =>
    simp only at harg
    simp only [hg, harg, bind, Except.bind]
    rw [show (⟨pendulumF step, pendulumDf step, fun _ => ⟨0, pendulumCov step⟩⟩ : Nonlinear 2 2) = D from rfl,
      show (⟨pendulumH, pendulumDh, fun _ => ⟨0, variance • 1⟩⟩ : Nonlinear 2 1) = M from rfl, hgen, ← hl]
    simp only [Except.ok.injEq, NonlinearSetup.mk.injEq, true_and]
    refine ⟨rfl, List.map_congr_left fun k _ => ?_⟩
    simp only [transformBase, Nonlinear.forwardRealization, M]
    simp
    rfl
  | some t =>
    simp only [hg, bind, Except.bind]
    rw [show (⟨pendulumF step, pendulumDf step, fun _ => ⟨0, pendulumCov step⟩⟩ : Nonlinear 2 2) = D from rfl,
      show (⟨pendulumH, pendulumDh, fun _ => ⟨0, variance • 1⟩⟩ : Nonlinear 2 1) = M from rfl]
    rw [Option.getD_some] at hgen
    rw [hgen, ← hl]
    simp only [Except.ok.injEq, NonlinearSetup.mk.injEq, true_and, Option.getD_some]
    refine ⟨rfl, List.map_congr_left fun k _ => ?_⟩
    simp only [transformBase, Nonlinear.forwardRealization, M]
    simp
    rfl

/-! ## `benes_daum` -/

/-- **C88** (`benes_daum`): the Jacobian is the derivative of the drift `tanh`, and the dispersion is the given constant. -/
theorem benes_functions (diffusion t : ℝ) (x : Fin 1 → ℝ) :
    benesF t x = (fun i => Real.tanh (x i)) ∧
    HasFDerivAt (benesF t) (LinearMap.toContinuousLinearMap (Matrix.toLin' (Matrix.of fun (_ : Fin 1) j => benesDf t x j))) x ∧
    benesL diffusion t x = !![diffusion] := by
  refine ⟨rfl, ?_, ?_⟩
  · rw [hasFDerivAt_pi']
    intro i
    fin_cases i
    have h0 := Zoo.coord (0 : Fin 1) x
    have hd : HasDerivAt Real.tanh (1 - Real.tanh (x 0) ^ 2) (x 0) := by
      have hc := (Real.cosh_pos (x 0)).ne'
      have e : Real.tanh = fun y => Real.sinh y / Real.cosh y := by funext y; exact Real.tanh_eq_sinh_div_cosh y
      rw [e]
      exact ((Real.hasDerivAt_sinh (x 0)).div (Real.hasDerivAt_cosh (x 0)) hc).congr_deriv (by field_simp)
    refine (hd.comp_hasFDerivAt x h0).congr_fderiv ?_
    ext v
    simp [benesDf, Matrix.mulVec, dotProduct]
  · ext i j
    fin_cases i; fin_cases j
    simp [benesL]

/-! ## `logistic_ode` -/

/-- The initial value problem is that of `diffeq_zoo.logistic` for one initial value and a nonzero second parameter (the
solution where the denominator does not vanish). -/
theorem logisticIvp_zoo (t0 t1 y0 l0 : ℝ) {l1 : ℝ} (hl : l1 ≠ 0) :
    (∀ t y, (Zoo.logistic t0 t1 (some [y0]) [l0, l1]).f t [y] = .ok [some ((logisticIvp t0 y0 l0 l1).f t (fun _ => y) 0)]) ∧
    (∃ df df', (Zoo.logistic t0 t1 (some [y0]) [l0, l1]).df = some df ∧ (logisticIvp t0 y0 l0 l1).df = some df' ∧
      ∀ t y, df t [y] = .ok [[some (df' t (fun _ => y) 0 0)]]) ∧
    (∃ sol sol', (Zoo.logistic t0 t1 (some [y0]) [l0, l1]).solution = some sol ∧
      (logisticIvp t0 y0 l0 l1).solution = some sol' ∧
      ∀ t, l1 + y0 * (Real.exp (l0 * t) - 1) ≠ 0 → sol t = .ok [some (sol' t 0)]) ∧
    (Zoo.logistic t0 t1 (some [y0]) [l0, l1]).t0 = (logisticIvp t0 y0 l0 l1).t0 ∧
    (Zoo.logistic t0 t1 (some [y0]) [l0, l1]).y0 = [(logisticIvp t0 y0 l0 l1).y0 0] := by
  refine ⟨fun t y => ?_, ⟨_, _, rfl, rfl, fun t y => ?_⟩, ⟨_, _, rfl, rfl, fun t ht => ?_⟩, rfl, rfl⟩
  · simp [Zoo.logistic, Zoo.logisticRhs, Zoo.npDiv, hl, logisticIvp]
  · simp [Zoo.logisticJac, Zoo.npDiv, hl]
  · simp [Zoo.logisticSol, Zoo.npDiv, ht]

/-- **C88** (`logistic_ode`): for `order ≥ 1`, a positive step and a nonempty time span the problem has the documented grid,
zero observations, the solution values on the grid, and at every location (but the first if the initial condition is
included) the residual `x' - l0 x (1 - x / l1)` with the Jacobian of the residual (EK1) or `x'` alone (EK0); the prior is an
integrated Wiener process from the left end of the time span. -/
theorem logistic_problem {q : ℕ} (hq : 1 ≤ q) (y0 : Option ℝ) {t0 t1 step : ℝ} (hs : 0 < step) (ht : t0 < t1) (l0 l1 : ℝ)
    (initrv : Option (Σ n, Updated n)) (evlvar : Option ℝ) (ek : ℤ) (ex : Bool) :
    ∃ grid S M, IsGrid t0 t1 step grid ∧ logisticOde q y0 t0 t1 step l0 l1 initrv evlvar ek ex = .ok S ∧
      S.problem.locations = grid ∧ S.problem.observations = List.replicate grid.length 0 ∧
      S.problem.solution = some (grid.map fun t _ => l1 * y0.getD (1 / 10) * Real.exp (l0 * t)
        / (l1 + y0.getD (1 / 10) * (Real.exp (l0 * t) - 1))) ∧
      (∃ M0, S.problem.models = (if ex then List.replicate grid.length (.ode M)
        else M0 :: List.replicate (grid.length - 1) (.ode M))) ∧
      (∀ t x, M.fn t x = .ok fun _ => x ⟨1, by omega⟩ - l0 * x ⟨0, by omega⟩ * (1 - x ⟨0, by omega⟩ / l1)) ∧
      (∀ t x, ∃ J, M.jac t x = .ok J ∧ ∀ k : Fin (1 * (q + 1)), J 0 k =
        if k.1 = 1 then 1 else if k.1 = 0 ∧ ek ≠ 0 then -(l0 - 2 * l0 / l1 * x k) else 0) ∧
      S.dynamics = SDE.integrator q 1 (SDE.driftIwp q) ∧ S.initarg = t0 ∧ S.initrv = initrv.getD logisticInit := by
  obtain ⟨grid, hg, hG⟩ := arange_spec (t0 := t0) (t1 := t1) hs
  have hne := hG.ne_nil ht
  have h0 : q ≠ 0 := by omega
  have hpe1 : ∀ k : Fin (1 * (q + 1)), OdeFilter.proj 1 q 1 0 k = if k.1 = 1 then 1 else 0 := fun k => by
    simp [OdeFilter.proj]
  have hpe0 : ∀ k : Fin (1 * (q + 1)), OdeFilter.proj 1 q 0 0 k = if k.1 = 0 then 1 else 0 := fun k =>
    if_congr (by simp) rfl rfl
  have hp1 : ∀ x : Fin (1 * (q + 1)) → ℝ, ∀ i, (OdeFilter.proj 1 q 1 *ᵥ x) i = x ⟨1, by omega⟩ := fun x i => by
    have : i = 0 := Fin.ext (by omega)
    subst this
    rw [Matrix.mulVec, dotProduct, Finset.sum_eq_single ⟨1, by omega⟩]
    · simp [OdeFilter.proj]
    · intro b _ hb
      have : b.1 ≠ 1 := fun h => hb (Fin.ext h)
      simp [OdeFilter.proj, this]
    · simp
  have hp0 : ∀ x : Fin (1 * (q + 1)) → ℝ, ∀ i, (OdeFilter.proj 1 q 0 *ᵥ x) i = x ⟨0, by omega⟩ := fun x i => by
    have : i = 0 := Fin.ext (by omega)
    subst this
    rw [Matrix.mulVec, dotProduct, Finset.sum_eq_single ⟨0, by omega⟩]
    · simp [OdeFilter.proj]
    · intro b _ hb
      have : b.1 ≠ 0 := fun h => hb (Fin.ext h)
      have h2 : OdeFilter.proj 1 q 0 0 b = 0 := if_neg (by simpa using this)
      rw [h2, zero_mul]
    · simp
  set ivp := logisticIvp t0 (y0.getD (1 / 10)) l0 l1 with hivp
  let R'' : OdeFilter.Residual 1 q := if ek = 0 then ⟨some { ivp with df := some fun _ _ => 0 }⟩ else ⟨some ivp⟩
  let M : OdeFilter.Meas 1 q := ⟨R''.call, R''.jacobian, (OdeFilter.odeNoise ivp (evlvar.getD 0)).getD (Normal.const 0)⟩
  let models : List (OdeFilter.Model 1 q) := (if ex then List.replicate grid.length (.ode M)
    else .initial ⟨OdeFilter.initMatrix 1 q, OdeFilter.initNoise ivp (evlvar.getD 0)⟩ :: List.replicate (grid.length - 1) (.ode M))
  have hml : models.length = grid.length := by
    have := List.length_pos_of_ne_nil hne
    cases ex <;> simp [models] <;> omega
  have hreg : OdeFilter.toRegression ivp grid (OdeFilter.Residual.new 1 q)
      (some (if ek = 0 then OdeFilter.Strategy.ek0 else OdeFilter.Strategy.ek1)) (evlvar.getD 0) ex
      = .ok (⟨grid, List.replicate grid.length 0, models, some (grid.map fun t _ => l1 * y0.getD (1 / 10) * Real.exp (l0 * t)
        / (l1 + y0.getD (1 / 10) * (Real.exp (l0 * t) - 1)))⟩, ⟨some ivp⟩) := by
    have hi : (OdeFilter.Residual.new 1 q).incorporate ivp = .ok ⟨some ivp⟩ := by
      simp [OdeFilter.Residual.new, OdeFilter.Residual.incorporate, h0]
    have hst : OdeFilter.applyStrategy (some (if ek = 0 then OdeFilter.Strategy.ek0 else OdeFilter.Strategy.ek1))
        (⟨some ivp⟩ : OdeFilter.Residual 1 q) = .ok R'' := by
      by_cases hek : ek = 0
      · simp [hek, OdeFilter.applyStrategy, OdeFilter.Strategy.apply, OdeFilter.Residual.new, OdeFilter.Residual.incorporate,
          h0, R'']
      · simp [hek, OdeFilter.applyStrategy, OdeFilter.Strategy.apply, R'']
    have hsol : OdeFilter.solutionAt ivp grid = .ok (some (grid.map fun t _ => l1 * y0.getD (1 / 10) * Real.exp (l0 * t)
        / (l1 + y0.getD (1 / 10) * (Real.exp (l0 * t) - 1)))) := by
      simp [OdeFilter.solutionAt, hivp, logisticIvp, hne]
    have htr : R''.asTransition (OdeFilter.odeNoise ivp (evlvar.getD 0)) = .ok M := by
      by_cases hek : ek = 0 <;> simp [OdeFilter.Residual.asTransition, M, R'', hek]
    have hmk : ∀ sol, OdeFilter.mkProblem grid (List.replicate grid.length 0) models sol
      = .ok ⟨grid, List.replicate grid.length 0, models, sol⟩ := fun sol => by simp [OdeFilter.mkProblem, hml]
    simp only [OdeFilter.toRegression, hsol, hi, hst, htr, Except.bind]
    rw [show (if ex = true then List.replicate grid.length (OdeFilter.Model.ode M)
      else .initial ⟨OdeFilter.initMatrix 1 q, OdeFilter.initNoise ivp (evlvar.getD 0)⟩ ::
        List.replicate (grid.length - 1) (.ode M)) = models from rfl, hmk]
    rfl
  refine ⟨grid, ⟨⟨grid, List.replicate grid.length 0, models, some (grid.map fun t _ => l1 * y0.getD (1 / 10)
      * Real.exp (l0 * t) / (l1 + y0.getD (1 / 10) * (Real.exp (l0 * t) - 1)))⟩, ivp, SDE.integrator q 1 (SDE.driftIwp q),
      initrv.getD logisticInit, t0⟩, M, hG, ?_, rfl, rfl, rfl,
    ⟨.initial ⟨OdeFilter.initMatrix 1 q, OdeFilter.initNoise ivp (evlvar.getD 0)⟩, rfl⟩, fun t x => ?_, fun t x => ?_, rfl,
    rfl, rfl⟩
  · unfold logisticOde
    simp only [hg, bind, Except.bind, ← hivp, hreg, hG.first ht]
  · by_cases hek : ek = 0
    · simp only [M, R'', hek, if_true, OdeFilter.Residual.call]
      congr 1
      funext i
      simp only [Pi.sub_apply, hp1, hivp, logisticIvp, hp0]
    · simp only [M, R'', hek, if_false, OdeFilter.Residual.call]
      congr 1
      funext i
      simp only [Pi.sub_apply, hp1, hivp, logisticIvp, hp0]
  · by_cases hek : ek = 0
    · refine ⟨OdeFilter.proj 1 q 1 - (0 : Matrix (Fin 1) (Fin 1) ℝ) * OdeFilter.proj 1 q 0, ?_, fun k => ?_⟩
      · simp only [M, R'', hek, if_true, OdeFilter.Residual.jacobian]
      · rw [Matrix.sub_apply, Matrix.zero_mul, hpe1, Matrix.zero_apply, sub_zero]
        simp [hek]
    · refine ⟨OdeFilter.proj 1 q 1 - Matrix.of (fun (_ : Fin 1) (j : Fin 1) => l0 - l0 / l1 * 2 *
        (OdeFilter.proj 1 q 0 *ᵥ x) j) * OdeFilter.proj 1 q 0, ?_, fun k => ?_⟩
      · simp only [M, R'', hek, if_false, OdeFilter.Residual.jacobian, hivp, logisticIvp]
      · simp only [Matrix.sub_apply, Matrix.mul_apply, Fin.sum_univ_one, Matrix.of_apply, hp0, hpe1, hpe0]
        by_cases h1 : k.1 = 1
        · have h10 : k.1 ≠ 0 := by omega
          rw [if_pos h1, if_neg h10, if_pos h1]
          ring
        · by_cases hk0 : k.1 = 0
          · have hk : x k = x ⟨0, by omega⟩ := congrArg x (Fin.ext hk0)
            rw [if_neg h1, if_pos hk0, if_neg h1, if_pos ⟨hk0, hek⟩, hk]
            ring
          · rw [if_neg h1, if_neg hk0, if_neg h1, if_neg fun h => hk0 h.1]
            ring

/-- **C88** (`logistic_ode`): without derivatives in the prior the call raises IndexError, with an empty time span
ValueError (for a positive step). -/
theorem logistic_rejects {q : ℕ} (y0 : Option ℝ) {t0 t1 step : ℝ} (hs : 0 < step) (l0 l1 : ℝ)
    (initrv : Option (Σ n, Updated n)) (evlvar : Option ℝ) (ek : ℤ) (ex : Bool) :
    (t0 < t1 → logisticOde 0 y0 t0 t1 step l0 l1 initrv evlvar ek ex = .error .indexError) ∧
    (t1 ≤ t0 → logisticOde q y0 t0 t1 step l0 l1 initrv evlvar ek ex = .error .valueError) := by
  obtain ⟨grid, hg, hG⟩ := arange_spec (t0 := t0) (t1 := t1) hs
  refine ⟨fun ht => ?_, fun ht => ?_⟩
  · have hne := hG.ne_nil ht
    unfold logisticOde
    simp [hg, bind, Except.bind, OdeFilter.toRegression, OdeFilter.solutionAt, logisticIvp, hne, OdeFilter.Residual.new,
      OdeFilter.Residual.incorporate]
  · have hnil := hG.nil ht
    subst hnil
    unfold logisticOde
    simp [hg, bind, Except.bind, OdeFilter.toRegression, OdeFilter.solutionAt, logisticIvp]

/-- **C88, violated**: the default initial random variable ignores the initial value and the order.  Its first coordinate is
the constant 0.1, so with any other initial value the prior contradicts the IVP with certainty; and it has four coordinates
whatever the order, so it is not a random variable on the state space unless the order is 3. -/
theorem logistic_init_wrong {q : ℕ} (hq : 1 ≤ q) (y0 : Option ℝ) {t0 t1 step : ℝ} (hs : 0 < step) (ht : t0 < t1) (l0 l1 : ℝ)
    (evlvar : Option ℝ) (ek : ℤ) (ex : Bool) :
    ∃ S rv, logisticOde q y0 t0 t1 step l0 l1 none evlvar ek ex = .ok S ∧ S.initrv = ⟨4, rv⟩ ∧
      rv.mean 0 = 1 / 10 ∧ rv.cov 0 0 = 0 ∧ S.ivp.y0 = (fun _ => y0.getD (1 / 10)) ∧
      (y0.getD (1 / 10) ≠ 1 / 10 → rv.mean 0 ≠ S.ivp.y0 0) ∧ (q ≠ 3 → S.initrv.1 ≠ 1 * (q + 1)) := by
  obtain ⟨grid, S, M, -, h, -, -, -, -, -, -, -, -, h2⟩ := logistic_problem hq y0 hs ht l0 l1 none evlvar ek ex
  have hi : S.ivp = logisticIvp t0 (y0.getD (1 / 10)) l0 l1 := by
    unfold logisticOde at h
    simp only [bind, Except.bind] at h
    split at h
    · cases h
    · split at h
      · cases h
      · split at h
        · cases h
        · have := Except.ok.inj h
          rw [← this]
  refine ⟨S, _, h, h2, ?_, ?_, by rw [hi]; rfl, fun hne => ?_, fun h3 => ?_⟩
  · rfl
  · rfl
  · rw [hi]
    exact fun e => hne e.symm
  · rw [h2]
    show 4 ≠ 1 * (q + 1)
    omega

/-- **C88** (`logistic_ode`, partial): for the initial value 0.1 and order 3 the default initial random variable is on the
state space and certain about the initial value. -/
theorem logistic_init_partial {t0 t1 step : ℝ} (hs : 0 < step) (ht : t0 < t1) (y0 : Option ℝ)
    (hy : y0 = none ∨ y0 = some (1 / 10)) (l0 l1 : ℝ) (evlvar : Option ℝ) (ek : ℤ) (ex : Bool) :
    ∃ S, ∃ rv : Updated (1 * (3 + 1)), logisticOde 3 y0 t0 t1 step l0 l1 none evlvar ek ex = .ok S ∧ S.initrv = ⟨_, rv⟩ ∧
      rv.mean 0 = S.ivp.y0 0 ∧ rv.cov = Matrix.diagonal ![0, 1, 1, 1] := by
  obtain ⟨S, rv, h1, h2, h3, -, h5, -, -⟩ := logistic_init_wrong (q := 3) (by norm_num) y0 hs ht l0 l1 evlvar ek ex
  obtain ⟨grid, S', M, -, h, -, -, -, -, -, -, -, -, h6⟩ := logistic_problem (q := 3) (by norm_num) y0 hs ht l0 l1 none evlvar ek ex
  have : S' = S := Except.ok.inj (h.symm.trans h1)
  subst this
  refine ⟨S', _, h1, h6, ?_, rfl⟩
  rw [h5]
  rcases hy with rfl | rfl <;> rfl

example : ∃ S, logisticOde 3 none 0 2 (1 / 10) 6 1 none none 1 true = .ok S ∧ S.initarg = 0 := by
  obtain ⟨grid, S, M, -, h, -, -, -, -, -, -, -, h1, -⟩ := logistic_problem (q := 3) (by norm_num) none (t0 := 0) (t1 := 2)
    (step := 1 / 10) (by norm_num) (by norm_num) 6 1 none none 1 true
  exact ⟨S, h, h1⟩

end Probnum.FiltZoo
