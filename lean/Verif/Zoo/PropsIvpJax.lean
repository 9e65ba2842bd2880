import Verif.Zoo.IvpJax
import Verif.Zoo.PropsIvp
import Mathlib.Analysis.Calculus.ContDiff.Basic
import Mathlib.Analysis.Calculus.ContDiff.Operations
import Mathlib.Analysis.Calculus.FDeriv.Symmetric
import Mathlib.Analysis.SpecialFunctions.Pow.Deriv

/-!
# C96: the jax versions of the example initial value problems
-/

namespace Probnum.Zoo

open Set

/-! ## Specification -/

/-- The matrix `J` is the derivative of `F` at `y`. -/
def IsJacobianAt {d m : ℕ} (F : (Fin d → ℝ) → Fin m → ℝ) (y : Fin d → ℝ) (J : Matrix (Fin m) (Fin d) ℝ) : Prop :=
  HasFDerivAt F (LinearMap.toContinuousLinearMap (Matrix.toLin' J)) y

/-- `H` has the second derivatives of `F` at `y`: there are Jacobians of `F` near `y` whose entries have the derivatives
`H i j`, and `H` is symmetric. -/
def IsHessianAt {d m : ℕ} (F : (Fin d → ℝ) → Fin m → ℝ) (y : Fin d → ℝ) (H : Fin m → Fin d → Fin d → ℝ) : Prop :=
  (∃ J : (Fin d → ℝ) → Matrix (Fin m) (Fin d) ℝ, (∀ᶠ z in nhds y, IsJacobianAt F z (J z)) ∧
    ∀ i j, ∃ L : (Fin d → ℝ) →L[ℝ] ℝ, HasFDerivAt (fun z => J z i j) L y ∧ ∀ v, L v = ∑ k, H i j k * v k) ∧
  ∀ i j k, H i j k = H i k j

/-! ## Automatic differentiation of smooth functions -/

theorem sum_single_apply {d : ℕ} (L : (Fin d → ℝ) →L[ℝ] ℝ) (v : Fin d → ℝ) :
    L v = ∑ k, L (Pi.single k 1) * v k := by
  conv_lhs => rw [← Finset.univ_sum_single v]
  rw [map_sum]
  refine Finset.sum_congr rfl fun k _ => ?_
  have : (Pi.single k (v k) : Fin d → ℝ) = v k • Pi.single k 1 := by
    rw [← Pi.single_smul]; simp
  rw [this, map_smul, smul_eq_mul, mul_comm]

theorem jacfwd_right {d m : ℕ} {F : (Fin d → ℝ) → Fin m → ℝ} {y : Fin d → ℝ} (h : DifferentiableAt ℝ F y) :
    IsJacobianAt F y (jacfwd F y) := by
  refine h.hasFDerivAt.congr_fderiv ?_
  ext v i
  have := sum_single_apply ((ContinuousLinearMap.proj (R := ℝ) (φ := fun _ : Fin m => ℝ) i).comp (fderiv ℝ F y)) v
  simpa [Matrix.mulVec, dotProduct, jacfwd] using this

theorem jacobian_unique {d m : ℕ} {F : (Fin d → ℝ) → Fin m → ℝ} {y : Fin d → ℝ} {J J' : Matrix (Fin m) (Fin d) ℝ}
    (h : IsJacobianAt F y J) (h' : IsJacobianAt F y J') : J = J' := by
  have := HasFDerivAt.unique h h'
  exact Matrix.toLin'.injective (LinearMap.toContinuousLinearMap.injective this)

theorem jacrev_right {d m : ℕ} {F : (Fin d → ℝ) → Fin m → ℝ} {y : Fin d → ℝ} (h : ContDiffAt ℝ 2 F y) :
    IsHessianAt F y (jacrevMatrix (jacfwd F) y) := by
  have hd : DifferentiableAt ℝ (fderiv ℝ F) y := (h.fderiv_right (m := 1) (by norm_num)).differentiableAt (by norm_num)
  have key : ∀ i j, HasFDerivAt (fun z => jacfwd F z i j)
      ((ContinuousLinearMap.proj (R := ℝ) (φ := fun _ : Fin m => ℝ) i).comp
        ((ContinuousLinearMap.apply ℝ (Fin m → ℝ) (Pi.single j 1 : Fin d → ℝ)).comp (fderiv ℝ (fderiv ℝ F) y))) y := by
    intro i j
    have := ((ContinuousLinearMap.apply ℝ (Fin m → ℝ) (Pi.single j 1 : Fin d → ℝ)).hasFDerivAt).comp y hd.hasFDerivAt
    exact ((ContinuousLinearMap.proj (R := ℝ) (φ := fun _ : Fin m => ℝ) i).hasFDerivAt).comp y this
  refine ⟨⟨jacfwd F, ?_, fun i j => ⟨_, key i j, fun v => ?_⟩⟩, fun i j k => ?_⟩
  · filter_upwards [h.eventually (by norm_num)] with z hz
    exact jacfwd_right (hz.differentiableAt (by norm_num))
  · rw [sum_single_apply]
    refine Finset.sum_congr rfl fun k _ => ?_
    rw [jacrevMatrix, (key i j).fderiv]
  · have hs : IsSymmSndFDerivAt ℝ F y := h.isSymmSndFDerivAt (by simp)
    simp only [jacrevMatrix, (key _ _).fderiv]
    have := hs (Pi.single j 1) (Pi.single k 1)
    simpa using (congrFun this i).symm

/-! ## Van der Pol -/

theorem vanderpol_smooth (mu : ℝ) (y : Fin 2 → ℝ) : ContDiffAt ℝ 2 (vanderpolField mu) y := by
  rw [contDiffAt_pi]
  intro i
  fin_cases i
  · show ContDiffAt ℝ 2 (fun y : Fin 2 → ℝ => y 1) y
    fun_prop
  · show ContDiffAt ℝ 2 (fun y : Fin 2 → ℝ => mu * (1 - y 0 ^ 2) * y 1 - y 0) y
    fun_prop

theorem vanderpolJaxRhs_eq (mu : ℝ) : (vanderpolJaxRhs mu : (Fin (1 + 1) → ℝ) → Fin 2 → ℝ) = vanderpolField mu := rfl

/-- **C96.** `vanderpol_jax`, with a `float` or a sequence of one parameter: the right-hand side is the documented vector
field, `df` its Jacobian, `ddf` its second derivatives, at every state. -/
theorem vanderpol_jax_documented (t0 tmax mu : ℝ) (y0 : Option (List ℝ)) (params : VdpParams)
    (h : params = .float mu ∨ params = .seq [mu]) :
    ∃ p, vanderpolJax t0 tmax y0 params = .ok p ∧ p.t0 = t0 ∧ p.tmax = tmax ∧ p.y0 = y0.getD [2, 0] ∧
      ∀ (t : ℝ) (y : Fin 2 → ℝ),
        (∀ i, p.f t y i = some (vanderpolField mu y i)) ∧
        (∃ J, p.df t y = some J ∧ IsJacobianAt (vanderpolField mu) y J) ∧
        ∃ H, p.ddf t y = some H ∧ IsHessianAt (vanderpolField mu) y H := by
  have hm : params.mu = .ok mu := by rcases h with rfl | rfl <;> rfl
  refine ⟨_, by rw [vanderpolJax, hm]; rfl, rfl, rfl, rfl, fun t y => ⟨fun i => rfl, ⟨_, rfl, ?_⟩, ⟨_, rfl, ?_⟩⟩⟩
  · exact jacfwd_right ((vanderpol_smooth mu y).differentiableAt (by norm_num))
  · exact jacrev_right (vanderpol_smooth mu y)

example : ∃ p, vanderpolJax 0 2 (some [1, 3]) (.seq [5]) = .ok p ∧ p.y0 = [1, 3] := by
  obtain ⟨p, h, -, -, h0, -⟩ := vanderpol_jax_documented 0 2 5 (some [1, 3]) (.seq [5]) (Or.inr rfl)
  exact ⟨p, h, h0⟩

theorem vanderpol_jacobian (mu : ℝ) (y : Fin 2 → ℝ) :
    IsJacobianAt (vanderpolField mu) y !![0, 1; -2 * mu * y 1 * y 0 - 1, mu * (1 - y 0 ^ 2)] := by
  refine jacobian_intro fun i => ?_
  fin_cases i
  · exact ⟨_, coord 1 y, fun v => by simp [Fin.sum_univ_succ]⟩
  · exact ⟨_, (((((coord 0 y).pow 2).const_sub 1).const_mul mu).mul (coord 1 y)).sub (coord 0 y), fun v => by
      simp [Fin.sum_univ_succ]; ring⟩

/-- **C96.** `vanderpol_jax` and `vanderpol` have the same right-hand side and the same Jacobian. -/
theorem vanderpol_jax_agrees (t0 tmax mu : ℝ) (y0 : Option (List ℝ)) (params : VdpParams)
    (h : params = .float mu ∨ params = .seq [mu]) :
    ∃ p, vanderpolJax t0 tmax y0 params = .ok p ∧ ∀ (t : ℝ) (y : Fin 2 → ℝ),
      (vanderpol t0 tmax y0 params).f t (List.ofFn y) = .ok (List.ofFn (p.f t y)) ∧
      ∃ df J, (vanderpol t0 tmax y0 params).df = some df ∧ p.df t y = some J ∧
        df t (List.ofFn y) = .ok (List.ofFn fun i => List.ofFn fun j => some (J i j)) := by
  have hm : params.mu = .ok mu := by rcases h with rfl | rfl <;> rfl
  refine ⟨_, by rw [vanderpolJax, hm]; rfl, fun t y => ⟨?_, _, _, rfl, rfl, ?_⟩⟩
  · exact (vanderpol_documented t0 tmax mu y0 params h).1.1 t y
  · have e : jacfwd (vanderpolJaxRhs mu) y = !![0, 1; -2 * mu * y 1 * y 0 - 1, mu * (1 - y 0 ^ 2)] :=
      jacobian_unique (jacfwd_right ((vanderpol_smooth mu y).differentiableAt (by norm_num))) (vanderpol_jacobian mu y)
    rw [e]
    simp [vanderpolJac, hm, Except.map, List.ofFn_succ]

example (y : Fin 2 → ℝ) : ∃ p, vanderpolJax 0 30 none (.float 10) = .ok p ∧
    (vanderpol 0 30 none (.float 10)).f 1 (List.ofFn y) = .ok (List.ofFn (p.f 1 y)) := by
  obtain ⟨p, h, e⟩ := vanderpol_jax_agrees 0 30 10 none (.float 10) (Or.inl rfl)
  exact ⟨p, h, (e 1 y).1⟩

/-- **C96.** The second derivatives of `vanderpol_jax` in closed form. -/
theorem vanderpol_jax_second (t0 tmax mu : ℝ) (y0 : Option (List ℝ)) :
    ∃ p, vanderpolJax t0 tmax y0 (.float mu) = .ok p ∧ ∀ (t : ℝ) (y : Fin 2 → ℝ), ∃ H, p.ddf t y = some H ∧
      (∀ j k, H 0 j k = 0) ∧ H 1 0 0 = -2 * mu * y 1 ∧ H 1 0 1 = -2 * mu * y 0 ∧ H 1 1 0 = -2 * mu * y 0 ∧
      H 1 1 1 = 0 := by
  refine ⟨_, rfl, fun t y => ⟨_, rfl, ?_⟩⟩
  have e : jacfwd (vanderpolJaxRhs mu) = fun y : Fin 2 → ℝ => !![0, 1; -2 * mu * y 1 * y 0 - 1, mu * (1 - y 0 ^ 2)] :=
    funext fun y => jacobian_unique (jacfwd_right ((vanderpol_smooth mu y).differentiableAt (by norm_num)))
      (vanderpol_jacobian mu y)
  have h10 : HasFDerivAt (fun z : Fin 2 → ℝ => -2 * mu * z 1 * z 0 - 1) _ y :=
    (((coord 1 y).const_mul (-2 * mu)).mul (coord 0 y)).sub_const 1
  have h11 : HasFDerivAt (fun z : Fin 2 → ℝ => mu * (1 - z 0 ^ 2)) _ y :=
    (((coord 0 y).pow 2).const_sub 1).const_mul mu
  refine ⟨fun j k => ?_, ?_, ?_, ?_, ?_⟩
  · simp only [jacrevMatrix, e]
    fin_cases j <;> simp
  · simp only [jacrevMatrix, e]
    show fderiv ℝ (fun z : Fin 2 → ℝ => -2 * mu * z 1 * z 0 - 1) y _ = _
    rw [h10.fderiv]
    simp
  · simp only [jacrevMatrix, e]
    show fderiv ℝ (fun z : Fin 2 → ℝ => -2 * mu * z 1 * z 0 - 1) y _ = _
    rw [h10.fderiv]
    simp
    ring
  · simp only [jacrevMatrix, e]
    simp [h11.fderiv]; ring
  · simp only [jacrevMatrix, e]
    simp [h11.fderiv]

/-- **C96.** Every other parameter raises when the problem is made: `TypeError` for a number that is not a `float`,
`ValueError` for a sequence with another number of entries. -/
theorem vanderpol_jax_rejects (t0 tmax mu : ℝ) (y0 : Option (List ℝ)) :
    vanderpolJax t0 tmax y0 (.otherNumber mu) = .error .typeError ∧
    ∀ l, l.length ≠ 1 → vanderpolJax t0 tmax y0 (.seq l) = .error .valueError := by
  refine ⟨rfl, fun l hl => ?_⟩
  rcases l with _ | ⟨a, _ | ⟨b, l⟩⟩
  · rfl
  · simp at hl
  · rfl

example : vanderpolJax 0 1 none (.seq [1, 2]) = .error .valueError :=
  (vanderpol_jax_rejects 0 1 0 none).2 [1, 2] (by simp)

/-- **C96, refuted in part.** The documented default parameter is `0.1`; the default problem has the parameter `10`, and its
right-hand side is another function. -/
theorem vanderpol_jax_default :
    ∃ p, vanderpolJaxDefault = .ok p ∧ (∀ (t : ℝ) (y : Fin 2 → ℝ) i, p.f t y i = some (vanderpolField 10 y i)) ∧
      ∃ (y : Fin 2 → ℝ) (i : Fin 2), ∀ t, p.f t y i ≠ some (vanderpolField 0.1 y i) := by
  refine ⟨_, rfl, fun t y i => rfl, ![0, 1], 1, fun t h => ?_⟩
  have := Option.some.inj h
  simp [vanderpolJaxRhs, jaxGet, vanderpolField] at this
  norm_num at this

/-- **C96, refuted in part.** A state with the wrong number of entries does not raise, unlike in `vanderpol`: with one entry the
last index is used twice, further entries are ignored. -/
theorem vanderpol_jax_lengths (t0 tmax mu : ℝ) (y0 : Option (List ℝ)) :
    ∃ p, vanderpolJax t0 tmax y0 (.float mu) = .ok p ∧
      (∀ (t : ℝ) (y : Fin 1 → ℝ) i, p.f t y i = some (vanderpolField mu ![y 0, y 0] i)) ∧
      (∀ (t : ℝ) (n : ℕ) (y : Fin (n + 3) → ℝ) i, p.f t y i = some (vanderpolField mu ![y 0, y 1] i)) ∧
      ∀ (t : ℝ) (n : ℕ) (y : Fin n → ℝ), n ≠ 2 →
        (vanderpol t0 tmax y0 (.float mu)).f t (List.ofFn y) = .error .valueError := by
  refine ⟨_, rfl, fun t y i => ?_, fun t n y i => ?_, fun t n y hn => ?_⟩
  · rfl
  · have : (⟨min 1 (n + 2), by omega⟩ : Fin (n + 3)) = 1 := by ext; simp
    have h0 : (⟨min 0 (n + 2), by omega⟩ : Fin (n + 3)) = 0 := by ext; simp
    fin_cases i <;> simp [vanderpolJaxRhs, jaxGet, vanderpolField, this, h0]
  · exact (vanderpol_documented t0 tmax mu y0 _ (Or.inl rfl)).1.2 t _ (by simpa using hn)

/-! ## Three bodies -/

theorem threebodyJaxRhs_eq (y : Fin 4 → ℝ) : threebodyJaxRhs (n := 3) y = threebodyField y := rfl

theorem jaxD1_zero {y : Fin 4 → ℝ} (h : dist1 y ≠ 0) : jaxD1 (n := 3) y ≠ 0 := by
  have p1 : 0 ≤ dist1 y := by unfold dist1; positivity
  exact (Real.rpow_pos_of_pos (lt_of_le_of_ne p1 (Ne.symm h)) _).ne'

theorem jaxD2_zero {y : Fin 4 → ℝ} (h : dist2 y ≠ 0) : jaxD2 (n := 3) y ≠ 0 := by
  have p1 : 0 ≤ dist2 y := by unfold dist2; positivity
  exact (Real.rpow_pos_of_pos (lt_of_le_of_ne p1 (Ne.symm h)) _).ne'

theorem threebody_smooth {y : Fin 4 → ℝ} (h1 : dist1 y ≠ 0) (h2 : dist2 y ≠ 0) : ContDiffAt ℝ 2 threebodyField y := by
  have n1 := jaxD1_zero h1
  have n2 := jaxD2_zero h2
  have c1 : ContDiffAt ℝ 2 (fun y : Fin 4 → ℝ => ((y 0 + moonMass) ^ 2 + y 1 ^ 2) ^ (3 / 2 : ℝ)) y :=
    ContDiffAt.rpow_const_of_ne (by fun_prop) h1
  have c2 : ContDiffAt ℝ 2 (fun y : Fin 4 → ℝ => ((y 0 - (1 - moonMass)) ^ 2 + y 1 ^ 2) ^ (3 / 2 : ℝ)) y :=
    ContDiffAt.rpow_const_of_ne (by fun_prop) h2
  rw [contDiffAt_pi]
  intro i
  fin_cases i
  · show ContDiffAt ℝ 2 (fun y : Fin 4 → ℝ => y 2) y
    fun_prop
  · show ContDiffAt ℝ 2 (fun y : Fin 4 → ℝ => y 3) y
    fun_prop
  · exact ((ContDiffAt.sub (by fun_prop) (ContDiffAt.div (by fun_prop) c1 n1))).sub (ContDiffAt.div (by fun_prop) c2 n2)
  · exact ((ContDiffAt.sub (by fun_prop) (ContDiffAt.div (by fun_prop) c1 n1))).sub (ContDiffAt.div (by fun_prop) c2 n2)

/-- **C96.** `threebody_jax`: away from the two bodies the right-hand side is the documented vector field, `df` its Jacobian and
`ddf` its second derivatives. -/
theorem threebody_jax_documented (tmax t : ℝ) (y : Fin 4 → ℝ) (h1 : dist1 y ≠ 0) (h2 : dist2 y ≠ 0) :
    (∀ i, (threebodyJax tmax).f t y i = some (threebodyField y i)) ∧
    (∃ J, (threebodyJax tmax).df t y = some J ∧ IsJacobianAt threebodyField y J) ∧
    ∃ H, (threebodyJax tmax).ddf t y = some H ∧ IsHessianAt threebodyField y H := by
  have n : ¬ (jaxD1 (n := 3) y = 0 ∨ jaxD2 (n := 3) y = 0) := not_or.2 ⟨jaxD1_zero h1, jaxD2_zero h2⟩
  refine ⟨fun i => ?_, ⟨jacfwd threebodyField y, ?_, ?_⟩, ⟨jacrevMatrix (jacfwd threebodyField) y, ?_, ?_⟩⟩
  · show (if _ then _ else _) = _
    rw [if_neg (fun h => n h.2)]
    rfl
  · show (if _ then _ else _) = _
    rw [if_neg n]
    rfl
  · exact jacfwd_right ((threebody_smooth h1 h2).differentiableAt (by norm_num))
  · show (if _ then _ else _) = _
    rw [if_neg n]
    rfl
  · exact jacrev_right (threebody_smooth h1 h2)

/-- The initial state. -/
noncomputable def threebodyStart : Fin 4 → ℝ := ![0.994, 0, 0, -2.00158510637908252240537862224]

/-- **C96.** The problem starts away from the two bodies, and it has the initial values and times of `threebody`. -/
theorem threebody_jax_start (tmax : ℝ) :
    (threebodyJax tmax).y0 = List.ofFn threebodyStart ∧ dist1 threebodyStart ≠ 0 ∧ dist2 threebodyStart ≠ 0 ∧
    (threebodyJax tmax).y0 = (threebody 0 tmax none).y0 ∧ (threebodyJax tmax).t0 = (threebody 0 tmax none).t0 ∧
    (threebodyJax tmax).tmax = (threebody 0 tmax none).tmax := by
  refine ⟨by simp [threebodyJax, threebodyStart, List.ofFn_succ], ?_, ?_, rfl, rfl, rfl⟩
  · simp [dist1, threebodyStart, moonMass]; norm_num
  · simp [dist2, threebodyStart, moonMass]; norm_num

example : ∃ J, (threebodyJax 17).df 0 threebodyStart = some J ∧ IsJacobianAt threebodyField threebodyStart J :=
  (threebody_jax_documented 17 0 _ (threebody_jax_start 17).2.1 (threebody_jax_start 17).2.2.1).2.1

/-- **C96.** `threebody_jax` and `threebody` have the same right-hand side, also at the two bodies up to entries that divide
by zero: no entry of one is finite where the other is not. -/
theorem threebody_jax_agrees (tmax t : ℝ) (y : Fin 4 → ℝ) :
    (threebody 0 tmax none).f t (List.ofFn y) = .ok (List.ofFn ((threebodyJax tmax).f t y)) := by
  classical
  by_cases a1 : jaxD1 (n := 3) y = 0
  · have b1 : ((y 0 + 0.012277471) ^ 2 + y 1 ^ 2) ^ (3 / 2 : ℝ) = 0 := a1
    simp only [threebody, List.ofFn_succ, List.ofFn_zero, threebodyRhs, threebodyJax, a1]
    simp [npDiv, b1]
    exact ⟨rfl, rfl⟩
  · have b1 : ((y 0 + 0.012277471) ^ 2 + y 1 ^ 2) ^ (3 / 2 : ℝ) ≠ 0 := a1
    by_cases a2 : jaxD2 (n := 3) y = 0
    · have b2 : ((y 0 - (1 - 0.012277471)) ^ 2 + y 1 ^ 2) ^ (3 / 2 : ℝ) = 0 := a2
      simp only [threebody, List.ofFn_succ, List.ofFn_zero, threebodyRhs, threebodyJax, a2]
      simp [npDiv, b1, b2]
      exact ⟨rfl, rfl⟩
    · have h1 : dist1 y ≠ 0 := fun h => a1 (by
        show dist1 y ^ (3 / 2 : ℝ) = 0
        rw [h]; exact Real.zero_rpow (by norm_num))
      have h2 : dist2 y ≠ 0 := fun h => a2 (by
        show dist2 y ^ (3 / 2 : ℝ) = 0
        rw [h]; exact Real.zero_rpow (by norm_num))
      rw [(threebody_documented 0 tmax none).1 t y h1 h2]
      congr 2
      funext i
      exact ((threebody_jax_documented tmax t y h1 h2).1 i).symm

/-- **C96, refuted in part.** Short states do not raise, unlike in `threebody`: the last entry is used for the missing ones. -/
theorem threebody_jax_lengths (tmax t : ℝ) (y : Fin 2 → ℝ)
    (h1 : dist1 ![y 0, y 1, y 1, y 1] ≠ 0) (h2 : dist2 ![y 0, y 1, y 1, y 1] ≠ 0) :
    (∀ i, (threebodyJax tmax).f t y i = some (threebodyField ![y 0, y 1, y 1, y 1] i)) ∧
    (threebody 0 tmax none).f t (List.ofFn y) = .error .indexError := by
  have n : ¬ (jaxD1 (n := 1) y = 0 ∨ jaxD2 (n := 1) y = 0) := not_or.2 ⟨jaxD1_zero h1, jaxD2_zero h2⟩
  refine ⟨fun i => ?_, (threebody_documented 0 tmax none).2 t _ (by simp)⟩
  show (if _ then _ else _) = _
  rw [if_neg (fun h => n h.2)]
  rfl

example : dist1 ![2, 1, 1, 1] ≠ 0 ∧ dist2 ![2, 1, 1, 1] ≠ 0 := by
  constructor <;> simp [dist1, dist2] <;> positivity

end Probnum.Zoo
