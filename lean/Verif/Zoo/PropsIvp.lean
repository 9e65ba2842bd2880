import Verif.Zoo.Ivp
import Mathlib.Analysis.Calculus.FDeriv.Pi
import Mathlib.Analysis.Calculus.FDeriv.Pow
import Mathlib.Analysis.Calculus.MeanValue
import Mathlib.Analysis.SpecialFunctions.ExpDeriv
import Mathlib.Analysis.SpecialFunctions.Pow.Deriv
import Mathlib.LinearAlgebra.Matrix.ToLin
import Mathlib.Topology.Algebra.Module.FiniteDimension
import Mathlib.Tactic.FinCases

/-!
# C76: the example initial value problems have the documented vector fields, Jacobians and solutions
-/

namespace Probnum.Zoo

open Set

/-! ## Specification -/

/-- The right-hand side of `p` evaluates `F` at every state with `d` entries, at every time, and rejects other states. -/
def Evaluates (p : Ivp) (d : ℕ) (F : (Fin d → ℝ) → Fin d → ℝ) : Prop :=
  (∀ t y, p.f t (List.ofFn y) = .ok (List.ofFn fun i => some (F y i))) ∧
    ∀ t y, y.length ≠ d → p.f t y = .error .valueError

/-- The Jacobian of `p` evaluates a matrix at every state with `d` entries which is the derivative of `F` there, and rejects
other states. -/
def HasJacobian (p : Ivp) (d : ℕ) (F : (Fin d → ℝ) → Fin d → ℝ) : Prop :=
  ∃ df, p.df = some df ∧ (∀ t y, ∃ J : Matrix (Fin d) (Fin d) ℝ,
    df t (List.ofFn y) = .ok (List.ofFn fun i => List.ofFn fun j => some (J i j)) ∧
    HasFDerivAt F (LinearMap.toContinuousLinearMap (Matrix.toLin' J)) y) ∧
    ∀ t y, y.length ≠ d → df t y = .error .valueError

/-- `y` solves the ODE with vector field `F` on the interval `[a, b]`. -/
def SolvesOn {d : ℕ} (F : (Fin d → ℝ) → Fin d → ℝ) (y : ℝ → Fin d → ℝ) (a b : ℝ) : Prop :=
  ContinuousOn y (Icc a b) ∧ ∀ t ∈ Ico a b, HasDerivWithinAt y (F (y t)) (Ici t) t

/-! ## Helpers -/

theorem coord {d : ℕ} (i : Fin d) (y : Fin d → ℝ) :
    HasFDerivAt (fun y : Fin d → ℝ => y i) (ContinuousLinearMap.proj (R := ℝ) (φ := fun _ : Fin d => ℝ) i) y :=
  hasFDerivAt_apply i y

theorem jacobian_intro {d : ℕ} {F : (Fin d → ℝ) → Fin d → ℝ} {J : Matrix (Fin d) (Fin d) ℝ} {y : Fin d → ℝ}
    (h : ∀ i, ∃ L : (Fin d → ℝ) →L[ℝ] ℝ, HasFDerivAt (fun y => F y i) L y ∧ ∀ v, L v = ∑ j, J i j * v j) :
    HasFDerivAt F (LinearMap.toContinuousLinearMap (Matrix.toLin' J)) y := by
  rw [hasFDerivAt_pi']
  intro i
  obtain ⟨L, h, e⟩ := h i
  refine h.congr_fderiv ?_
  ext v
  rw [e]
  simp [Matrix.mulVec, dotProduct]

theorem conserved {d : ℕ} {F : (Fin d → ℝ) → Fin d → ℝ} {y : ℝ → Fin d → ℝ} {a b : ℝ} (h : SolvesOn F y a b)
    {Q : (Fin d → ℝ) → ℝ} (hQ : ∀ t ∈ Icc a b, ∃ L : (Fin d → ℝ) →L[ℝ] ℝ, HasFDerivAt Q L (y t) ∧ L (F (y t)) = 0) :
    ∀ t ∈ Icc a b, Q (y t) = Q (y a) := by
  refine constant_of_has_deriv_right_zero (f := fun t => Q (y t)) ?_ fun t ht => ?_
  · intro t ht
    obtain ⟨L, hL, -⟩ := hQ t ht
    exact (hL.continuousAt.comp_continuousWithinAt (h.1 t ht))
  · obtain ⟨L, hL, h0⟩ := hQ t (Ico_subset_Icc_self ht)
    have := hL.comp_hasDerivWithinAt t (h.2 t ht)
    rw [h0] at this
    exact this

/-! ## Van der Pol -/

/-- The vector field in the documentation of `vanderpol`. -/
def vanderpolField (mu : ℝ) (y : Fin 2 → ℝ) : Fin 2 → ℝ := ![y 1, mu * (1 - y 0 ^ 2) * y 1 - y 0]

/-- **C76.** `vanderpol`, with a `float` or a sequence of one parameter. -/
theorem vanderpol_documented (t0 tmax mu : ℝ) (y0 : Option (List ℝ)) (params : VdpParams)
    (h : params = .float mu ∨ params = .seq [mu]) :
    Evaluates (vanderpol t0 tmax y0 params) 2 (vanderpolField mu) ∧
    HasJacobian (vanderpol t0 tmax y0 params) 2 (vanderpolField mu) := by
  have hm : params.mu = .ok mu := by rcases h with rfl | rfl <;> rfl
  refine ⟨⟨fun t y => ?_, fun t y hy => ?_⟩, _, rfl, fun t y =>
    ⟨!![0, 1; -2 * mu * y 1 * y 0 - 1, mu * (1 - y 0 ^ 2)], ?_, jacobian_intro fun i => ?_⟩, fun t y hy => ?_⟩
  · simp [vanderpol, vanderpolRhs, hm, Except.map, vanderpolField, List.ofFn_succ]
  · rcases y with _ | ⟨a, _ | ⟨b, _ | ⟨c, l⟩⟩⟩ <;> first | rfl | simp at hy
  · simp [vanderpolJac, hm, Except.map, List.ofFn_succ]
  · fin_cases i
    · exact ⟨_, coord 1 y, fun v => by simp [Fin.sum_univ_succ]⟩
    · exact ⟨_, (((((coord 0 y).pow 2).const_sub 1).const_mul mu).mul (coord 1 y)).sub (coord 0 y), fun v => by
        simp [Fin.sum_univ_succ]; ring⟩
  · rcases y with _ | ⟨a, _ | ⟨b, _ | ⟨c, l⟩⟩⟩ <;> first | rfl | simp at hy

example : Evaluates (vanderpol 0 30 none (.float 10)) 2 (vanderpolField 10) :=
  (vanderpol_documented 0 30 10 none _ (Or.inl rfl)).1

/-- **C76, refuted in part.** A number that is not a `float`, for example an integer, is accepted as a parameter, but then the
right-hand side and the Jacobian raise `TypeError` at every state. -/
theorem vanderpol_integer (t0 tmax mu : ℝ) (y0 : Option (List ℝ)) (t : ℝ) (y : Fin 2 → ℝ) :
    (vanderpol t0 tmax y0 (.otherNumber mu)).f t (List.ofFn y) = .error .typeError ∧
    ∃ df, (vanderpol t0 tmax y0 (.otherNumber mu)).df = some df ∧ df t (List.ofFn y) = .error .typeError :=
  ⟨by simp [vanderpol, vanderpolRhs, VdpParams.mu, Except.map, List.ofFn_succ], _, rfl,
    by simp [vanderpolJac, VdpParams.mu, Except.map, List.ofFn_succ]⟩

/-! ## Rigid body -/

/-- The vector field in the documentation of `rigidbody`. -/
def rigidbodyField (a b c : ℝ) (y : Fin 3 → ℝ) : Fin 3 → ℝ := ![a * y 1 * y 2, b * y 0 * y 2, c * y 0 * y 1]

/-- **C76.** `rigidbody`. -/
theorem rigidbody_documented (t0 tmax a b c : ℝ) (y0 : Option (List ℝ)) :
    Evaluates (rigidbody t0 tmax y0 [a, b, c]) 3 (rigidbodyField a b c) ∧
    HasJacobian (rigidbody t0 tmax y0 [a, b, c]) 3 (rigidbodyField a b c) := by
  refine ⟨⟨fun t y => ?_, fun t y hy => ?_⟩, _, rfl, fun t y =>
    ⟨!![0, a * y 2, a * y 1; b * y 2, 0, b * y 0; c * y 1, c * y 0, 0], ?_, jacobian_intro fun i => ?_⟩, fun t y hy => ?_⟩
  · simp [rigidbody, rigidbodyRhs, rigidbodyField, List.ofFn_succ]
  · rcases y with _ | ⟨_, _ | ⟨_, _ | ⟨_, _ | ⟨_, l⟩⟩⟩⟩ <;> first | rfl | simp at hy
  · simp [rigidbodyJac, List.ofFn_succ]
  · fin_cases i
    · exact ⟨_, ((coord 1 y).const_mul a).mul (coord 2 y), fun v => by simp [Fin.sum_univ_succ]; ring⟩
    · exact ⟨_, ((coord 0 y).const_mul b).mul (coord 2 y), fun v => by simp [Fin.sum_univ_succ]; ring⟩
    · exact ⟨_, ((coord 0 y).const_mul c).mul (coord 1 y), fun v => by simp [Fin.sum_univ_succ]; ring⟩
  · rcases y with _ | ⟨_, _ | ⟨_, _ | ⟨_, _ | ⟨_, l⟩⟩⟩⟩ <;> first | rfl | simp at hy

/-! ## FitzHugh-Nagumo -/

/-- The vector field in the documentation of `fitzhughnagumo`. -/
noncomputable def fitzhughnagumoField (a b c d : ℝ) (y : Fin 2 → ℝ) : Fin 2 → ℝ :=
  ![y 0 - 1 / 3 * y 0 ^ 3 - y 1 + a, 1 / d * (y 0 + b - c * y 1)]

/-- **C76.** `fitzhughnagumo`, for a nonzero time scale. -/
theorem fitzhughnagumo_documented (t0 tmax a b c : ℝ) {d : ℝ} (hd : d ≠ 0) (y0 : Option (List ℝ)) :
    Evaluates (fitzhughnagumo t0 tmax y0 [a, b, c, d]) 2 (fitzhughnagumoField a b c d) ∧
    HasJacobian (fitzhughnagumo t0 tmax y0 [a, b, c, d]) 2 (fitzhughnagumoField a b c d) := by
  refine ⟨⟨fun t y => ?_, fun t y hy => ?_⟩, _, rfl, fun t y =>
    ⟨!![1 - y 0 ^ 2, -1; 1 / d, -c / d], ?_, jacobian_intro fun i => ?_⟩, fun t y hy => ?_⟩
  · simp only [fitzhughnagumo, fitzhughnagumoRhs, fitzhughnagumoField, List.ofFn_succ, List.ofFn_zero, npDiv, hd, if_false]
    simp
    constructor <;> ring
  · rcases y with _ | ⟨_, _ | ⟨_, _ | ⟨_, l⟩⟩⟩ <;> first | rfl | simp at hy
  · simp [fitzhughnagumoJac, List.ofFn_succ, hd]
  · fin_cases i
    · exact ⟨_, ((((coord 0 y).sub (((coord 0 y).pow 3).const_mul (1 / 3))).sub (coord 1 y)).add_const a), fun v => by
        simp [Fin.sum_univ_succ]; ring⟩
    · exact ⟨_, ((((coord 0 y).add_const b).sub ((coord 1 y).const_mul c)).const_mul (1 / d)), fun v => by
        simp [Fin.sum_univ_succ]; ring⟩
  · rcases y with _ | ⟨_, _ | ⟨_, _ | ⟨_, l⟩⟩⟩ <;> first | rfl | simp at hy

/-! ## Lotka-Volterra -/

/-- The vector field in the documentation of `lotkavolterra`. -/
def lotkavolterraField (a b c d : ℝ) (y : Fin 2 → ℝ) : Fin 2 → ℝ :=
  ![a * y 0 - b * y 0 * y 1, -c * y 1 + d * y 0 * y 1]

/-- **C76.** `lotkavolterra`. -/
theorem lotkavolterra_documented (t0 tmax a b c d : ℝ) (y0 : Option (List ℝ)) :
    Evaluates (lotkavolterra t0 tmax y0 [a, b, c, d]) 2 (lotkavolterraField a b c d) ∧
    HasJacobian (lotkavolterra t0 tmax y0 [a, b, c, d]) 2 (lotkavolterraField a b c d) := by
  refine ⟨⟨fun t y => ?_, fun t y hy => ?_⟩, _, rfl, fun t y =>
    ⟨!![a - b * y 1, -b * y 0; d * y 1, -c + d * y 0], ?_, jacobian_intro fun i => ?_⟩, fun t y hy => ?_⟩
  · simp [lotkavolterra, lotkavolterraRhs, lotkavolterraField, List.ofFn_succ]
  · rcases y with _ | ⟨_, _ | ⟨_, _ | ⟨_, l⟩⟩⟩ <;> first | rfl | simp at hy
  · simp [lotkavolterraJac, List.ofFn_succ]
  · fin_cases i
    · exact ⟨_, ((coord 0 y).const_mul a).sub (((coord 0 y).const_mul b).mul (coord 1 y)), fun v => by
        simp [Fin.sum_univ_succ]; ring⟩
    · exact ⟨_, ((coord 1 y).const_mul (-c)).add (((coord 0 y).const_mul d).mul (coord 1 y)), fun v => by
        simp [Fin.sum_univ_succ]; ring⟩
  · rcases y with _ | ⟨_, _ | ⟨_, _ | ⟨_, l⟩⟩⟩ <;> first | rfl | simp at hy

/-! ## SEIR -/

/-- The vector field in the documentation of `seir`, with population count `N`. -/
noncomputable def seirField (alpha beta gamma N : ℝ) (y : Fin 4 → ℝ) : Fin 4 → ℝ :=
  ![-beta * y 0 * y 2 / N, beta * y 0 * y 2 / N - alpha * y 1, alpha * y 1 - gamma * y 2, gamma * y 2]

/-- **C76.** `seir`: the population count is the sum of the initial value. -/
theorem seir_documented (t0 tmax alpha beta gamma : ℝ) (y0 : Fin 4 → ℝ) (hN : ∑ i, y0 i ≠ 0) :
    Evaluates (seir t0 tmax (some (List.ofFn y0)) [alpha, beta, gamma]) 4 (seirField alpha beta gamma (∑ i, y0 i)) ∧
    HasJacobian (seir t0 tmax (some (List.ofFn y0)) [alpha, beta, gamma]) 4 (seirField alpha beta gamma (∑ i, y0 i)) := by
  have hs : (List.ofFn y0).sum = ∑ i, y0 i := List.sum_ofFn
  generalize hNN : ∑ i, y0 i = N at hN hs ⊢
  refine ⟨⟨fun t y => ?_, fun t y hy => ?_⟩, _, rfl, fun t y =>
    ⟨!![-beta * y 2 / N, 0, -beta * y 0 / N, 0; beta * y 2 / N, -alpha, beta * y 0 / N, 0; 0, alpha, -gamma, 0;
      0, 0, gamma, 0], ?_, jacobian_intro fun i => ?_⟩, fun t y hy => ?_⟩
  · simp only [seir, Option.getD, hs]
    simp [seirRhs, seirField, List.ofFn_succ, npDiv, hN]
  · rcases y with _ | ⟨_, _ | ⟨_, _ | ⟨_, _ | ⟨_, _ | ⟨_, l⟩⟩⟩⟩⟩ <;> first | rfl | simp at hy
  · simp only [Option.getD, hs]
    simp [seirJac, List.ofFn_succ, npDiv, hN]
  · fin_cases i
    · exact ⟨_, (((coord 0 y).const_mul (-beta)).mul (coord 2 y)).mul_const N⁻¹, fun v => by
        simp [Fin.sum_univ_succ]; ring⟩
    · exact ⟨_, ((((coord 0 y).const_mul beta).mul (coord 2 y)).mul_const N⁻¹).sub ((coord 1 y).const_mul alpha), fun v => by
        simp [Fin.sum_univ_succ]; ring⟩
    · exact ⟨_, ((coord 1 y).const_mul alpha).sub ((coord 2 y).const_mul gamma), fun v => by
        simp [Fin.sum_univ_succ]; ring⟩
    · exact ⟨_, (coord 2 y).const_mul gamma, fun v => by simp [Fin.sum_univ_succ]⟩
  · rcases y with _ | ⟨_, _ | ⟨_, _ | ⟨_, _ | ⟨_, _ | ⟨_, l⟩⟩⟩⟩⟩ <;> first | rfl | simp at hy

/-- **C76.** "For every time point `t`, `S(t) + E(t) + I(t) + R(t) = N` holds." -/
theorem seir_conserved {alpha beta gamma a b : ℝ} {y0 : Fin 4 → ℝ} {y : ℝ → Fin 4 → ℝ} (h0 : y a = y0)
    (h : SolvesOn (seirField alpha beta gamma (∑ i, y0 i)) y a b) : ∀ t ∈ Icc a b, ∑ i, y t i = ∑ i, y0 i := by
  have hQ : ∀ z : Fin 4 → ℝ, HasFDerivAt (fun z : Fin 4 → ℝ => ∑ i, z i)
      (∑ i, ContinuousLinearMap.proj (R := ℝ) (φ := fun _ : Fin 4 => ℝ) i) z := fun z => by
    have := HasFDerivAt.fun_sum (u := Finset.univ) fun i _ => coord i z
    exact this
  intro t ht
  rw [conserved h (Q := fun z => ∑ i, z i) (fun t _ => ⟨_, hQ _, by simp [Fin.sum_univ_succ, seirField]; ring⟩) t ht, h0]

/-! ## Lorenz63 -/

/-- The vector field in the documentation of `lorenz63`. -/
def lorenz63Field (a b c : ℝ) (y : Fin 3 → ℝ) : Fin 3 → ℝ := ![a * (y 1 - y 0), y 0 * (b - y 2) - y 1, y 0 * y 1 - c * y 2]

/-- **C76.** `lorenz63`. -/
theorem lorenz63_documented (t0 tmax a b c : ℝ) (y0 : Option (List ℝ)) :
    Evaluates (lorenz63 t0 tmax y0 [a, b, c]) 3 (lorenz63Field a b c) ∧
    HasJacobian (lorenz63 t0 tmax y0 [a, b, c]) 3 (lorenz63Field a b c) := by
  refine ⟨⟨fun t y => ?_, fun t y hy => ?_⟩, _, rfl, fun t y =>
    ⟨!![-a, a, 0; b - y 2, -1, -y 0; y 1, y 0, -c], ?_, jacobian_intro fun i => ?_⟩, fun t y hy => ?_⟩
  · simp [lorenz63, lorenz63Rhs, lorenz63Field, List.ofFn_succ]
  · rcases y with _ | ⟨_, _ | ⟨_, _ | ⟨_, _ | ⟨_, l⟩⟩⟩⟩ <;> first | rfl | simp at hy
  · simp [lorenz63Jac, List.ofFn_succ]
  · fin_cases i
    · exact ⟨_, ((coord 1 y).sub (coord 0 y)).const_mul a, fun v => by simp [Fin.sum_univ_succ]; ring⟩
    · exact ⟨_, ((coord 0 y).mul ((coord 2 y).const_sub b)).sub (coord 1 y), fun v => by simp [Fin.sum_univ_succ]; ring⟩
    · exact ⟨_, ((coord 0 y).mul (coord 1 y)).sub ((coord 2 y).const_mul c), fun v => by simp [Fin.sum_univ_succ]; ring⟩
  · rcases y with _ | ⟨_, _ | ⟨_, _ | ⟨_, _ | ⟨_, l⟩⟩⟩⟩ <;> first | rfl | simp at hy

/-! ## Lorenz96 -/

/-- The vector field in the documentation of `lorenz96`; the indices are taken modulo the number of variables. -/
def lorenz96Field {m : ℕ} (F : ℝ) (y : Fin (m + 4) → ℝ) : Fin (m + 4) → ℝ :=
  fun i => (y (i + 1) - y (i - 2)) * y (i - 1) - y i + F

theorem npRoll_getElem {m : ℕ} (y : Fin (m + 4) → ℝ) (s : ℤ) (k : Fin (m + 4)) (hk : (k : ℤ) = (-s) % ((m : ℤ) + 4)) (i : ℕ)
    (hi : i < (npRoll s (List.ofFn y)).length) (h' : i < m + 4) : (npRoll s (List.ofFn y))[i] = y (⟨i, h'⟩ + k) := by
  simp only [npRoll, List.getElem_rotate, List.length_ofFn, List.getElem_ofFn]
  congr 1
  apply Fin.ext
  simp only [Fin.val_add]
  have : ((-s) % ((m + 4 : ℕ) : ℤ)).toNat = (k : ℕ) := by
    push_cast
    omega
  rw [this]

/-- **C76.** `lorenz96` with at least four variables: the documented vector field. Fewer variables and a wrong number of
parameters are rejected with `ValueError`. -/
theorem lorenz96_documented (t0 tmax F : ℝ) (y0 : Option (List ℝ)) (n : ℤ) :
    ((∃ l, y0 = some l ∧ 4 ≤ l.length) ∨ (y0 = none ∧ 4 ≤ n) →
      ∃ p, lorenz96 t0 tmax y0 n [F] = .ok p ∧ (∀ l, y0 = some l → p.y0 = l) ∧ (y0 = none → (p.dimension : ℤ) = n) ∧
        ∀ (m : ℕ) t (y : Fin (m + 4) → ℝ), p.f t (List.ofFn y) = .ok (List.ofFn fun i => some (lorenz96Field F y i))) ∧
    ((∃ l, y0 = some l ∧ l.length < 4) ∨ (y0 = none ∧ n < 4) → lorenz96 t0 tmax y0 n [F] = .error .valueError) ∧
    ∀ params, params.length ≠ 1 → lorenz96 t0 tmax y0 n params = .error .valueError := by
  have hf : ∀ (m : ℕ) t (y : Fin (m + 4) → ℝ), lorenz96Rhs F t (List.ofFn y) =
      .ok (List.ofFn fun i => some (lorenz96Field F y i)) := by
    intro m t y
    simp only [lorenz96Rhs]
    congr 1
    have hl : ∀ s, (npRoll s (List.ofFn y)).length = m + 4 := fun s => by simp [npRoll]
    refine List.ext_getElem (by simp only [List.length_map, List.length_zip, hl, List.length_ofFn, min_self]) fun i h1 h2 => ?_
    have hi : i < m + 4 := by rwa [List.length_ofFn] at h2
    simp only [List.getElem_map, List.getElem_zip, List.getElem_ofFn, lorenz96Field]
    have k1 : (((1 : Fin (m + 4)) : ℕ) : ℤ) = (- -1) % ((m : ℤ) + 4) := by
      rw [neg_neg, Int.emod_eq_of_lt (by norm_num) (by omega), Fin.val_one]
      rfl
    have k2 : (((-1 : Fin (m + 4)) : ℕ) : ℤ) = (-1) % ((m : ℤ) + 4) := by
      rw [Fin.val_neg', Fin.val_one, Nat.mod_eq_of_lt (by omega), ← Int.add_emod_right, Int.emod_eq_of_lt (by omega) (by omega)]
      omega
    have k3 : (((-2 : Fin (m + 4)) : ℕ) : ℤ) = (-2) % ((m : ℤ) + 4) := by
      rw [Fin.val_neg', Fin.val_two, Nat.mod_eq_of_lt (by omega), ← Int.add_emod_right, Int.emod_eq_of_lt (by omega) (by omega)]
      omega
    rw [npRoll_getElem y (-1) 1 k1 i _ hi, npRoll_getElem y 2 (-2) k3 i _ hi, npRoll_getElem y 1 (-1) k2 i _ hi]
    simp only [sub_eq_add_neg]
  refine ⟨?_, ?_, ?_⟩
  · rintro (⟨l, rfl, hl⟩ | ⟨rfl, hn⟩)
    · refine ⟨⟨lorenz96Rhs F, t0, tmax, l, none, none, none⟩, ?_, fun l' h => by simpa using h, by simp, hf⟩
      simp only [lorenz96, if_neg (not_lt.mpr hl)]
    · refine ⟨⟨lorenz96Rhs F, t0, tmax, List.replicate n.toNat (1 * F), none, none, none⟩,
        by simp only [lorenz96, if_neg (not_lt.mpr hn)], by simp, fun _ => ?_, hf⟩
      simp only [Ivp.dimension, List.length_replicate]
      omega
  · rintro (⟨l, rfl, hl⟩ | ⟨rfl, hn⟩)
    · simp only [lorenz96, if_pos hl]
    · simp only [lorenz96, if_pos hn]
  · rintro (_ | ⟨a, _ | ⟨b, l⟩⟩) h <;> first | rfl | simp at h

/-- **C76, refuted in part.** The default initial value of `lorenz96` is not `(1/F, ..., 1/F)` but `(F, ..., F)`, where the
vector field vanishes: the exact solution of the default problem is constant. -/
theorem lorenz96_default (t0 tmax F : ℝ) (m : ℕ) : ∃ p, lorenz96 t0 tmax none ((m : ℤ) + 4) [F] = .ok p ∧
    p.y0 = List.replicate (m + 4) F ∧ ∀ t, p.f t p.y0 = .ok (List.replicate (m + 4) (some 0)) := by
  obtain ⟨p, hp, -, -, hf⟩ := (lorenz96_documented t0 tmax F none ((m : ℤ) + 4)).1 (Or.inr ⟨rfl, by omega⟩)
  have h0 : p.y0 = List.replicate (m + 4) F := by
    simp only [lorenz96, if_neg (show ¬(m : ℤ) + 4 < 4 by omega), Except.ok.injEq] at hp
    rw [← hp]
    simp only [one_mul]
    congr 1
  refine ⟨p, hp, h0, fun t => ?_⟩
  have := hf m t fun _ => F
  rw [h0, ← List.ofFn_const, this]
  congr 1
  simp only [lorenz96Field, sub_self, zero_mul, zero_sub, neg_add_cancel, List.ofFn_const]

/-! ## Logistic -/

/-- The vector field in the documentation of `logistic`. -/
noncomputable def logisticField (a b y : ℝ) : ℝ := a * y * (1 - y / b)

/-- **C76.** `logistic`: the vector field, its derivative (Jacobian) and its second derivative (Hessian) at every state, for a
nonzero carrying capacity. -/
theorem logistic_documented (t0 tmax a : ℝ) {b : ℝ} (hb : b ≠ 0) (y0 : Option (List ℝ)) :
    (∀ t y, (logistic t0 tmax y0 [a, b]).f t [y] = .ok [some (logisticField a b y)]) ∧
    (∃ df, (logistic t0 tmax y0 [a, b]).df = some df ∧
      ∀ t y, ∃ j, df t [y] = .ok [[some j]] ∧ HasDerivAt (logisticField a b) j y) ∧
    ∃ ddf, (logistic t0 tmax y0 [a, b]).ddf = some ddf ∧
      ∀ t y, ∃ h, ddf t [y] = .ok [[some h]] ∧ HasDerivAt (deriv (logisticField a b)) h y := by
  have hd : ∀ y, HasDerivAt (logisticField a b) (a - a / b * 2 * y) y := fun y => by
    have := ((hasDerivAt_id y).const_mul a).mul (((hasDerivAt_id y).div_const b).const_sub 1)
    refine (this.congr_deriv ?_)
    simp
    field_simp
    ring
  refine ⟨fun t y => ?_, ⟨_, rfl, fun t y => ⟨_, ?_, hd y⟩⟩, _, rfl, fun t y => ⟨-2 * a / b, ?_, ?_⟩⟩
  · simp [logistic, logisticRhs, npDiv, hb, logisticField]
  · simp [logisticJac, hb]
  · simp [logisticHess, hb]
  · rw [show deriv (logisticField a b) = fun y => a - a / b * 2 * y from funext fun y => (hd y).deriv]
    refine (((hasDerivAt_id y).const_mul (a / b * 2)).const_sub a).congr_deriv ?_
    simp
    ring

/-- **C76.** For an initial time 0 the closed-form solution of `logistic` starts at the initial value and satisfies the ODE
at all times at which its denominator does not vanish. (Partial: the initial time must be 0, see
`logistic_solution_initial`.) -/
theorem logistic_solution_partial (t0 tmax a : ℝ) {b : ℝ} (hb : b ≠ 0) (y0 : ℝ) :
    ∃ sol, (logistic t0 tmax (some [y0]) [a, b]).solution = some sol ∧ sol 0 = .ok [some y0] ∧
      ∃ s : ℝ → ℝ, ∀ t, b + y0 * (Real.exp (a * t) - 1) ≠ 0 →
        sol t = .ok [some (s t)] ∧ HasDerivAt s (logisticField a b (s t)) t := by
  refine ⟨_, rfl, ?_, fun t => b * y0 * Real.exp (a * t) / (b + y0 * (Real.exp (a * t) - 1)), fun t ht => ⟨?_, ?_⟩⟩
  · simp [logisticSol, npDiv, hb]
  · simp [logisticSol, npDiv, ht]
  · have he : HasDerivAt (fun t => Real.exp (a * t)) (Real.exp (a * t) * a) t := by
      simpa using ((hasDerivAt_id t).const_mul a).exp
    have := (he.const_mul (b * y0)).div (((he.sub_const 1).const_mul y0).const_add b) ht
    refine this.congr_deriv ?_
    rw [logisticField]
    field_simp

/-- The denominator does not vanish for the default problem. -/
example (t : ℝ) : (1 : ℝ) + 0.1 * (Real.exp (3 * t) - 1) ≠ 0 := by
  have := Real.exp_pos (3 * t)
  intro h
  linarith

/-- **C76, refuted in part.** The closed-form solution ignores the initial time: at `t0` it has the initial value exactly if
`t0 = 0` or the problem is trivial (zero growth rate, or an equilibrium). -/
theorem logistic_solution_initial (t0 tmax a : ℝ) {b : ℝ} (hb : b ≠ 0) (y0 : ℝ)
    (hden : b + y0 * (Real.exp (a * t0) - 1) ≠ 0) :
    ∃ sol, (logistic t0 tmax (some [y0]) [a, b]).solution = some sol ∧
      (sol t0 = .ok [some y0] ↔ t0 = 0 ∨ a = 0 ∨ y0 = 0 ∨ y0 = b) := by
  refine ⟨_, rfl, ?_⟩
  have e : logisticSol [a, b] [y0] t0 = .ok [some (b * y0 * Real.exp (a * t0) / (b + y0 * (Real.exp (a * t0) - 1)))] := by
    simp [logisticSol, npDiv, hden]
  simp only [Option.getD, e, Except.ok.injEq, List.cons.injEq, Option.some.injEq, and_true]
  rw [div_eq_iff hden]
  constructor
  · intro h
    have h1 : y0 * ((b - y0) * (Real.exp (a * t0) - 1)) = 0 := by linear_combination h
    rcases mul_eq_zero.1 h1 with h | h
    · exact Or.inr (Or.inr (Or.inl h))
    rcases mul_eq_zero.1 h with h | h
    · exact Or.inr (Or.inr (Or.inr (by linarith)))
    · have : a * t0 = 0 := by
        rw [← Real.exp_eq_one_iff]
        linarith
      rcases mul_eq_zero.1 this with h | h
      · exact Or.inr (Or.inl h)
      · exact Or.inl h
  · rintro (rfl | rfl | rfl | rfl)
    · simp; ring
    · simp; ring
    · simp
    · ring

/-! ## Three bodies -/

/-- The mass parameter in the documentation of `threebody`. -/
noncomputable def moonMass : ℝ := 0.012277471

/-- The vector field in the documentation of `threebody`; the state is `(y₁, y₂, ẏ₁, ẏ₂)`. -/
noncomputable def threebodyField (y : Fin 4 → ℝ) : Fin 4 → ℝ :=
  let d1 := ((y 0 + moonMass) ^ 2 + y 1 ^ 2) ^ (3 / 2 : ℝ)
  let d2 := ((y 0 - (1 - moonMass)) ^ 2 + y 1 ^ 2) ^ (3 / 2 : ℝ)
  ![y 2, y 3, y 0 + 2 * y 3 - (1 - moonMass) * (y 0 + moonMass) / d1 - moonMass * (y 0 - (1 - moonMass)) / d2,
    y 1 - 2 * y 2 - (1 - moonMass) * y 1 / d1 - moonMass * y 1 / d2]

/-- The squared distances to the two bodies. -/
noncomputable def dist1 (y : Fin 4 → ℝ) : ℝ := (y 0 + moonMass) ^ 2 + y 1 ^ 2
noncomputable def dist2 (y : Fin 4 → ℝ) : ℝ := (y 0 - (1 - moonMass)) ^ 2 + y 1 ^ 2

/-- **C76.** `threebody`: the documented vector field, away from the two bodies; states with fewer than four entries raise
`IndexError`. -/
theorem threebody_documented (t0 tmax : ℝ) (y0 : Option (List ℝ)) :
    (∀ t (y : Fin 4 → ℝ), dist1 y ≠ 0 → dist2 y ≠ 0 →
      (threebody t0 tmax y0).f t (List.ofFn y) = .ok (List.ofFn fun i => some (threebodyField y i))) ∧
    ∀ t y, y.length < 4 → (threebody t0 tmax y0).f t y = .error .indexError := by
  refine ⟨fun t y h1 h2 => ?_, fun t y hy => ?_⟩
  · have p1 : 0 ≤ dist1 y := by unfold dist1; positivity
    have p2 : 0 ≤ dist2 y := by unfold dist2; positivity
    have h1' : dist1 y ^ (3 / 2 : ℝ) ≠ 0 := (Real.rpow_pos_of_pos (lt_of_le_of_ne p1 (Ne.symm h1)) _).ne'
    have h2' : dist2 y ^ (3 / 2 : ℝ) ≠ 0 := (Real.rpow_pos_of_pos (lt_of_le_of_ne p2 (Ne.symm h2)) _).ne'
    simp only [dist1, dist2, moonMass] at h1' h2'
    simp only [threebody, List.ofFn_succ, List.ofFn_zero, threebodyRhs, threebodyField, moonMass]
    simp only [Fin.succ_zero_eq_one, npDiv]
    simp [h1', h2']
  · rcases y with _ | ⟨_, _ | ⟨_, _ | ⟨_, _ | ⟨_, l⟩⟩⟩⟩ <;> first | rfl | (simp at hy; omega)

/-- The Jacobi integral of the restricted three-body problem. -/
noncomputable def jacobiIntegral (y : Fin 4 → ℝ) : ℝ :=
  y 0 ^ 2 + y 1 ^ 2 + 2 * (1 - moonMass) * dist1 y ^ (-(1 / 2) : ℝ) + 2 * moonMass * dist2 y ^ (-(1 / 2) : ℝ)
    - (y 2 ^ 2 + y 3 ^ 2)

/-- **C76.** Along every solution of the three-body problem that stays away from the two bodies the Jacobi integral is
constant. -/
theorem threebody_conserved {a b : ℝ} {y : ℝ → Fin 4 → ℝ} (h : SolvesOn threebodyField y a b)
    (h1 : ∀ t ∈ Icc a b, dist1 (y t) ≠ 0) (h2 : ∀ t ∈ Icc a b, dist2 (y t) ≠ 0) :
    ∀ t ∈ Icc a b, jacobiIntegral (y t) = jacobiIntegral (y a) := by
  have d1 : ∀ z : Fin 4 → ℝ, HasFDerivAt dist1 _ z := fun z =>
    (((coord 0 z).add_const moonMass).pow 2).add ((coord 1 z).pow 2)
  have d2 : ∀ z : Fin 4 → ℝ, HasFDerivAt dist2 _ z := fun z =>
    (((coord 0 z).sub_const (1 - moonMass)).pow 2).add ((coord 1 z).pow 2)
  have pow : ∀ x : ℝ, 0 < x → x ^ (-(1 / 2) - 1 : ℝ) = (x ^ (3 / 2 : ℝ))⁻¹ := fun x hx => by
    rw [← Real.rpow_neg hx.le]
    norm_num
  refine conserved h (Q := jacobiIntegral) fun t ht => ⟨_, ((((((coord 0 (y t)).pow 2).add
    ((coord 1 (y t)).pow 2)).add (((d1 (y t)).rpow_const (p := -(1 / 2)) (Or.inl (h1 t ht))).const_mul
    (2 * (1 - moonMass)))).add (((d2 (y t)).rpow_const (p := -(1 / 2)) (Or.inl (h2 t ht))).const_mul (2 * moonMass))).sub
    (((coord 2 (y t)).pow 2).add ((coord 3 (y t)).pow 2))), ?_⟩
  have q1 : 0 < dist1 (y t) := lt_of_le_of_ne (by unfold dist1; positivity) (Ne.symm (h1 t ht))
  have q2 : 0 < dist2 (y t) := lt_of_le_of_ne (by unfold dist2; positivity) (Ne.symm (h2 t ht))
  have r1 := pow _ q1
  have r2 := pow _ q2
  simp only [r1, r2]
  simp [threebodyField]
  simp only [dist1, dist2]
  field_simp
  ring

/-! ## Times and initial values -/

/-- **C76.** All problems keep the given times and the given initial value, and use the documented default initial values. -/
theorem ivp_initial_values (t0 tmax : ℝ) (vdp : VdpParams) (params : List ℝ) :
    ∀ c ∈ [(threebody t0 tmax, [0.994, 0, 0, -2.00158510637908252240537862224]),
        ((vanderpol t0 tmax · vdp), [2, 0]), ((rigidbody t0 tmax · params), [1, 0, 0.9]), ((logistic t0 tmax · params), [0.1]),
        ((fitzhughnagumo t0 tmax · params), [1, -1]), ((lotkavolterra t0 tmax · params), [20, 20]),
        ((seir t0 tmax · params), [998, 1, 1, 0]), ((lorenz63 t0 tmax · params), [0, 1, 1.05])],
      (∀ y0, (c.1 y0).t0 = t0 ∧ (c.1 y0).tmax = tmax) ∧ (c.1 none).y0 = c.2 ∧
      ∀ y, (c.1 (some y)).y0 = y ∧ (c.1 (some y)).dimension = y.length := by
  intro c hc
  simp only [List.mem_cons, List.not_mem_nil, or_false] at hc
  rcases hc with rfl | rfl | rfl | rfl | rfl | rfl | rfl | rfl <;> exact ⟨fun _ => ⟨rfl, rfl⟩, rfl, fun _ => ⟨rfl, rfl⟩⟩

end Probnum.Zoo
