import Verif.Zoo.Emukit
import Verif.Zoo.EmukitLemmas
import Verif.Zoo.HennigLemmas
import Verif.Zoo.Hennig2Value
import Verif.Quad.ExpQuadLemmas
import Mathlib.Analysis.SpecialFunctions.Trigonometric.Sinc
import Mathlib.LinearAlgebra.Matrix.PosDef

/-!
# C90: the toy integrands from Emukit
-/

namespace Probnum.Zoo

open MeasureTheory Set Matrix

/-! ## Specification -/

/-- The problem asks for the integral of the continuous function `f` over `[-3, 3]^d`: its integrand evaluates `f` at every
row of an array of points. -/
structure PosesToy (p : ToyProblem) (d : ℕ) (f : (Fin d → ℝ) → ℝ) : Prop where
  lower : p.lower = List.replicate d (-3)
  upper : p.upper = List.replicate d 3
  values : ∀ x : Rows, x.d = d → p.fn x = .ok ((List.range x.n).map fun i => f fun j => x.entry i j)
  continuous : Continuous f

/-- The Euclidean norm. -/
noncomputable def norm2 (x : Fin 2 → ℝ) : ℝ := Real.sqrt (x 0 ^ 2 + x 1 ^ 2)

/-- The quadratic form `xᵀ c x`. -/
def quadForm (c : Matrix (Fin 2) (Fin 2) ℝ) (x : Fin 2 → ℝ) : ℝ := ∑ i, ∑ j, x i * c i j * x j

/-! ## Lemmas -/

theorem Rows.sq_two {x : Rows} (h : x.d = 2) (i : ℕ) : x.sq i = x.entry i 0 ^ 2 + x.entry i 1 ^ 2 := by
  rw [Rows.sq, h, Finset.sum_range_succ, Finset.sum_range_one]; ring

theorem sqrt_sq_two {x : Rows} (h : x.d = 2) (i : ℕ) : Real.sqrt (x.sq i) = norm2 fun j => x.entry i j := by
  rw [Rows.sq_two h]; rfl

theorem norm2_sq (x : Fin 2 → ℝ) : norm2 x ^ 2 = x 0 ^ 2 + x 1 ^ 2 := Real.sq_sqrt (by positivity)

theorem norm2_continuous : Continuous norm2 := by unfold norm2; fun_prop

/-- The check of the eigenvalues in terms of trace and determinant. -/
theorem eigvals_check (c : Matrix (Fin 2) (Fin 2) ℝ) :
    (¬∃ z, IsEigval c z ∧ leZero z) ↔ 0 < c 0 0 + c 1 1 ∧ 0 < c 0 0 * c 1 1 - c 0 1 * c 1 0 := by
  set T := c 0 0 + c 1 1 with hT
  set D := c 0 0 * c 1 1 - c 0 1 * c 1 0 with hD
  have key : ∀ z : ℂ, IsEigval c z ↔ z.re * z.re - z.im * z.im - T * z.re + D = 0 ∧ 2 * z.re * z.im - T * z.im = 0 := by
    intro z
    rw [IsEigval, Complex.ext_iff]
    simp only [Complex.sub_re, Complex.mul_re, Complex.ofReal_re, Complex.sub_im, Complex.mul_im, Complex.ofReal_im,
      Complex.zero_re, Complex.zero_im]
    constructor
    · rintro ⟨h1, h2⟩
      exact ⟨by rw [hT, hD]; linarith, by rw [hT]; linarith⟩
    · rintro ⟨h1, h2⟩
      rw [hT, hD] at h1
      rw [hT] at h2
      exact ⟨by linarith, by linarith⟩
  simp only [key]
  constructor
  · intro h
    by_cases hdisc : 0 ≤ T ^ 2 - 4 * D
    · have hs := Real.sq_sqrt hdisc
      set s := Real.sqrt (T ^ 2 - 4 * D) with hsd
      have hs0 : 0 ≤ s := Real.sqrt_nonneg _
      have hpos : 0 < (T - s) / 2 := by
        by_contra hneg
        refine h ⟨⟨(T - s) / 2, 0⟩, ⟨?_, by simp⟩, ?_⟩
        · simp only; nlinarith
        · rcases lt_or_eq_of_le (not_lt.1 hneg) with h1 | h1
          · exact Or.inl h1
          · exact Or.inr ⟨h1, le_rfl⟩
      have hT0 : 0 < T := by linarith
      exact ⟨hT0, by nlinarith⟩
    · have hs := Real.sq_sqrt (show 0 ≤ 4 * D - T ^ 2 by linarith)
      set s := Real.sqrt (4 * D - T ^ 2) with hsd
      have hs0 : 0 ≤ s := Real.sqrt_nonneg _
      have hT0 : 0 < T := by
        by_contra hneg
        refine h ⟨⟨T / 2, -(s / 2)⟩, ⟨?_, ?_⟩, ?_⟩
        · simp only; nlinarith
        · simp only; ring
        · rcases lt_or_eq_of_le (not_lt.1 hneg) with h1 | h1
          · exact Or.inl (by simp only; linarith)
          · exact Or.inr ⟨by simp only; linarith, by simp only; linarith⟩
      exact ⟨hT0, by nlinarith [sq_nonneg T]⟩
  · rintro ⟨h1, h2⟩ ⟨z, ⟨h3, h4⟩, h5⟩
    have h6 : z.im * (2 * z.re - T) = 0 := by linarith
    rcases mul_eq_zero.1 h6 with h7 | h7
    · rw [h7] at h3
      rcases h5 with h5 | ⟨h5, _⟩
      · nlinarith
      · rw [h5] at h3; linarith
    · rcases h5 with h5 | ⟨h5, _⟩ <;> linarith

/-! ## Theorems -/

/-- **C90.** `hennig1d`. -/
theorem hennig1d_problem : ∃ p, hennig1d = .ok p ∧ PosesToy p 1 fun x => Real.exp (-x 0 ^ 2 - Real.sin (3 * x 0) ^ 2) := by
  refine ⟨_, rfl, rfl, rfl, fun x hx => ?_, by fun_prop⟩
  simp only [hx, one_ne_zero, if_false]
  rfl

/-- `hennig2d` accepts exactly the 2 × 2 arrays with positive trace and determinant, and then the integrand is the documented
one. -/
theorem hennig2d_problem (c : CParam) (hs : c.shape = [2, 2]) (h1 : 0 < c.entry 0 0 + c.entry 1 1)
    (h2 : 0 < c.entry 0 0 * c.entry 1 1 - c.entry 0 1 * c.entry 1 0) :
    ∃ p, hennig2d (some c) = .ok p ∧ p.solution = none ∧ (∀ x : Rows, x.d ≠ 2 → p.fn x = .error .valueError) ∧
      PosesToy p 2 fun x => Real.exp (-quadForm c.entry x - Real.sin (3 * norm2 x ^ 2)) := by
  have hc := (eigvals_check c.entry).2 ⟨h1, h2⟩
  refine ⟨_, by unfold hennig2d; simp only [hs]; rw [if_neg (by simp), if_neg hc], rfl, fun x hx => if_pos hx,
    rfl, rfl, fun x hx => ?_, ?_⟩
  · simp only [hx, ne_eq, not_true_eq_false, if_false, Rows.sq_two hx, norm2_sq]
    congr 2
    funext i
    congr 2
    simp only [quadForm, Fin.sum_univ_two]
    congr 1
    simp
    ring
  · have := norm2_continuous
    unfold quadForm
    fun_prop

/-- For symmetric arrays the check is the documented one: positive definite matrices pass, others raise ValueError. -/
theorem hennig2d_symmetric (c : CParam) (hs : c.shape = [2, 2]) (hsym : c.entry.IsSymm) :
    (c.entry.PosDef → ∃ p, hennig2d (some c) = .ok p) ∧ (¬c.entry.PosDef → hennig2d (some c) = .error .valueError) := by
  have iff : c.entry.PosDef ↔ 0 < c.entry 0 0 + c.entry 1 1 ∧ 0 < c.entry 0 0 * c.entry 1 1 - c.entry 0 1 * c.entry 1 0 := by
    have h10 : c.entry 1 0 = c.entry 0 1 := hsym.apply 0 1
    constructor
    · intro h
      have q : ∀ x : Fin 2 → ℝ, x ≠ 0 → 0 < x 0 * (c.entry 0 0 * x 0 + c.entry 0 1 * x 1) + x 1 * (c.entry 1 0 * x 0 + c.entry 1 1 * x 1) := by
        intro x hx
        have := h.dotProduct_mulVec_pos hx
        simpa [dotProduct, Matrix.mulVec, Fin.sum_univ_two] using this
      have a := q ![1, 0] (fun h => by simpa using congrFun h 0)
      have b := q ![0, 1] (fun h => by simpa using congrFun h 1)
      simp at a b
      have d := q ![-c.entry 0 1, c.entry 0 0] (fun h => a.ne' (by simpa using congrFun h 1))
      simp at d
      rw [h10] at d ⊢
      refine ⟨by linarith, ?_⟩
      have : 0 < c.entry 0 0 * (c.entry 0 0 * c.entry 1 1 - c.entry 0 1 * c.entry 0 1) := by nlinarith
      exact pos_of_mul_pos_right this a.le |>.trans_le le_rfl
    · rintro ⟨h1, h2⟩
      rw [h10] at h2
      have a : 0 < c.entry 0 0 := by nlinarith [sq_nonneg (c.entry 0 1)]
      refine Matrix.PosDef.of_dotProduct_mulVec_pos (by rw [Matrix.IsHermitian, Matrix.conjTranspose_eq_transpose_of_trivial]; exact hsym)
        fun x hx => ?_
      have hq : c.entry 0 0 * (star x ⬝ᵥ (c.entry *ᵥ x)) = (c.entry 0 0 * x 0 + c.entry 0 1 * x 1) ^ 2
          + (c.entry 0 0 * c.entry 1 1 - c.entry 0 1 * c.entry 0 1) * x 1 ^ 2 := by
        simp only [dotProduct, Matrix.mulVec, Fin.sum_univ_two, h10, Pi.star_apply, star_trivial]
        ring
      have : 0 < c.entry 0 0 * (star x ⬝ᵥ (c.entry *ᵥ x)) := by
        rw [hq]
        by_cases hx1 : x 1 = 0
        · have hx0 : x 0 ≠ 0 := fun h => hx (by funext i; fin_cases i; exacts [h, hx1])
          rw [hx1]
          have := mul_ne_zero a.ne' hx0
          simp only [mul_zero, add_zero]
          positivity
        · positivity
      exact pos_of_mul_pos_right this a.le
  constructor
  · intro h
    obtain ⟨p, hp, -⟩ := hennig2d_problem c hs (iff.1 h).1 (iff.1 h).2
    exact ⟨p, hp⟩
  · intro h
    rw [iff, ← eigvals_check, not_not] at h
    unfold hennig2d
    simp only [hs]
    rw [if_neg (by simp), if_pos h]

example : (!![1, 0.5; 0.5, 1] : Matrix (Fin 2) (Fin 2) ℝ).IsSymm := by
  ext i j; fin_cases i <;> fin_cases j <;> rfl

/-- Arrays of other shapes raise ValueError. -/
theorem hennig2d_rejects (c : CParam) (hs : c.shape ≠ [2, 2]) : hennig2d (some c) = .error .valueError := by
  unfold hennig2d
  simp only
  rw [if_pos hs]

/-- The default parameter. -/
theorem hennig2d_default : ∃ p, hennig2d none = .ok p ∧
    PosesToy p 2 fun x => Real.exp (-(x 0 ^ 2 + x 0 * x 1 + x 1 ^ 2) - Real.sin (3 * norm2 x ^ 2)) := by
  obtain ⟨p, h1, -, -, h3⟩ := hennig2d_problem ⟨[2, 2], !![1, 0.5; 0.5, 1]⟩ rfl (by simp) (by simp; norm_num)
  have hc := (eigvals_check !![1, 0.5; 0.5, 1]).2 ⟨by simp, by simp; norm_num⟩
  refine ⟨{ p with solution := some 3.525721820076955 }, ?_, h3.lower, h3.upper, ?_, ?_⟩
  · unfold hennig2d at h1 ⊢
    simp only at h1 ⊢
    rw [if_neg (by simp), if_neg hc] at h1 ⊢
    obtain rfl := Except.ok.inj h1
    rfl
  · intro x hx
    rw [show ({ p with solution := some 3.525721820076955 } : ToyProblem).fn = p.fn from rfl, h3.values x hx]
    congr 2
    funext i
    congr 2
    simp only [quadForm, Fin.sum_univ_two]
    simp
    ring
  · have := norm2_continuous
    fun_prop

/-- The eigenvalues say nothing about a matrix that is not symmetric: `[[1, 4], [0, 1]]` is accepted, but its quadratic form
is negative at `(1, -1)`. -/
theorem hennig2d_indefinite : ∃ (c : CParam) (p : ToyProblem) (x : Fin 2 → ℝ), hennig2d (some c) = .ok p ∧ quadForm c.entry x < 0 := by
  obtain ⟨p, h, -⟩ := hennig2d_problem ⟨[2, 2], !![1, 4; 0, 1]⟩ rfl (by simp) (by simp)
  refine ⟨_, p, ![1, -1], h, ?_⟩
  simp only [quadForm, Fin.sum_univ_two]
  norm_num

/-- **C90.** `sombrero2d`: the documented formula away from the origin, and its limit 1 there, so that the integrand is
continuous. -/
theorem sombrero2d_problem (w : Option ℝ) (hw : 0 < w.getD 1) :
    ∃ p f, sombrero2d w = .ok p ∧ (w ≠ none → p.solution = none) ∧ PosesToy p 2 f ∧ f 0 = 1 ∧
      ∀ x, x ≠ 0 → f x = Real.sin (Real.pi * norm2 x * w.getD 1) / (Real.pi * norm2 x * w.getD 1) := by
  have hv : ∀ r, sinOver r = Real.sinc r := fun r => by rw [sinOver, Real.sinc_apply]
  refine ⟨⟨fun x => .ok ((List.range x.n).map fun i => sinOver (Real.pi * w.getD 1 * Real.sqrt (x.sq i))), [-3, -3], [3, 3],
    if w = none then some 0.85225026427372 else none⟩, fun x => Real.sinc (Real.pi * w.getD 1 * norm2 x), ?_, fun h => if_neg h, ⟨rfl, rfl, fun x hx => ?_, ?_⟩, ?_, ?_⟩
  · unfold sombrero2d
    cases w with
    | none => simp only; rw [if_neg (by norm_num)]; rfl
    | some w => simp only; rw [if_neg (not_le.2 (show 0 < w from hw))]; rfl
  · simp only [hv, sqrt_sq_two hx]
  · exact Real.continuous_sinc.comp (continuous_const.mul norm2_continuous)
  · simp [norm2]
  · intro x hx
    have hn : norm2 x ≠ 0 := by
      intro h0
      have := norm2_sq x
      rw [h0] at this
      apply hx
      have h0 : x 0 = 0 := by nlinarith [sq_nonneg (x 0), sq_nonneg (x 1)]
      have h1 : x 1 = 0 := by nlinarith [sq_nonneg (x 0), sq_nonneg (x 1)]
      funext i
      fin_cases i
      · exact h0
      · exact h1
    beta_reduce
    rw [Real.sinc_of_ne_zero (by have := Real.pi_pos; positivity)]
    rw [show Real.pi * w.getD 1 * norm2 x = Real.pi * norm2 x * w.getD 1 by ring]

/-- **C90.** `circulargaussian2d`. -/
theorem circulargaussian2d_problem (m v : Option ℝ) (hm : 0 ≤ m.getD 0) (hv : 0 < v.getD 1) :
    ∃ p, circulargaussian2d m v = .ok p ∧ (m ≠ none ∨ v ≠ none → p.solution = none) ∧ PosesToy p 2 fun x =>
      (Real.sqrt (2 * Real.pi * v.getD 1))⁻¹ * norm2 x ^ 2 * Real.exp (-((norm2 x - m.getD 0) ^ 2 / (2 * v.getD 1))) := by
  refine ⟨_, by unfold circulargaussian2d; simp only; rw [if_neg (not_lt.2 hm), if_neg (not_le.2 hv)],
    fun h => by cases m <;> cases v <;> simp_all, rfl, rfl, fun x hx => ?_, ?_⟩
  · simp only [sqrt_sq_two hx]
    congr 2
    funext i
    ring
  · have := norm2_continuous
    fun_prop

/-- Parameters outside the documented range raise ValueError. -/
theorem toy_rejects (m v w : ℝ) (h : m < 0 ∨ v ≤ 0) (hw : w ≤ 0) :
    circulargaussian2d (some m) (some v) = .error .valueError ∧ sombrero2d (some w) = .error .valueError := by
  constructor
  · unfold circulargaussian2d
    simp only [Option.getD_some]
    by_cases h1 : m < 0
    · rw [if_pos h1]
    · rw [if_neg h1, if_pos (h.resolve_left h1)]
  · unfold sombrero2d
    simp only
    rw [if_pos hw]

/-- **C90.** The solution that comes with the default circular Gaussian is its integral, up to 1e-14. -/
theorem circulargaussian2d_solution : ∃ p s, circulargaussian2d none none = .ok p ∧ p.solution = some s ∧
    |s - ∫ x in Icc (fun _ : Fin 2 => (-3 : ℝ)) (fun _ => 3),
      (Real.sqrt (2 * Real.pi))⁻¹ * norm2 x ^ 2 * Real.exp (-(norm2 x ^ 2 / 2))| ≤ 1e-14 := by
  refine ⟨_, _, by unfold circulargaussian2d; simp only [Option.getD_none]; rw [if_neg (by norm_num), if_neg (by norm_num)], rfl, ?_⟩
  have hsplit : ∀ x : Fin 2 → ℝ, (Real.sqrt (2 * Real.pi))⁻¹ * norm2 x ^ 2 * Real.exp (-(norm2 x ^ 2 / 2)) =
      (Real.sqrt (2 * Real.pi))⁻¹ * (∏ i, (x i ^ (2 * (if i = 0 then 1 else 0)) * Real.exp (-(x i ^ 2 / 2)))) +
      (Real.sqrt (2 * Real.pi))⁻¹ * (∏ i, (x i ^ (2 * (if i = 0 then 0 else 1)) * Real.exp (-(x i ^ 2 / 2)))) := by
    intro x
    rw [norm2_sq, Fin.prod_univ_two, Fin.prod_univ_two, show -((x 0 ^ 2 + x 1 ^ 2) / 2) = -(x 0 ^ 2 / 2) + -(x 1 ^ 2 / 2) by ring,
      Real.exp_add]
    simp
    ring
  have hb : (fun _ : Fin 2 => (-3 : ℝ)) ≤ fun _ => 3 := fun _ => by norm_num
  have hi : ∀ g : (Fin 2 → ℝ) → ℝ, Continuous g → IntegrableOn g (Icc (fun _ : Fin 2 => (-3 : ℝ)) fun _ => 3) := fun g hg =>
    hg.continuousOn.integrableOn_compact isCompact_Icc
  simp only [hsplit]
  rw [integral_add (hi _ (by fun_prop)) (hi _ (by fun_prop)), integral_const_mul, integral_const_mul,
    Quad.integral_box (fun (i : Fin 2) t => t ^ (2 * (if i = 0 then 1 else 0)) * Real.exp (-(t ^ 2 / 2))) hb,
    Quad.integral_box (fun (i : Fin 2) t => t ^ (2 * (if i = 0 then 0 else 1)) * Real.exp (-(t ^ 2 / 2))) hb,
    Fin.prod_univ_two, Fin.prod_univ_two]
  have e : (Real.sqrt (2 * Real.pi))⁻¹ * (gaussMoment 1 * gaussMoment 0) + (Real.sqrt (2 * Real.pi))⁻¹ * (gaussMoment 0 * gaussMoment 1)
      = 2 * gaussMoment 1 * gaussMoment 0 / Real.sqrt (2 * Real.pi) := by ring
  have := gauss_value
  rw [← e] at this
  exact this

/-- **C90.** The solution that comes with the default sombrero function is its integral, up to 1e-15. -/
theorem sombrero2d_solution : ∃ p s f, sombrero2d none = .ok p ∧ p.solution = some s ∧ PosesToy p 2 f ∧
    (∀ x, x ≠ 0 → f x = Real.sin (Real.pi * norm2 x) / (Real.pi * norm2 x)) ∧
    |s - ∫ x in Icc (fun _ : Fin 2 => (-3 : ℝ)) (fun _ => 3), f x| ≤ 1e-15 := by
  obtain ⟨p, f, h1, -, h3, -, h5⟩ := sombrero2d_problem none (by norm_num)
  have hs : p.solution = some 0.85225026427372 := by
    unfold sombrero2d at h1
    simp only at h1
    rw [if_neg (by norm_num)] at h1
    rw [← Except.ok.inj h1]
  simp only [Option.getD_none, mul_one] at h5
  refine ⟨p, _, f, h1, hs, h3, h5, ?_⟩
  have hae : ∫ x in Icc (fun _ : Fin 2 => (-3 : ℝ)) (fun _ => 3), f x =
      ∫ x in Icc (fun _ : Fin 2 => (-3 : ℝ)) (fun _ => 3), Real.sinc (Real.pi * Real.sqrt (x 0 ^ 2 + x 1 ^ 2)) := by
    refine integral_congr_ae (ae_restrict_of_ae ?_)
    filter_upwards [compl_mem_ae_iff.2 (measure_singleton (0 : Fin 2 → ℝ))] with x hx
    have hx : x ≠ 0 := hx
    have hn : norm2 x ≠ 0 := fun h0 => by
      have := norm2_sq x
      rw [h0] at this
      have h0 : x 0 = 0 := by nlinarith [sq_nonneg (x 0), sq_nonneg (x 1)]
      have h1 : x 1 = 0 := by nlinarith [sq_nonneg (x 0), sq_nonneg (x 1)]
      exact hx (by funext i; fin_cases i; exacts [h0, h1])
    rw [h5 x hx]
    exact (Real.sinc_of_ne_zero (mul_ne_zero Real.pi_ne_zero hn)).symm
  rw [hae]
  exact sombrero_value

/-- **C90.** The solution that comes with `hennig1d` is its integral, up to 1e-13. -/
theorem hennig1d_solution : ∃ p s, hennig1d = .ok p ∧ p.solution = some s ∧
    |s - ∫ x in Icc (fun _ : Fin 1 => (-3 : ℝ)) (fun _ => 3), Real.exp (-x 0 ^ 2 - Real.sin (3 * x 0) ^ 2)| ≤ 1e-13 := by
  refine ⟨_, _, rfl, rfl, ?_⟩
  have h := Quad.integral_box (fun (_ : Fin 1) t => Real.exp (-t ^ 2 - Real.sin (3 * t) ^ 2))
    (show (fun _ : Fin 1 => (-3 : ℝ)) ≤ fun _ => 3 from fun _ => by norm_num)
  simp only [Finset.univ_unique, Finset.prod_singleton, Fin.default_eq_zero] at h
  rw [h]
  exact hennig_value

/-- **C90.** The solution that comes with the default `hennig2d` is its integral, up to 1e-11. -/
theorem hennig2d_solution : ∃ p s, hennig2d none = .ok p ∧ p.solution = some s ∧
    |s - ∫ x in Icc (fun _ : Fin 2 => (-3 : ℝ)) (fun _ => 3),
      Real.exp (-(x 0 ^ 2 + x 0 * x 1 + x 1 ^ 2) - Real.sin (3 * norm2 x ^ 2))| ≤ 1e-11 := by
  obtain ⟨p, h1, -⟩ := hennig2d_default
  have hs : p.solution = some 3.525721820076955 := by
    have hc := (eigvals_check !![1, 0.5; 0.5, 1]).2 ⟨by simp, by simp; norm_num⟩
    unfold hennig2d at h1
    simp only at h1
    rw [if_neg (by simp), if_neg hc] at h1
    rw [← Except.ok.inj h1]
  refine ⟨p, _, h1, hs, ?_⟩
  simp only [norm2_sq]
  exact hennig2_value

end Probnum.Zoo
