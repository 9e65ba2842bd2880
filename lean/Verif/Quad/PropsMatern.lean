import Verif.Quad.MaternLemmas
import Mathlib.MeasureTheory.Integral.Pi
import Mathlib.MeasureTheory.Measure.Lebesgue.Basic
import Mathlib.MeasureTheory.Constructions.Pi
import Mathlib.Tactic.FinCases

/-!
# Kernel means and variances of Matérn kernels are the integrals they claim to be (C43)
-/

namespace Probnum.Quad

open Probnum.Cov MeasureTheory

/-- The smoothness parameters for which the library has kernel embeddings. -/
def Supported (m : Matern1) : Prop := m.nu = 1 / 2 ∨ m.nu = 3 / 2 ∨ m.nu = 5 / 2 ∨ m.nu = 7 / 2

theorem p_half (m : Matern1) (n : ℕ) (h : m.nu = n + 1 / 2) : m.p = some n := by
  have e : m.nu - 1 / 2 = (n : ℚ) := by rw [h]; ring
  rw [Matern1.p, e]
  simp

theorem value_half {m : Matern1} {n : ℕ} (h : m.nu = n + 1 / 2) (x0 x1 : ℝ) :
    m.value x0 x1 = some (matern1 n m.ell x0 x1) := by
  rw [Matern1.value, p_half m n h]
  rfl

/-- The kernel and its two integrals in one dimension. -/
theorem matern_embedding {m : Matern1} (hm : Supported m) (hl : 0 < m.ell) : ∃ k : ℝ → ℝ → ℝ, Continuous (fun z : ℝ × ℝ => k z.1 z.2) ∧
    (∀ x0 x1, m.value x0 x1 = some (k x0 x1)) ∧
    (∀ a b x, a ≤ x → x ≤ b → kernelMean1 x m a b = .ok (∫ t in a..b, k t x)) ∧
    (∀ a b, a ≤ b → kernelVariance1 m a b = .ok (∫ x in a..b, ∫ t in a..b, k t x)) := by
  have hl' := hl.ne'
  rcases hm with h | h | h | h
  · have hs : Real.sqrt (2 * (0 : ℕ) + 1) / m.ell ≠ 0 := by positivity
    have hk : ∀ t x : ℝ, matern1 0 m.ell t x = cubicExp 1 0 0 0 (Real.sqrt (2 * (0 : ℕ) + 1) / m.ell) |t - x| := fun t x => by
      rw [matern1_eq 0 hl, matern_cubic coeffs0]
    refine ⟨matern1 0 m.ell, ?_, fun x0 x1 => value_half (by rw [h]; norm_num) _ _, fun a b x h1 h2 => ?_, fun a b hab => ?_⟩
    · simp only [hk]
      exact (cubicExp_continuous _ _ _ _ _).comp (by fun_prop)
    · simp only [hk]
      rw [cubic_mean (q0 := 1) (q1 := 0) (q2 := 0) hs (by norm_num) (by norm_num) (by norm_num) h1 h2, kernelMean1, if_pos h]
      congr 1
      simp only [cubicExp, Nat.cast_zero, mul_zero, zero_add, Real.sqrt_one]
      rw [show (a - x) / m.ell = -(1 / m.ell * (x - a)) by ring, show (x - b) / m.ell = -(1 / m.ell * (b - x)) by ring]
      field_simp
      ring
    · simp only [hk]
      rw [cubic_variance (q0 := 1) (q1 := 0) (q2 := 0) (w0 := 1) (w1 := 0) (w2 := 0) hs (by norm_num) (by norm_num)
        (by norm_num) (by norm_num) (by norm_num) (by norm_num) hab, kernelVariance1]
      dsimp only
      rw [if_pos h]
      congr 1
      simp only [cubicExp, Nat.cast_zero, mul_zero, zero_add, Real.sqrt_one]
      rw [show -(b - a) / m.ell = -(1 / m.ell * (b - a)) by ring]
      field_simp
      ring
  · have e3 : Real.sqrt (2 * (1 : ℕ) + 1) = Real.sqrt 3 := by norm_num
    have q2 : Real.sqrt 3 ^ 2 = 3 := Real.sq_sqrt (by norm_num)
    have hs : Real.sqrt 3 / m.ell ≠ 0 := by positivity
    have hk : ∀ t x : ℝ, matern1 1 m.ell t x = cubicExp 1 1 0 0 (Real.sqrt 3 / m.ell) |t - x| := fun t x => by
      rw [matern1_eq 1 hl, matern_cubic coeffs1, e3]
    have p0 : Real.sqrt 3 ≠ 0 := by positivity
    refine ⟨matern1 1 m.ell, ?_, fun x0 x1 => value_half (by rw [h]; norm_num) _ _, fun a b x h1 h2 => ?_, fun a b hab => ?_⟩
    · simp only [hk]
      exact (cubicExp_continuous _ _ _ _ _).comp (by fun_prop)
    · simp only [hk]
      rw [cubic_mean (q0 := 2) (q1 := 1) (q2 := 0) hs (by norm_num) (by norm_num) (by norm_num) h1 h2, kernelMean1,
        if_neg (by rw [h]; norm_num), if_pos h]
      congr 1
      simp only [cubicExp]
      rw [show Real.sqrt 3 * (a - x) / m.ell = -(Real.sqrt 3 / m.ell * (x - a)) by ring,
        show Real.sqrt 3 * (x - b) / m.ell = -(Real.sqrt 3 / m.ell * (b - x)) by ring]
      generalize Real.exp _ = E1
      generalize Real.exp _ = E2
      generalize Real.sqrt 3 = c at *
      have hi : c⁻¹ = c / 3 := by field_simp; linarith
      have q3 : c ^ 3 = 3 * c := by rw [pow_succ, q2]
      have q4 : c ^ 4 = 3 * 3 := by rw [show c ^ 4 = c ^ 2 * c ^ 2 by ring, q2]
      simp only [div_eq_mul_inv, mul_inv, inv_inv, hi]
      field_simp
      ring_nf
      simp only [q2, q3, q4]
      ring
    · simp only [hk]
      rw [cubic_variance (q0 := 2) (q1 := 1) (q2 := 0) (w0 := 3) (w1 := 1) (w2 := 0) hs (by norm_num) (by norm_num)
        (by norm_num) (by norm_num) (by norm_num) (by norm_num) hab, kernelVariance1]
      dsimp only
      rw [if_neg (by rw [h]; norm_num), if_pos h]
      congr 1
      simp only [cubicExp]
      rw [show -(Real.sqrt 3 * (b - a)) / m.ell = -(Real.sqrt 3 / m.ell * (b - a)) by ring]
      generalize Real.exp _ = E1
      generalize Real.sqrt 3 = c at *
      have hi : c⁻¹ = c / 3 := by field_simp; linarith
      have q3 : c ^ 3 = 3 * c := by rw [pow_succ, q2]
      have q4 : c ^ 4 = 3 * 3 := by rw [show c ^ 4 = c ^ 2 * c ^ 2 by ring, q2]
      have q5 : c ^ 5 = 3 * 3 * c := by rw [show c ^ 5 = c ^ 2 * c ^ 2 * c by ring, q2]
      simp only [div_eq_mul_inv, mul_inv, inv_inv, hi, ← inv_pow, mul_pow]
      field_simp
      ring_nf
      simp only [q2, q3, q4, q5]
      ring
  · have e5 : Real.sqrt (2 * (2 : ℕ) + 1) = Real.sqrt 5 := by norm_num
    have q2 : Real.sqrt 5 ^ 2 = 5 := Real.sq_sqrt (by norm_num)
    have hs : Real.sqrt 5 / m.ell ≠ 0 := by positivity
    have hk : ∀ t x : ℝ, matern1 2 m.ell t x = cubicExp 1 1 (1 / 3) 0 (Real.sqrt 5 / m.ell) |t - x| := fun t x => by
      rw [matern1_eq 2 hl, matern_cubic coeffs2, e5]
    have p0 : Real.sqrt 5 ≠ 0 := by positivity
    refine ⟨matern1 2 m.ell, ?_, fun x0 x1 => value_half (by rw [h]; norm_num) _ _, fun a b x h1 h2 => ?_, fun a b hab => ?_⟩
    · simp only [hk]
      exact (cubicExp_continuous _ _ _ _ _).comp (by fun_prop)
    · simp only [hk]
      rw [cubic_mean (q0 := 8 / 3) (q1 := 5 / 3) (q2 := 1 / 3) hs (by norm_num) (by norm_num) (by norm_num) h1 h2, kernelMean1,
        if_neg (by rw [h]; norm_num), if_neg (by rw [h]; norm_num), if_pos h]
      congr 1
      simp only [cubicExp]
      rw [show Real.sqrt 5 * (a - x) / m.ell = -(Real.sqrt 5 / m.ell * (x - a)) by ring,
        show Real.sqrt 5 * (x - b) / m.ell = -(Real.sqrt 5 / m.ell * (b - x)) by ring]
      generalize Real.exp _ = E1
      generalize Real.exp _ = E2
      generalize Real.sqrt 5 = c at *
      have hi : c⁻¹ = c / 5 := by field_simp; linarith
      have q3 : c ^ 3 = 5 * c := by rw [pow_succ, q2]
      have q4 : c ^ 4 = 5 * 5 := by rw [show c ^ 4 = c ^ 2 * c ^ 2 by ring, q2]
      simp only [div_eq_mul_inv, mul_inv, inv_inv, hi]
      field_simp
      ring_nf
      simp only [q2, q3, q4]
      ring
    · simp only [hk]
      rw [cubic_variance (q0 := 8 / 3) (q1 := 5 / 3) (q2 := 1 / 3) (w0 := 5) (w1 := 7 / 3) (w2 := 1 / 3) hs (by norm_num) (by norm_num)
        (by norm_num) (by norm_num) (by norm_num) (by norm_num) hab, kernelVariance1]
      dsimp only
      rw [if_neg (by rw [h]; norm_num), if_neg (by rw [h]; norm_num), if_pos h]
      congr 1
      simp only [cubicExp]
      rw [show -(Real.sqrt 5 * (b - a)) / m.ell = -(Real.sqrt 5 / m.ell * (b - a)) by ring]
      generalize Real.exp _ = E1
      generalize Real.sqrt 5 = c at *
      have hi : c⁻¹ = c / 5 := by field_simp; linarith
      have q3 : c ^ 3 = 5 * c := by rw [pow_succ, q2]
      have q4 : c ^ 4 = 5 * 5 := by rw [show c ^ 4 = c ^ 2 * c ^ 2 by ring, q2]
      have q5 : c ^ 5 = 5 * 5 * c := by rw [show c ^ 5 = c ^ 2 * c ^ 2 * c by ring, q2]
      simp only [div_eq_mul_inv, mul_inv, inv_inv, hi, ← inv_pow, mul_pow]
      field_simp
      ring_nf
      simp only [q2, q3, q4, q5]
      ring
  · have e7 : Real.sqrt (2 * (3 : ℕ) + 1) = Real.sqrt 7 := by norm_num
    have q2 : Real.sqrt 7 ^ 2 = 7 := Real.sq_sqrt (by norm_num)
    have hs : Real.sqrt 7 / m.ell ≠ 0 := by positivity
    have hk : ∀ t x : ℝ, matern1 3 m.ell t x = cubicExp 1 1 (2 / 5) (1 / 15) (Real.sqrt 7 / m.ell) |t - x| := fun t x => by
      rw [matern1_eq 3 hl, matern_cubic coeffs3, e7]
    have p0 : Real.sqrt 7 ≠ 0 := by positivity
    refine ⟨matern1 3 m.ell, ?_, fun x0 x1 => value_half (by rw [h]; norm_num) _ _, fun a b x h1 h2 => ?_, fun a b hab => ?_⟩
    · simp only [hk]
      exact (cubicExp_continuous _ _ _ _ _).comp (by fun_prop)
    · simp only [hk]
      rw [cubic_mean (q0 := 16 / 5) (q1 := 11 / 5) (q2 := 3 / 5) hs (by norm_num) (by norm_num) (by norm_num) h1 h2, kernelMean1,
        if_neg (by rw [h]; norm_num), if_neg (by rw [h]; norm_num), if_neg (by rw [h]; norm_num), if_pos h]
      congr 1
      simp only [cubicExp]
      rw [show Real.sqrt 7 * (a - x) / m.ell = -(Real.sqrt 7 / m.ell * (x - a)) by ring,
        show Real.sqrt 7 * (x - b) / m.ell = -(Real.sqrt 7 / m.ell * (b - x)) by ring]
      generalize Real.exp _ = E1
      generalize Real.exp _ = E2
      generalize Real.sqrt 7 = c at *
      have hi : c⁻¹ = c / 7 := by field_simp; linarith
      have q3 : c ^ 3 = 7 * c := by rw [pow_succ, q2]
      have q4 : c ^ 4 = 7 * 7 := by rw [show c ^ 4 = c ^ 2 * c ^ 2 by ring, q2]
      simp only [div_eq_mul_inv, mul_inv, inv_inv, hi]
      field_simp
      ring_nf
      simp only [q2, q3, q4]
      ring
    · simp only [hk]
      rw [cubic_variance (q0 := 16 / 5) (q1 := 11 / 5) (q2 := 3 / 5) (w0 := 7) (w1 := 19 / 5) (w2 := 4 / 5) hs (by norm_num) (by norm_num)
        (by norm_num) (by norm_num) (by norm_num) (by norm_num) hab, kernelVariance1]
      dsimp only
      rw [if_neg (by rw [h]; norm_num), if_neg (by rw [h]; norm_num), if_neg (by rw [h]; norm_num), if_pos h]
      congr 1
      simp only [cubicExp]
      rw [show -(Real.sqrt 7 * (b - a)) / m.ell = -(Real.sqrt 7 / m.ell * (b - a)) by ring]
      generalize Real.exp _ = E1
      generalize Real.sqrt 7 = c at *
      have hi : c⁻¹ = c / 7 := by field_simp; linarith
      have q3 : c ^ 3 = 7 * c := by rw [pow_succ, q2]
      have q4 : c ^ 4 = 7 * 7 := by rw [show c ^ 4 = c ^ 2 * c ^ 2 by ring, q2]
      have q5 : c ^ 5 = 7 * 7 * c := by rw [show c ^ 5 = c ^ 2 * c ^ 2 * c by ring, q2]
      simp only [div_eq_mul_inv, mul_inv, inv_inv, hi, ← inv_pow, mul_pow]
      field_simp
      ring_nf
      simp only [q2, q3, q4, q5]
      ring

/-! ## Products over dimensions -/

theorem prodLoop_ok {dim : ℕ} {f : Fin dim → Res ℝ} {g : Fin dim → ℝ} (h : ∀ i, f i = .ok (g i)) :
    ∀ (is : List (Fin dim)) (acc : ℝ), prodLoop f is acc = .ok (acc * (is.map g).prod)
  | [], acc => by simp [prodLoop]
  | i :: is, acc => by
    rw [prodLoop, h i]
    dsimp only
    rw [prodLoop_ok h is, List.map_cons, List.prod_cons, mul_assoc]

theorem prodLoop_error {dim : ℕ} {f : Fin dim → Res ℝ} {e : PyErr} (h : ∀ i, (∃ v, f i = .ok v) ∨ f i = .error e) :
    ∀ (is : List (Fin dim)) (acc : ℝ), (∃ i ∈ is, f i = .error e) → prodLoop f is acc = .error e
  | [], _, ⟨_, hi, _⟩ => by cases hi
  | i :: is, acc, ⟨j, hj, hf⟩ => by
    rw [prodLoop]
    rcases h i with ⟨v, hv⟩ | hv
    · rw [hv]
      rcases List.mem_cons.1 hj with rfl | hj
      · rw [hf] at hv; cases hv
      · exact prodLoop_error h is _ ⟨j, hj, hf⟩
    · rw [hv]

theorem productValue_eq {dim : ℕ} {ms : Fin dim → Matern1} {k : Fin dim → ℝ → ℝ → ℝ}
    (h : ∀ i x0 x1, (ms i).value x0 x1 = some (k i x0 x1)) (x0 x1 : Fin dim → ℝ) :
    productValue ms x0 x1 = some (∏ i, k i (x0 i) (x1 i)) := by
  have : ∀ (is : List (Fin dim)) (acc : ℝ), is.foldl (fun acc i => acc.bind fun u =>
      ((ms i).value (x0 i) (x1 i)).map fun v => u * v) (some acc) = some (acc * (is.map fun i => k i (x0 i) (x1 i)).prod) := by
    intro is
    induction is with
    | nil => intro acc; simp
    | cons i is ih =>
      intro acc
      rw [List.foldl_cons, h i, Option.bind_some, Option.map_some, ih, List.map_cons, List.prod_cons, mul_assoc]
  rw [productValue, this, one_mul, Fin.prod_univ_def]

theorem integral_box {dim : ℕ} (f : Fin dim → ℝ → ℝ) {a b : Fin dim → ℝ} (h : a ≤ b) :
    ∫ t in Set.Icc a b, ∏ i, f i (t i) = ∏ i, ∫ t in (a i)..(b i), f i t := by
  rw [← Set.pi_univ_Icc, volume_pi, Measure.restrict_pi_pi, integral_fintype_prod_eq_prod]
  refine Finset.prod_congr rfl fun i _ => ?_
  rw [intervalIntegral.integral_of_le (h i), integral_Icc_eq_integral_Ioc]

/-- **C43.** The kernel mean and the kernel variance of a product Matérn kernel with smoothness parameters among 1/2, 3/2,
5/2, 7/2 in every dimension, on every box: they are the integrals of the kernel over the box, times the normalization
constant of the measure once resp. twice. -/
theorem matern_product_embedding {dim : ℕ} {ms : Fin dim → Matern1} (hm : ∀ i, Supported (ms i)) (hl : ∀ i, 0 < (ms i).ell)
    {a b : Fin dim → ℝ} (hab : a ≤ b) (c : ℝ) : ∃ k : (Fin dim → ℝ) → (Fin dim → ℝ) → ℝ,
    (∀ x0 x1, productValue ms x0 x1 = some (k x0 x1)) ∧
    (∀ x ∈ Set.Icc a b, kernelMean (.product ms) a b c x = .ok (c * ∫ t in Set.Icc a b, k t x)) ∧
    kernelVariance (.product ms) a b c = .ok (c ^ 2 * ∫ x in Set.Icc a b, ∫ t in Set.Icc a b, k t x) := by
  choose k _ hv h1 h2 using fun i => matern_embedding (hm i) (hl i)
  refine ⟨fun x0 x1 => ∏ i, k i (x0 i) (x1 i), productValue_eq hv, fun x hx => ?_, ?_⟩
  · rw [kernelMean, dif_pos rfl, convertToProduct]
    dsimp only [Fin.cast_eq_self]
    rw [kernelMeanProduct, prodLoop_ok (fun i => h1 i _ _ _ (hx.1 i) (hx.2 i))]
    dsimp only
    rw [one_mul, ← Fin.prod_univ_def, integral_box (fun i t => k i t (x i)) hab]
  · rw [kernelVariance, dif_pos rfl, convertToProduct]
    dsimp only [Fin.cast_eq_self]
    rw [kernelVarianceProduct, prodLoop_ok (fun i => h2 i _ _ (hab i))]
    dsimp only
    have e : ∀ x : Fin dim → ℝ, ∫ t in Set.Icc a b, ∏ i, k i (t i) (x i) = ∏ i, ∫ t in (a i)..(b i), k i t (x i) := fun x =>
      integral_box (fun i t => k i t (x i)) hab
    simp only [e]
    rw [one_mul, ← Fin.prod_univ_def, integral_box (fun i x => ∫ t in (a i)..(b i), k i t x) hab]

/-- **C43.** The same for a one-dimensional Matérn kernel. -/
theorem matern_1d_embedding {nu : ℚ} {l : ℝ} (hm : Supported ⟨nu, l⟩) (hl : 0 < l) {a b : Fin 1 → ℝ} (hab : a ≤ b) (c : ℝ) :
    ∃ k : ℝ → ℝ → ℝ, (∀ x0 x1, (⟨nu, l⟩ : Matern1).value x0 x1 = some (k x0 x1)) ∧
    (∀ x ∈ Set.Icc a b, kernelMean (.matern (.inl l) nu) a b c x = .ok (c * ∫ t in (a 0)..(b 0), k t (x 0))) ∧
    kernelVariance (dim := 1) (.matern (.inl l) nu) a b c =
      .ok (c ^ 2 * ∫ x in (a 0)..(b 0), ∫ t in (a 0)..(b 0), k t x) := by
  obtain ⟨k, _, hv, h1, h2⟩ := matern_embedding hm hl
  refine ⟨k, hv, fun x hx => ?_, ?_⟩
  · rw [kernelMean, dif_pos rfl, convertToProduct, if_neg (by omega)]
    dsimp only [Fin.cast_eq_self]
    rw [kernelMeanProduct, prodLoop_ok (fun i => h1 _ _ _ (hx.1 i) (hx.2 i))]
    dsimp only
    rw [one_mul, ← Fin.prod_univ_def, Fin.prod_univ_one]
  · rw [kernelVariance, dif_pos rfl, convertToProduct, if_neg (by omega)]
    dsimp only [Fin.cast_eq_self]
    rw [kernelVarianceProduct, prodLoop_ok (fun i => h2 _ _ (hab i))]
    dsimp only
    rw [one_mul, ← Fin.prod_univ_def, Fin.prod_univ_one]

/-- **C43.** A Matérn kernel has a positive smoothness and a positive lengthscale; other parameters are refused. -/
theorem matern_accepts (nu : ℚ) (l : ℝ) :
    (∀ m, Matern1.mk? nu l = .ok m ↔ m = ⟨nu, l⟩ ∧ 0 < nu ∧ 0 < l) ∧
      (nu ≤ 0 ∨ l ≤ 0 → Matern1.mk? nu l = .error .valueError) := by
  rw [Matern1.mk?]
  by_cases h1 : nu ≤ 0
  · rw [if_pos h1]
    exact ⟨fun m => ⟨fun h => (by cases h), fun h => absurd h.2.1 (not_lt.2 h1)⟩, fun _ => rfl⟩
  · rw [if_neg h1]
    by_cases h2 : l ≤ 0
    · rw [if_pos h2]
      exact ⟨fun m => ⟨fun h => (by cases h), fun h => absurd h.2.2 (not_lt.2 h2)⟩, fun _ => rfl⟩
    · rw [if_neg h2]
      exact ⟨fun m => ⟨fun h => by cases h; exact ⟨rfl, not_le.1 h1, not_le.1 h2⟩, fun h => by rw [h.1]⟩,
        fun h => absurd h (by tauto)⟩

theorem mean1_unsupported {m : Matern1} (hm : ¬Supported m) (x a b : ℝ) :
    kernelMean1 x m a b = .error .notImplementedError := by
  simp only [Supported, not_or] at hm
  rw [kernelMean1, if_neg hm.1, if_neg hm.2.1, if_neg hm.2.2.1, if_neg hm.2.2.2]

theorem variance1_unsupported {m : Matern1} (hm : ¬Supported m) (a b : ℝ) :
    kernelVariance1 m a b = .error .notImplementedError := by
  simp only [Supported, not_or] at hm
  rw [kernelVariance1]
  dsimp only
  rw [if_neg hm.1, if_neg hm.2.1, if_neg hm.2.2.1, if_neg hm.2.2.2]

theorem mean1_total (x : ℝ) (m : Matern1) (a b : ℝ) :
    (∃ v, kernelMean1 x m a b = .ok v) ∨ kernelMean1 x m a b = .error .notImplementedError := by
  rw [kernelMean1]
  split
  · exact .inl ⟨_, rfl⟩
  split
  · exact .inl ⟨_, rfl⟩
  split
  · exact .inl ⟨_, rfl⟩
  split
  · exact .inl ⟨_, rfl⟩
  · exact .inr rfl

theorem variance1_total (m : Matern1) (a b : ℝ) :
    (∃ v, kernelVariance1 m a b = .ok v) ∨ kernelVariance1 m a b = .error .notImplementedError := by
  rw [kernelVariance1]
  dsimp only
  split
  · exact .inl ⟨_, rfl⟩
  split
  · exact .inl ⟨_, rfl⟩
  split
  · exact .inl ⟨_, rfl⟩
  split
  · exact .inl ⟨_, rfl⟩
  · exact .inr rfl

/-- **C43.** Anything else is rejected: other smoothness parameters and Matérn kernels in more than one dimension with
`NotImplementedError`, mismatched dimensions with `ValueError`. -/
theorem matern_embedding_rejects {dim dim' : ℕ} (c : ℝ) (a b : Fin dim → ℝ) (a' b' : Fin dim' → ℝ) (x : Fin dim → ℝ) :
    (∀ ms : Fin dim → Matern1, (∃ i, ¬Supported (ms i)) →
      kernelMean (.product ms) a b c x = .error .notImplementedError ∧
      kernelVariance (.product ms) a b c = .error .notImplementedError) ∧
    (∀ ls nu, 1 < dim → kernelMean (.matern ls nu) a b c x = .error .notImplementedError ∧
      kernelVariance (.matern ls nu : MKernel dim) a b c = .error .notImplementedError) ∧
    (dim ≠ dim' → ∀ k : MKernel dim, kernelMean k a' b' c x = .error .valueError ∧
      kernelVariance k a' b' c = .error .valueError) := by
  refine ⟨fun ms ⟨i, hi⟩ => ⟨?_, ?_⟩, fun ls nu hd => ⟨?_, ?_⟩, fun hd k => ⟨?_, ?_⟩⟩
  · rw [kernelMean, dif_pos rfl, convertToProduct]
    dsimp only
    rw [kernelMeanProduct, prodLoop_error (fun i => mean1_total _ _ _ _) _ _ ⟨i, List.mem_finRange i, mean1_unsupported hi _ _ _⟩]
  · rw [kernelVariance, dif_pos rfl, convertToProduct]
    dsimp only
    rw [kernelVarianceProduct, prodLoop_error (fun i => variance1_total _ _ _) _ _
      ⟨i, List.mem_finRange i, variance1_unsupported hi _ _⟩]
  · rw [kernelMean, dif_pos rfl, convertToProduct.eq_def]
    dsimp only
    rw [if_pos hd]
  · rw [kernelVariance, dif_pos rfl, convertToProduct.eq_def]
    dsimp only
    rw [if_pos hd]
  · rw [kernelMean, dif_neg hd]
  · rw [kernelVariance, dif_neg hd]

theorem foldl_prod {dim : ℕ} (f : Fin dim → ℝ) : (List.finRange dim).foldl (fun acc i => acc * f i) 1 = ∏ i, f i := by
  have : ∀ (is : List (Fin dim)) (acc : ℝ), is.foldl (fun acc i => acc * f i) acc = acc * (is.map f).prod := by
    intro is
    induction is with
    | nil => intro acc; simp
    | cons i is ih => intro acc; rw [List.foldl_cons, ih, List.map_cons, List.prod_cons, mul_assoc]
  rw [this, one_mul, Fin.prod_univ_def]

/-- **C43.** A normalized Lebesgue measure on a box with non-empty interior has total mass 1; an unnormalized one has
constant 1. -/
theorem lebesgue_normalized {dim : ℕ} {a b : Fin dim → ℝ} (hab : ∀ i, a i < b i) :
    lebesgueConstant a b false = .ok 1 ∧
    ∃ c, lebesgueConstant a b true = .ok c ∧ 0 < c ∧ c * (volume (Set.Icc a b)).toReal = 1 := by
  have hp : 0 < ∏ i, (b i - a i) := Finset.prod_pos fun i _ => sub_pos.2 (hab i)
  refine ⟨rfl, 1 / ∏ i, (b i - a i), ?_, by positivity, ?_⟩
  · rw [lebesgueConstant, if_pos rfl]
    dsimp only
    rw [foldl_prod, if_neg hp.ne']
  · rw [Real.volume_Icc_pi_toReal (fun i => (hab i).le)]
    field_simp

/-- A concrete case: two dimensions, different smoothness parameters. -/
example : (∀ i, Supported ((![⟨1 / 2, 2⟩, ⟨7 / 2, 1 / 3⟩] : Fin 2 → Matern1) i)) ∧
    (∀ i, 0 < ((![⟨1 / 2, 2⟩, ⟨7 / 2, 1 / 3⟩] : Fin 2 → Matern1) i).ell) ∧ (![0, -1] : Fin 2 → ℝ) ≤ ![1, 4] := by
  refine ⟨fun i => ?_, fun i => ?_, fun i => ?_⟩ <;> fin_cases i <;> norm_num [Supported]

end Probnum.Quad
