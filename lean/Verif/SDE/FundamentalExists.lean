import Mathlib.Analysis.Calculus.SmoothSeries
import Mathlib.Analysis.SpecialFunctions.Integrals.Basic
import Mathlib.Analysis.SpecialFunctions.Exponential
import Verif.SDE.TimeVaryingLemmas

/-!
# Fundamental matrices of linear differential equations exist

The series of Peano and Baker, for continuous coefficients.
-/

namespace Probnum.SDE

open Matrix Set MeasureTheory

variable {n : ℕ} {G : ℝ → Matrix (Fin n) (Fin n) ℝ}

/-- The terms of the Peano-Baker series. -/
noncomputable def peano (G : ℝ → Matrix (Fin n) (Fin n) ℝ) : ℕ → ℝ → Matrix (Fin n) (Fin n) ℝ
  | 0 => fun _ => 1
  | k + 1 => fun t => intM (fun s => G s * peano G k s) 0 t

theorem peano_continuous (hG : Continuous G) : ∀ k, Continuous (peano G k)
  | 0 => continuous_const
  | k + 1 => continuous_matrix fun i j => continuous_iff_continuousAt.2 fun t =>
      (intM_deriv (hG.matrix_mul (peano_continuous hG k)) 0 t i j).continuousAt

theorem peano_deriv (hG : Continuous G) (k : ℕ) (t : ℝ) : MDeriv (peano G (k + 1)) (G t * peano G k t) t :=
  intM_deriv (hG.matrix_mul (peano_continuous hG k)) 0 t

theorem mul_entry_le {A B : Matrix (Fin n) (Fin n) ℝ} {a b : ℝ} (ha : ∀ i j, |A i j| ≤ a) (hb : ∀ i j, |B i j| ≤ b) (h0 : 0 ≤ a)
    (i j : Fin n) : |(A * B) i j| ≤ n * (a * b) := by
  rw [Matrix.mul_apply]
  calc |∑ l, A i l * B l j| ≤ ∑ l, |A i l * B l j| := Finset.abs_sum_le_sum_abs _ _
    _ ≤ ∑ _l : Fin n, a * b := Finset.sum_le_sum fun l _ => by
        rw [abs_mul]
        exact mul_le_mul (ha i l) (hb l j) (abs_nonneg _) h0
    _ = n * (a * b) := by simp

theorem peano_bound (hG : Continuous G) {T M : ℝ} (hM0 : 0 ≤ M) (hM : ∀ s, |s| ≤ T → ∀ i j, |G s i j| ≤ M) (k : ℕ) :
    ∀ t, |t| ≤ T → ∀ i j, |peano G k t i j| ≤ (n * M) ^ k * |t| ^ k / k.factorial := by
  induction k with
  | zero =>
    intro t _ i j
    simp only [peano, Matrix.one_apply]
    split <;> simp
  | succ k ih =>
    intro t ht i j
    have hc : Continuous fun s => (G s * peano G k s) i j := (hG.matrix_mul (peano_continuous hG k)).matrix_elem i j
    have hs : ∀ s ∈ uIoc 0 t, |s| ≤ T := fun s hs => by
      have : |s| ≤ |t| := by
        rcases le_total 0 t with h | h
        · rw [uIoc_of_le h] at hs
          rw [abs_of_nonneg hs.1.le, abs_of_nonneg h]
          exact hs.2
        · rw [uIoc_of_ge h] at hs
          rw [abs_of_nonpos hs.2, abs_of_nonpos h]
          linarith [hs.1]
      exact this.trans ht
    calc |peano G (k + 1) t i j| = ‖∫ s in (0 : ℝ)..t, (G s * peano G k s) i j‖ := rfl
      _ ≤ ∫ s in uIoc 0 t, ‖(G s * peano G k s) i j‖ := intervalIntegral.norm_integral_le_integral_norm_uIoc
      _ ≤ ∫ s in uIoc 0 t, (n * M) ^ (k + 1) / k.factorial * |s - 0| ^ k := by
          refine setIntegral_mono_on ?_ ?_ measurableSet_uIoc fun s hs' => ?_
          · exact (hc.norm.continuousOn.integrableOn_compact isCompact_uIcc).mono_set uIoc_subset_uIcc
          · refine ((Continuous.continuousOn ?_).integrableOn_compact isCompact_uIcc).mono_set uIoc_subset_uIcc
            fun_prop
          · have := mul_entry_le (hM s (hs s hs')) (ih s (hs s hs')) hM0 i j
            rw [Real.norm_eq_abs]
            refine this.trans (le_of_eq ?_)
            rw [sub_zero, pow_succ]
            ring
      _ = (n * M) ^ (k + 1) * |t| ^ (k + 1) / (k + 1).factorial := by
          rw [integral_const_mul, integral_pow_abs_sub_uIoc, sub_zero, Nat.factorial_succ]
          have : ((k : ℝ) + 1) ≠ 0 := by positivity
          have : (k.factorial : ℝ) ≠ 0 := by positivity
          push_cast
          field_simp

theorem exists_entry_bound (hG : Continuous G) (T : ℝ) : ∃ M, 0 ≤ M ∧ ∀ s, |s| ≤ T → ∀ i j, |G s i j| ≤ M := by
  have hc : Continuous fun s => ∑ i, ∑ j, |G s i j| :=
    continuous_finsetSum _ fun i _ => continuous_finsetSum _ fun j _ => (hG.matrix_elem i j).abs
  obtain ⟨C, hC⟩ := (isCompact_Icc (a := -T) (b := T)).exists_bound_of_continuousOn hc.continuousOn
  refine ⟨max C 0, le_max_right _ _, fun s hs i j => le_max_of_le_left ?_⟩
  refine le_trans ?_ ((le_abs_self _).trans (hC s (abs_le.1 hs)))
  calc |G s i j| ≤ ∑ j, |G s i j| := Finset.single_le_sum (f := fun j => |G s i j|) (fun _ _ => abs_nonneg _) (Finset.mem_univ j)
    _ ≤ ∑ i, ∑ j, |G s i j| := Finset.single_le_sum (f := fun i => ∑ j, |G s i j|)
        (fun _ _ => Finset.sum_nonneg fun _ _ => abs_nonneg _) (Finset.mem_univ i)

theorem peano_summable (hG : Continuous G) (t : ℝ) (i j : Fin n) : Summable fun k => peano G k t i j := by
  obtain ⟨M, hM0, hM⟩ := exists_entry_bound hG |t|
  refine Summable.of_norm_bounded (Real.summable_pow_div_factorial (n * M * |t|)) fun k => ?_
  rw [Real.norm_eq_abs, mul_pow]
  exact peano_bound hG hM0 hM k t le_rfl i j

/-- The sum of the series. -/
noncomputable def peanoSum (G : ℝ → Matrix (Fin n) (Fin n) ℝ) (t : ℝ) : Matrix (Fin n) (Fin n) ℝ :=
  Matrix.of fun i j => ∑' k, peano G k t i j

theorem peanoSum_zero (G : ℝ → Matrix (Fin n) (Fin n) ℝ) : peanoSum G 0 = 1 := by
  ext i j
  simp only [peanoSum, Matrix.of_apply]
  rw [tsum_eq_single 0 fun k hk => ?_]
  · rfl
  · obtain ⟨k, rfl⟩ := Nat.exists_eq_succ_of_ne_zero hk
    simp [peano, intM]

theorem peanoSum_deriv (hG : Continuous G) (t : ℝ) : MDeriv (peanoSum G) (G t * peanoSum G t) t := by
  intro i j
  set T := |t| + 1 with hT
  obtain ⟨M, hM0, hM⟩ := exists_entry_bound hG T
  have hmem : ∀ y ∈ Ioo (-T) T, |y| ≤ T := fun y hy => (abs_lt.2 hy).le
  have ht : t ∈ Ioo (-T) T := abs_lt.1 (by simp [hT])
  let g' : ℕ → ℝ → ℝ := fun k y => match k with
    | 0 => 0
    | k + 1 => (G y * peano G k y) i j
  let u : ℕ → ℝ := fun k => match k with
    | 0 => 0
    | k + 1 => n * M * ((n * M * T) ^ k / k.factorial)
  have hu : Summable u := by
    rw [← summable_nat_add_iff 1]
    exact (Real.summable_pow_div_factorial (n * M * T)).mul_left _
  have h := hasDerivAt_tsum_of_isPreconnected (g := fun k y => peano G k y i j) (g' := g') hu isOpen_Ioo isPreconnected_Ioo
    (fun k y _ => by
      cases k with
      | zero => exact hasDerivAt_const y _
      | succ k => exact peano_deriv hG k y i j)
    (fun k y hy => by
      cases k with
      | zero => simp [g', u]
      | succ k =>
        have h1 := mul_entry_le (hM y (hmem y hy)) (peano_bound hG hM0 hM k y (hmem y hy)) hM0 i j
        refine h1.trans ?_
        show n * (M * ((n * M) ^ k * |y| ^ k / k.factorial)) ≤ n * M * ((n * M * T) ^ k / k.factorial)
        rw [mul_pow (n * M) T k, ← mul_assoc]
        have h2 : |y| ^ k ≤ T ^ k := pow_le_pow_left₀ (abs_nonneg y) (hmem y hy) k
        have h3 : 0 ≤ (n : ℝ) * M := mul_nonneg (Nat.cast_nonneg n) hM0
        refine mul_le_mul_of_nonneg_left ?_ h3
        gcongr)
    ht (peano_summable hG t i j) ht
  refine HasDerivAt.congr_deriv h ?_
  have hs : ∀ l, Summable fun k => G t i l * peano G k t l j := fun l => (peano_summable hG t l j).mul_left _
  have hs' : Summable fun k => (G t * peano G k t) i j := by
    simp only [Matrix.mul_apply]
    exact summable_sum fun l _ => hs l
  have hg : Summable fun k => g' k t := (summable_nat_add_iff 1).1 hs'
  rw [hg.tsum_eq_zero_add]
  simp only [g', zero_add, Matrix.mul_apply, peanoSum, Matrix.of_apply]
  rw [Summable.tsum_finsetSum fun l _ => hs l]
  exact Finset.sum_congr rfl fun l _ => tsum_mul_left

/-- Fundamental matrices exist for continuous coefficients. -/
theorem exists_fundamental_matrix (hG : Continuous G) :
    ∃ Ψ : ℝ → Matrix (Fin n) (Fin n) ℝ, (∀ t, MDeriv Ψ (G t * Ψ t) t) ∧ ∀ t, (Ψ t).det ≠ 0 := by
  have hG' : Continuous fun t => -(G t)ᵀ := hG.matrix_transpose.neg
  refine ⟨peanoSum G, peanoSum_deriv hG, fun t h0 => ?_⟩
  have hd : ∀ t, MDeriv (fun t => (peanoSum (fun t => -(G t)ᵀ) t)ᵀ * peanoSum G t) 0 t := fun t => by
    refine ((peanoSum_deriv hG' t).transpose.mul (peanoSum_deriv hG t)).congr ?_
    simp [Matrix.mul_assoc]
  have h1 := eq_of_MDeriv_zero hd t
  simp only [peanoSum_zero, Matrix.transpose_one, Matrix.one_mul] at h1
  have h2 := congrArg Matrix.det h1
  rw [Matrix.det_mul, h0, mul_zero, Matrix.det_one] at h2
  exact zero_ne_one h2

end Probnum.SDE
