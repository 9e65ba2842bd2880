import Verif.Cov.BesselLemmas
import Verif.Cov.KernelLemmas
import Mathlib.Analysis.Matrix.Order
import Mathlib.Analysis.SpecialFunctions.Gamma.Basic
import Mathlib.Analysis.SpecialFunctions.Exponential

/-!
# Positive semidefinite covariance functions
-/

namespace Probnum.Cov

open Finset MeasureTheory Filter Topology

/-- A function of two points is a covariance function: at any finitely many points (repetitions allowed) its matrix is
symmetric positive semidefinite. -/
def IsPSD {α : Type} (k : α → α → ℝ) : Prop :=
  ∀ (n : ℕ) (X : Fin n → α), (Matrix.of fun a b => k (X a) (X b)).PosSemidef

theorem isPSD_iff {α : Type} {k : α → α → ℝ} : IsPSD k ↔ (∀ x y, k x y = k y x) ∧
    ∀ (n : ℕ) (X : Fin n → α) (c : Fin n → ℝ), 0 ≤ ∑ a, ∑ b, c a * c b * k (X a) (X b) := by
  have e : ∀ (n : ℕ) (X : Fin n → α) (c : Fin n → ℝ),
      star c ⬝ᵥ (Matrix.of fun a b => k (X a) (X b)).mulVec c = ∑ a, ∑ b, c a * c b * k (X a) (X b) := by
    intro n X c
    simp only [dotProduct, Matrix.mulVec, Matrix.of_apply, Finset.mul_sum, Pi.star_apply, star_trivial]
    exact Finset.sum_congr rfl fun a _ => Finset.sum_congr rfl fun b _ => by ring
  constructor
  · intro h
    refine ⟨fun x y => ?_, fun n X c => ?_⟩
    · have := (h 2 ![x, y]).isHermitian.apply 0 1
      simpa using this.symm
    · rw [← e]; exact (h n X).dotProduct_mulVec_nonneg c
  · rintro ⟨hs, hq⟩ n X
    refine Matrix.PosSemidef.of_dotProduct_mulVec_nonneg ?_ fun c => ?_
    · ext a b
      simp [Matrix.conjTranspose_apply, hs (X b) (X a)]
    · rw [e]; exact hq n X c

theorem IsPSD.congr {α : Type} {k l : α → α → ℝ} (h : IsPSD k) (e : ∀ x y, l x y = k x y) : IsPSD l := by
  have : l = k := funext fun x => funext fun y => e x y
  rw [this]; exact h

theorem IsPSD.add {α : Type} {k l : α → α → ℝ} (hk : IsPSD k) (hl : IsPSD l) : IsPSD fun x y => k x y + l x y :=
  fun n X => (hk n X).add (hl n X)

theorem IsPSD.mul {α : Type} {k l : α → α → ℝ} (hk : IsPSD k) (hl : IsPSD l) : IsPSD fun x y => k x y * l x y :=
  fun n X => (hk n X).hadamard (hl n X)

theorem IsPSD.smul {α : Type} {k : α → α → ℝ} (hk : IsPSD k) {c : ℝ} (hc : 0 ≤ c) : IsPSD fun x y => c * k x y :=
  fun n X => (hk n X).smul hc

theorem IsPSD.rankOne {α : Type} (f : α → ℝ) : IsPSD fun x y => f x * f y := by
  intro n X
  have := Matrix.posSemidef_vecMulVec_self_star (fun a => f (X a))
  exact this

theorem IsPSD.const {α : Type} {c : ℝ} (hc : 0 ≤ c) : IsPSD fun _ _ : α => c :=
  ((IsPSD.rankOne fun _ : α => Real.sqrt c)).congr fun _ _ => (Real.mul_self_sqrt hc).symm

theorem IsPSD.sum {α : Type} {k : ℕ → α → α → ℝ} (h : ∀ j, IsPSD (k j)) : ∀ n, IsPSD fun x y => ∑ j ∈ range n, k j x y
  | 0 => (IsPSD.const le_rfl).congr fun _ _ => by simp
  | n + 1 => ((IsPSD.sum h n).add (h n)).congr fun _ _ => by rw [sum_range_succ]

theorem IsPSD.prod {α : Type} {k : ℕ → α → α → ℝ} : ∀ {n : ℕ}, (∀ j < n, IsPSD (k j)) → IsPSD fun x y => ∏ j ∈ range n, k j x y
  | 0, _ => (IsPSD.const zero_le_one).congr fun _ _ => by simp
  | n + 1, h => ((IsPSD.prod (n := n) fun j hj => h j (by omega)).mul (h n (by omega))).congr fun _ _ => by rw [prod_range_succ]

theorem IsPSD.pow {α : Type} {k : α → α → ℝ} (hk : IsPSD k) : ∀ n : ℕ, IsPSD fun x y => k x y ^ n
  | 0 => (IsPSD.const zero_le_one).congr fun _ _ => by simp
  | n + 1 => ((hk.pow n).mul hk).congr fun _ _ => by rw [pow_succ]

theorem IsPSD.limit {α : Type} {K : ℕ → α → α → ℝ} {k : α → α → ℝ} (h : ∀ n, IsPSD (K n))
    (ht : ∀ x y, Tendsto (fun n => K n x y) atTop (𝓝 (k x y))) : IsPSD k := by
  rw [isPSD_iff]
  refine ⟨fun x y => ?_, fun n X c => ?_⟩
  · refine tendsto_nhds_unique (ht x y) ((ht y x).congr fun n => ?_)
    exact (isPSD_iff.mp (h n)).1 y x
  · refine ge_of_tendsto' (x := atTop) (f := fun N => ∑ a, ∑ b, c a * c b * K N (X a) (X b)) ?_
      fun N => (isPSD_iff.mp (h N)).2 n X c
    exact tendsto_finsetSum _ fun a _ => tendsto_finsetSum _ fun b _ => (ht _ _).const_mul _

theorem IsPSD.exp {α : Type} {k : α → α → ℝ} (hk : IsPSD k) : IsPSD fun x y => Real.exp (k x y) := by
  refine IsPSD.limit (K := fun N x y => ∑ j ∈ range N, (j.factorial : ℝ)⁻¹ * k x y ^ j) (fun N => ?_) fun x y => ?_
  · exact IsPSD.sum (k := fun j x y => (j.factorial : ℝ)⁻¹ * k x y ^ j) (fun j => (hk.pow j).smul (by positivity)) N
  · have := (NormedSpace.exp_series_hasSum_exp' (𝕂 := ℝ) (k x y)).tendsto_sum_nat
    rw [← Real.exp_eq_exp_ℝ] at this
    simpa [smul_eq_mul] using this

theorem IsPSD.integral {α : Type} {S : Set ℝ} (hS : MeasurableSet S) {K : ℝ → α → α → ℝ} (h : ∀ s ∈ S, IsPSD (K s))
    (hi : ∀ x y, IntegrableOn (fun s => K s x y) S) : IsPSD fun x y => ∫ s in S, K s x y := by
  rw [isPSD_iff]
  refine ⟨fun x y => setIntegral_congr_fun hS fun s hs => (isPSD_iff.mp (h s hs)).1 x y, fun n X c => ?_⟩
  have e : ∑ a, ∑ b, c a * c b * ∫ s in S, K s (X a) (X b) = ∫ s in S, ∑ a, ∑ b, c a * c b * K s (X a) (X b) := by
    rw [integral_finset_sum _ fun a _ => integrable_finset_sum _ fun b _ => (hi (X a) (X b)).const_mul _]
    refine Finset.sum_congr rfl fun a _ => ?_
    rw [integral_finset_sum _ fun b _ => (hi (X a) (X b)).const_mul _]
    exact Finset.sum_congr rfl fun b _ => (integral_const_mul _ _).symm
  rw [e]
  exact setIntegral_nonneg hS fun s hs => (isPSD_iff.mp (h s hs)).2 n X c

theorem IsPSD.expSq {α : Type} {g : ℝ} (hg : 0 ≤ g) (φ : α → ℝ) : IsPSD fun x y => Real.exp (-(g * (φ x - φ y) ^ 2)) := by
  have h := (IsPSD.rankOne fun x => Real.exp (-(g * φ x ^ 2))).mul (((IsPSD.rankOne φ).smul (mul_nonneg zero_le_two hg)).exp)
  refine h.congr fun x y => ?_
  rw [← Real.exp_add, ← Real.exp_add]
  congr 1
  ring

/-- The exponentiated quadratic in finitely many features. -/
theorem IsPSD.gaussian {α : Type} {g : ℝ} (hg : 0 ≤ g) (φ : ℕ → α → ℝ) (N : ℕ) :
    IsPSD fun x y => Real.exp (-(g * ∑ j ∈ range N, (φ j x - φ j y) ^ 2)) := by
  refine (IsPSD.prod (k := fun j x y => Real.exp (-(g * (φ j x - φ j y) ^ 2))) (n := N) fun j _ => IsPSD.expSq hg (φ j)).congr fun x y => ?_
  rw [← Real.exp_sum, mul_sum, sum_neg_distrib]

/-- The rational quadratic in finitely many features. -/
theorem IsPSD.ratQuad {α : Type} {g a : ℝ} (hg : 0 ≤ g) (ha : 0 < a) (φ : ℕ → α → ℝ) (N : ℕ) :
    IsPSD fun x y => (1 + g * ∑ j ∈ range N, (φ j x - φ j y) ^ 2) ^ (-a) := by
  have hD : ∀ x y, 0 < 1 + g * ∑ j ∈ range N, (φ j x - φ j y) ^ 2 := fun x y => by
    have : 0 ≤ g * ∑ j ∈ range N, (φ j x - φ j y) ^ 2 := mul_nonneg hg (sum_nonneg fun _ _ => sq_nonneg _)
    linarith
  have hval := fun x y => Real.integral_rpow_mul_exp_neg_mul_Ioi ha (hD x y)
  have hG := Real.Gamma_pos_of_pos ha
  have h := IsPSD.integral (α := α) (S := Set.Ioi 0) measurableSet_Ioi
    (K := fun t x y => t ^ (a - 1) * Real.exp (-((1 + g * ∑ j ∈ range N, (φ j x - φ j y) ^ 2) * t))) (fun t ht => ?_) fun x y => ?_
  · refine (h.smul (inv_pos.mpr hG).le).congr fun x y => ?_
    rw [hval, one_div, Real.inv_rpow (hD x y).le, Real.rpow_neg (hD x y).le]
    field_simp
  · have ht' : (0 : ℝ) < t := ht
    refine ((IsPSD.gaussian (mul_nonneg ht'.le hg) φ N).smul (c := t ^ (a - 1) * Real.exp (-t))
      (mul_nonneg (Real.rpow_nonneg ht'.le _) (Real.exp_pos _).le)).congr fun x y => ?_
    rw [mul_assoc, ← Real.exp_add]
    congr 2
    ring
  · refine Integrable.of_integral_ne_zero ?_
    rw [hval]
    have := Real.rpow_pos_of_pos (one_div_pos.mpr (hD x y)) a
    positivity

/-- The Matérn covariance function of the distance in finitely many features. -/
theorem IsPSD.matern {α : Type} {ν : ℝ} (hν : 0 < ν) {c : ℝ} (hc : 0 ≤ c) (φ : ℕ → α → ℝ) (N : ℕ) :
    IsPSD fun x y => maternDoc ν (c * Real.sqrt (∑ j ∈ range N, (φ j x - φ j y) ^ 2)) := by
  have hq : ∀ x y, 0 ≤ ∑ j ∈ range N, (φ j x - φ j y) ^ 2 := fun x y => sum_nonneg fun _ _ => sq_nonneg _
  have hK : ∀ t ∈ Set.Ioi (0 : ℝ), IsPSD fun x y => mixG ν (c * Real.sqrt (∑ j ∈ range N, (φ j x - φ j y) ^ 2)) t := by
    intro t ht
    have ht' : (0 : ℝ) < t := ht
    have hg : 0 ≤ c ^ 2 / (4 * t) := by positivity
    have hw : 0 ≤ t ^ (ν - 1) * Real.exp (-t) := mul_nonneg (Real.rpow_nonneg ht'.le _) (Real.exp_pos _).le
    refine ((IsPSD.gaussian hg φ N).smul hw).congr fun x y => ?_
    rw [mixG, mul_assoc, ← Real.exp_add, mul_pow, Real.sq_sqrt (hq x y)]
    congr 2
    ring
  have h := IsPSD.integral measurableSet_Ioi hK fun x y => integrable_mixG hν _
  exact (h.smul (inv_pos.mpr (Real.Gamma_pos_of_pos hν)).le).congr fun x y =>
    maternDoc_mixture hν (mul_nonneg hc (Real.sqrt_nonneg _))

open Classical in
/-- Variance `v` at equal features and no covariance otherwise. -/
theorem IsPSD.whiteNoise {α β : Type} {v : ℝ} (hv : 0 ≤ v) (φ : α → β) : IsPSD fun x y => if φ x = φ y then v else 0 := by
  rw [isPSD_iff]
  refine ⟨fun x y => by simp only [eq_comm], fun n X c => ?_⟩
  let T := Finset.univ.image fun a => φ (X a)
  have e : ∑ a, ∑ b, c a * c b * (if φ (X a) = φ (X b) then v else 0) =
      ∑ t ∈ T, v * (∑ a ∈ univ.filter (fun a => φ (X a) = t), c a) ^ 2 := by
    rw [← Finset.sum_fiberwise_of_maps_to (s := univ) (t := T) (g := fun a => φ (X a)) fun a _ => Finset.mem_image_of_mem _ (mem_univ a)]
    refine Finset.sum_congr rfl fun t _ => ?_
    rw [pow_two, Finset.sum_mul_sum, Finset.mul_sum]
    refine Finset.sum_congr rfl fun a ha => ?_
    have hta : φ (X a) = t := (Finset.mem_filter.mp ha).2
    rw [Finset.mul_sum, Finset.sum_filter]
    refine Finset.sum_congr rfl fun b _ => ?_
    rw [hta]
    by_cases hb : φ (X b) = t
    · rw [if_pos hb.symm, if_pos hb]; ring
    · rw [if_neg (Ne.symm hb), if_neg hb, mul_zero]
  rw [e]
  exact sum_nonneg fun t _ => mul_nonneg hv (sq_nonneg _)

end Probnum.Cov
