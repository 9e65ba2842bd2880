import Verif.Zoo.EmukitLemmas
import Verif.Quad.PropsMatern
import Mathlib.Analysis.SpecialFunctions.Trigonometric.Sinc
import Mathlib.Analysis.SpecialFunctions.Trigonometric.Deriv
import Mathlib.Data.Nat.Choose.Sum

/-!
# Enclosures of the integral of the sombrero function by Taylor polynomials
-/

namespace Probnum.Zoo

open Finset MeasureTheory

/-- The Taylor polynomial of the sine with `n` terms. -/
noncomputable def sinTaylor (n : ℕ) (x : ℝ) : ℝ := ∑ k ∈ range n, (-1) ^ k * x ^ (2 * k + 1) / ((2 * k + 1).factorial : ℝ)

/-- The Taylor polynomial of the cosine with `n` terms. -/
noncomputable def cosTaylor (n : ℕ) (x : ℝ) : ℝ := ∑ k ∈ range n, (-1) ^ k * x ^ (2 * k) / ((2 * k).factorial : ℝ)

/-- The Taylor polynomial of `sin x / x` with `n` terms, as a function of `x²`. -/
noncomputable def sincTaylor (n : ℕ) (u : ℝ) : ℝ := ∑ k ∈ range n, (-1) ^ k * u ^ k / ((2 * k + 1).factorial : ℝ)

theorem sinTaylor_deriv (n : ℕ) (x : ℝ) : HasDerivAt (sinTaylor n) (cosTaylor n x) x := by
  have h : ∀ k ∈ range n, HasDerivAt (fun x : ℝ => (-1) ^ k * x ^ (2 * k + 1) / ((2 * k + 1).factorial : ℝ))
      ((-1) ^ k * (((2 * k + 1 : ℕ) : ℝ) * x ^ (2 * k)) / ((2 * k + 1).factorial : ℝ)) x := fun k _ =>
    ((hasDerivAt_pow (2 * k + 1) x).const_mul _).div_const _
  refine (HasDerivAt.fun_sum h).congr_deriv (sum_congr rfl fun k _ => ?_)
  rw [Nat.factorial_succ]
  have : (((2 * k).factorial : ℕ) : ℝ) ≠ 0 := by exact_mod_cast (2 * k).factorial_ne_zero
  have h1 : (((2 * k + 1 : ℕ)) : ℝ) ≠ 0 := by positivity
  push_cast at h1 ⊢
  field_simp

theorem cosTaylor_deriv (n : ℕ) (x : ℝ) : HasDerivAt (cosTaylor (n + 1)) (-sinTaylor n x) x := by
  have h : ∀ k ∈ range (n + 1), HasDerivAt (fun x : ℝ => (-1) ^ k * x ^ (2 * k) / ((2 * k).factorial : ℝ))
      ((-1) ^ k * (((2 * k : ℕ) : ℝ) * x ^ (2 * k - 1)) / ((2 * k).factorial : ℝ)) x := fun k _ =>
    ((hasDerivAt_pow (2 * k) x).const_mul _).div_const _
  refine (HasDerivAt.fun_sum h).congr_deriv ?_
  rw [sum_range_succ', sinTaylor, ← sum_neg_distrib]
  simp only [mul_zero, Nat.cast_zero, zero_mul, zero_div, add_zero]
  refine sum_congr rfl fun k _ => ?_
  rw [show 2 * (k + 1) = 2 * k + 1 + 1 by ring, Nat.factorial_succ (2 * k + 1), Nat.add_sub_cancel]
  have : (((2 * k + 1).factorial : ℕ) : ℝ) ≠ 0 := by exact_mod_cast (2 * k + 1).factorial_ne_zero
  have h1 : (((2 * k + 1 + 1 : ℕ)) : ℝ) ≠ 0 := by positivity
  push_cast at h1 ⊢
  field_simp
  ring

theorem nonneg_of_deriv {f g : ℝ → ℝ} (hd : ∀ v, HasDerivAt f (g v) v) (h0 : f 0 = 0) (hg : ∀ v, 0 ≤ v → 0 ≤ g v)
    {x : ℝ} (hx : 0 ≤ x) : 0 ≤ f x := by
  have hm : MonotoneOn f (Set.Ici 0) := by
    refine monotoneOn_of_deriv_nonneg (convex_Ici 0) (fun v _ => (hd v).continuousAt.continuousWithinAt)
      (fun v _ => (hd v).differentiableAt.differentiableWithinAt) fun v hv => ?_
    rw [(hd v).deriv]
    exact hg v (by simpa using interior_subset hv)
  have := hm (Set.mem_Ici.2 le_rfl) (Set.mem_Ici.2 hx) hx
  rwa [h0] at this

/-- The Taylor polynomials enclose the cosine and the sine. -/
theorem trigTaylor_sign : ∀ n : ℕ,
    (∀ x : ℝ, 0 ≤ x → 0 ≤ (-1) ^ (n + 1) * (Real.cos x - cosTaylor (n + 1) x)) ∧
      ∀ x : ℝ, 0 ≤ x → 0 ≤ (-1) ^ (n + 1) * (Real.sin x - sinTaylor (n + 1) x) := by
  have hs : ∀ n, (∀ x : ℝ, 0 ≤ x → 0 ≤ (-1) ^ (n + 1) * (Real.cos x - cosTaylor (n + 1) x)) →
      ∀ x : ℝ, 0 ≤ x → 0 ≤ (-1) ^ (n + 1) * (Real.sin x - sinTaylor (n + 1) x) := fun n h x hx => by
    refine nonneg_of_deriv (f := fun x => (-1) ^ (n + 1) * (Real.sin x - sinTaylor (n + 1) x)) (fun v =>
      ((Real.hasDerivAt_sin v).sub (sinTaylor_deriv (n + 1) v)).const_mul _) ?_ h hx
    simp [sinTaylor]
  intro n
  induction n with
  | zero =>
    have : ∀ x : ℝ, 0 ≤ x → 0 ≤ (-1) ^ (0 + 1) * (Real.cos x - cosTaylor (0 + 1) x) := fun x _ => by
      simp [cosTaylor, Real.cos_le_one]
    exact ⟨this, hs 0 this⟩
  | succ n ih =>
    have : ∀ x : ℝ, 0 ≤ x → 0 ≤ (-1) ^ (n + 1 + 1) * (Real.cos x - cosTaylor (n + 1 + 1) x) := fun x hx => by
      refine nonneg_of_deriv (f := fun x => (-1) ^ (n + 1 + 1) * (Real.cos x - cosTaylor (n + 1 + 1) x))
        (g := fun v => (-1) ^ (n + 1) * (Real.sin v - sinTaylor (n + 1) v)) (fun v => ?_) ?_ ih.2 hx
      · refine (((Real.hasDerivAt_cos v).sub (cosTaylor_deriv (n + 1) v)).const_mul _).congr_deriv ?_
        rw [pow_succ _ (n + 1)]; ring
      · have : cosTaylor (n + 1 + 1) 0 = 1 := by
          rw [cosTaylor, sum_range_succ']
          simp
        rw [this]; simp
    exact ⟨this, hs (n + 1) this⟩

theorem sinTaylor_eq (n : ℕ) (x : ℝ) : sinTaylor n x = x * sincTaylor n (x ^ 2) := by
  rw [sinTaylor, sincTaylor, mul_sum]
  refine sum_congr rfl fun k _ => ?_
  rw [pow_succ, pow_mul]; ring

theorem sincTaylor_bounds (m : ℕ) {x : ℝ} (hx : 0 ≤ x) :
    sincTaylor (2 * (m + 1)) (x ^ 2) ≤ Real.sinc x ∧ Real.sinc x ≤ sincTaylor (2 * m + 1) (x ^ 2) := by
  rcases hx.eq_or_lt with h | h
  · subst h
    have h0 : ∀ n, sincTaylor (n + 1) (0 ^ 2) = 1 := fun n => by
      rw [sincTaylor, sum_range_succ']
      simp
    rw [Real.sinc_zero, show 2 * (m + 1) = 2 * m + 1 + 1 by ring, h0, h0]
    exact ⟨le_rfl, le_rfl⟩
  · rw [Real.sinc_of_ne_zero h.ne', le_div_iff₀ h, div_le_iff₀ h, mul_comm _ x, mul_comm _ x, ← sinTaylor_eq, ← sinTaylor_eq]
    have h1 := (trigTaylor_sign (2 * m + 1)).2 x hx
    have h2 := (trigTaylor_sign (2 * m)).2 x hx
    rw [show 2 * m + 1 + 1 = 2 * (m + 1) by ring, pow_mul] at h1
    rw [pow_succ, pow_mul] at h2
    norm_num at h1 h2
    exact ⟨h1, h2⟩

/-- The integral of `(x² + y²)^k` over `[-3, 3]²`. -/
def squareMoment (k : ℕ) : ℚ :=
  ∑ j ∈ range (k + 1), (2 * 3 ^ (2 * j + 1) / (2 * j + 1)) * (2 * 3 ^ (2 * (k - j) + 1) / (2 * (k - j : ℕ) + 1)) * (k.choose j : ℚ)

theorem squareMoment_nonneg (k : ℕ) : 0 ≤ squareMoment k := sum_nonneg fun j _ => by positivity

theorem integral_even_pow (p : ℕ) : ∫ t in (-3 : ℝ)..3, t ^ (2 * p) = 2 * 3 ^ (2 * p + 1) / (2 * p + 1) := by
  rw [integral_pow, Odd.neg_pow ⟨p, rfl⟩]
  push_cast
  ring

theorem box3 : (fun _ : Fin 2 => (-3 : ℝ)) ≤ fun _ => 3 := fun _ => by norm_num

theorem integrable_box3 {g : (Fin 2 → ℝ) → ℝ} (hg : Continuous g) : IntegrableOn g (Set.Icc (fun _ : Fin 2 => (-3 : ℝ)) fun _ => 3) :=
  hg.continuousOn.integrableOn_compact isCompact_Icc

theorem integral_square (k : ℕ) :
    ∫ x in Set.Icc (fun _ : Fin 2 => (-3 : ℝ)) (fun _ => 3), (x 0 ^ 2 + x 1 ^ 2) ^ k = squareMoment k := by
  have e : ∀ x : Fin 2 → ℝ, (x 0 ^ 2 + x 1 ^ 2) ^ k =
      ∑ j ∈ range (k + 1), (∏ i, x i ^ (2 * (if i = 0 then j else k - j))) * (k.choose j : ℝ) := fun x => by
    rw [add_pow]
    refine sum_congr rfl fun j _ => ?_
    rw [Fin.prod_univ_two, ← pow_mul, ← pow_mul]
    simp
  simp only [e]
  rw [integral_finset_sum _ fun j _ => integrable_box3 (by fun_prop), squareMoment]
  push_cast
  refine sum_congr rfl fun j hj => ?_
  rw [integral_mul_const, Quad.integral_box (fun (i : Fin 2) t => t ^ (2 * (if i = 0 then j else k - j))) box3, Fin.prod_univ_two,
    if_pos rfl, if_neg (by decide), integral_even_pow, integral_even_pow]

/-- The integral of the Taylor polynomial. -/
theorem integral_sincTaylor (n : ℕ) (q : ℝ) :
    ∫ x in Set.Icc (fun _ : Fin 2 => (-3 : ℝ)) (fun _ => 3), sincTaylor n (q * (x 0 ^ 2 + x 1 ^ 2)) =
      ∑ k ∈ range n, (-1) ^ k * q ^ k * ((squareMoment k / ((2 * k + 1).factorial : ℚ) : ℚ) : ℝ) := by
  have e : ∀ x : Fin 2 → ℝ, sincTaylor n (q * (x 0 ^ 2 + x 1 ^ 2)) =
      ∑ k ∈ range n, (-1) ^ k * q ^ k / ((2 * k + 1).factorial : ℝ) * (x 0 ^ 2 + x 1 ^ 2) ^ k := fun x => by
    rw [sincTaylor]
    refine sum_congr rfl fun k _ => ?_
    rw [mul_pow]; ring
  simp only [e]
  rw [integral_finset_sum _ fun k _ => integrable_box3 (by fun_prop)]
  refine sum_congr rfl fun k _ => ?_
  rw [integral_const_mul, integral_square]
  push_cast
  ring

/-- A bound for the alternating sum in which the even powers of `π²` are replaced by powers of `a²`, the odd ones by powers
of `b²`. -/
def sombreroSum (n : ℕ) (a b : ℚ) : ℚ :=
  ∑ k ∈ range n, if k % 2 = 0 then a ^ (2 * k) * (squareMoment k / ((2 * k + 1).factorial : ℚ))
    else -(b ^ (2 * k) * (squareMoment k / ((2 * k + 1).factorial : ℚ)))

def piLow : ℚ := 314159265358979323846 / 100000000000000000000
def piHigh : ℚ := 314159265358979323847 / 100000000000000000000

theorem sombreroSum_le (n : ℕ) {a b q : ℝ} {a' b' : ℚ} (ha' : (a' : ℝ) = a) (hb' : (b' : ℝ) = b) (ha : 0 ≤ a) (h1 : a ≤ q) (h2 : q ≤ b) :
    (sombreroSum n a' b' : ℝ) ≤ ∑ k ∈ range n, (-1) ^ k * (q ^ 2) ^ k * ((squareMoment k / ((2 * k + 1).factorial : ℚ) : ℚ) : ℝ) ∧
    ∑ k ∈ range n, (-1) ^ k * (q ^ 2) ^ k * ((squareMoment k / ((2 * k + 1).factorial : ℚ) : ℚ) : ℝ) ≤ (sombreroSum n b' a' : ℝ) := by
  have hc : ∀ k, (0 : ℝ) ≤ ((squareMoment k / ((2 * k + 1).factorial : ℚ) : ℚ) : ℝ) := fun k => by
    exact_mod_cast div_nonneg (squareMoment_nonneg k) (by positivity)
  subst ha' hb'
  rw [sombreroSum, sombreroSum, Rat.cast_sum, Rat.cast_sum]
  have hq : 0 ≤ q := ha.trans h1
  constructor
  · refine sum_le_sum fun k _ => ?_
    rw [← pow_mul]
    by_cases h : k % 2 = 0
    · rw [if_pos h, Even.neg_one_pow (Nat.even_iff.2 h), one_mul, Rat.cast_mul, Rat.cast_pow]
      exact mul_le_mul_of_nonneg_right (pow_le_pow_left₀ ha h1 _) (hc k)
    · rw [if_neg h, Odd.neg_one_pow (Nat.odd_iff.2 (by omega)), Rat.cast_neg, Rat.cast_mul, Rat.cast_pow, neg_one_mul, neg_mul]
      exact neg_le_neg (mul_le_mul_of_nonneg_right (pow_le_pow_left₀ hq h2 _) (hc k))
  · refine sum_le_sum fun k _ => ?_
    rw [← pow_mul]
    by_cases h : k % 2 = 0
    · rw [if_pos h, Even.neg_one_pow (Nat.even_iff.2 h), one_mul, Rat.cast_mul, Rat.cast_pow]
      exact mul_le_mul_of_nonneg_right (pow_le_pow_left₀ hq h2 _) (hc k)
    · rw [if_neg h, Odd.neg_one_pow (Nat.odd_iff.2 (by omega)), Rat.cast_neg, Rat.cast_mul, Rat.cast_pow, neg_one_mul, neg_mul]
      exact neg_le_neg (mul_le_mul_of_nonneg_right (pow_le_pow_left₀ ha h1 _) (hc k))

set_option maxRecDepth 100000 in
theorem sombreroSum_low : 85225026427372 / 100000000000000 - 1 / 1000000000000000 ≤ sombreroSum (2 * (16 + 1)) piLow piHigh := by
  decide +kernel

set_option maxRecDepth 100000 in
theorem sombreroSum_high : sombreroSum (2 * 16 + 1) piHigh piLow ≤ 85225026427372 / 100000000000000 + 1 / 1000000000000000 := by
  decide +kernel

theorem sombrero_value : |0.85225026427372 - ∫ x in Set.Icc (fun _ : Fin 2 => (-3 : ℝ)) (fun _ => 3),
    Real.sinc (Real.pi * Real.sqrt (x 0 ^ 2 + x 1 ^ 2))| ≤ 1e-15 := by
  have hb : ∀ m, ∀ x : Fin 2 → ℝ,
      sincTaylor (2 * (m + 1)) (Real.pi ^ 2 * (x 0 ^ 2 + x 1 ^ 2)) ≤ Real.sinc (Real.pi * Real.sqrt (x 0 ^ 2 + x 1 ^ 2)) ∧
        Real.sinc (Real.pi * Real.sqrt (x 0 ^ 2 + x 1 ^ 2)) ≤ sincTaylor (2 * m + 1) (Real.pi ^ 2 * (x 0 ^ 2 + x 1 ^ 2)) := fun m x => by
    have h := sincTaylor_bounds m (x := Real.pi * Real.sqrt (x 0 ^ 2 + x 1 ^ 2)) (by have := Real.pi_pos; positivity)
    rwa [mul_pow, Real.sq_sqrt (by positivity)] at h
  have c1 : Continuous fun x : Fin 2 → ℝ => Real.sinc (Real.pi * Real.sqrt (x 0 ^ 2 + x 1 ^ 2)) :=
    Real.continuous_sinc.comp (by fun_prop)
  have c2 : ∀ n, Continuous fun x : Fin 2 → ℝ => sincTaylor n (Real.pi ^ 2 * (x 0 ^ 2 + x 1 ^ 2)) := fun n => by
    unfold sincTaylor
    fun_prop
  have l1 := integral_mono (integrable_box3 (c2 (2 * (16 + 1)))) (integrable_box3 c1) fun x => (hb 16 x).1
  have l2 := integral_mono (integrable_box3 c1) (integrable_box3 (c2 (2 * 16 + 1))) fun x => (hb 16 x).2
  rw [integral_sincTaylor] at l1 l2
  have p0 : ((piLow : ℚ) : ℝ) = 3.14159265358979323846 := by norm_num [piLow]
  have p1 : ((piHigh : ℚ) : ℝ) = 3.14159265358979323847 := by norm_num [piHigh]
  have s1 := (sombreroSum_le (2 * (16 + 1)) p0 p1 (by norm_num) Real.pi_gt_d20.le Real.pi_lt_d20.le).1
  have s2 := (sombreroSum_le (2 * 16 + 1) p0 p1 (by norm_num) Real.pi_gt_d20.le Real.pi_lt_d20.le).2
  have n1 : ((85225026427372 / 100000000000000 - 1 / 1000000000000000 : ℚ) : ℝ) ≤ (sombreroSum (2 * (16 + 1)) piLow piHigh : ℝ) := by
    exact_mod_cast sombreroSum_low
  have n2 : (sombreroSum (2 * 16 + 1) piHigh piLow : ℝ) ≤ ((85225026427372 / 100000000000000 + 1 / 1000000000000000 : ℚ) : ℝ) := by
    exact_mod_cast sombreroSum_high
  have g1 := (n1.trans s1).trans l1
  have g2 := (l2.trans s2).trans n2
  push_cast at g1 g2
  rw [abs_sub_le_iff]
  norm_num at g1 g2 ⊢
  constructor <;> linarith

end Probnum.Zoo
