import Verif.Zoo.QuadGauss
import Verif.Zoo.QuadGaussLemmas
import Verif.Zoo.PropsQuad
import Verif.Quad.PropsExpQuad

/-!
# C75: the solution that comes with a Gaussian quadrature test problem is the expectation of its integrand

The specification (`Denotes`, `Coeffs`, `Orders`) only speaks about arguments; the theorems are about expectations over
arbitrary normal random vectors with the mean and covariance of the problem's measure.
-/

namespace Probnum.Zoo

open MeasureTheory Set Matrix ProbabilityTheory
open scoped Nat

/-! ## Specification -/

/-- The vector that an argument denotes according to the documentation: `d` copies of a scalar, or the array itself. -/
def Denotes (d : ℕ) (arg : Quad.MeanArg) (v : Fin d → ℝ) : Prop := (∃ c, arg = .scalar c ∧ v = fun _ => c) ∨ arg = .vec d v

/-- The argument is a scalar. -/
def IsScalar (arg : Quad.MeanArg) : Prop := ∃ c, arg = .scalar c

/-- The coefficients that the optional argument `a` denotes in a sum of `p` terms: ones, the given rows, or one given row for
all terms. -/
def Coeffs (p d : ℕ) (a : Option Points) (A : Fin p → Fin d → ℝ) : Prop :=
  (a = none ∧ ∀ r c, A r c = 1) ∨ (∃ q, a = some q ∧ q.shape = [p, d] ∧ ∀ (r : Fin p) (c : Fin d), q.entry r c = A r c) ∨
    ∃ q, a = some q ∧ q.shape = [1, d] ∧ ∀ r (c : Fin d), q.entry 0 c = A r c

/-- The orders that the optional argument `b` denotes. -/
def Orders (p d : ℕ) (b : Option IntArray) (B : Fin p → Fin d → ℕ) : Prop :=
  (b = none ∧ ∀ r c, B r c = 1) ∨ (∃ q, b = some q ∧ q.shape = [p, d] ∧ ∀ (r : Fin p) (c : Fin d), q.entry r c = B r c) ∨
    ∃ q, b = some q ∧ q.shape = [1, d] ∧ ∀ r (c : Fin d), q.entry 0 c = B r c

/-- The number of terms is one, or one of the arguments has as many rows as there are terms. -/
def Terms (p : ℕ) (a : Option Points) (b : Option IntArray) : Prop :=
  p = 1 ∨ (∃ q, a = some q ∧ q.shape.head? = some p) ∨ ∃ q, b = some q ∧ q.shape.head? = some p

/-! ## Problems on the unit cube, transformed -/

theorem argAt_denotes {d : ℕ} {arg : Quad.MeanArg} {v : Fin d → ℝ} (h : Denotes d arg v) (j : Fin d) : argAt arg j = v j := by
  rcases h with ⟨c, rfl, rfl⟩ | rfl
  · rfl
  · simp only [argAt]
    by_cases h1 : d = 1
    · subst h1
      have : j = ⟨0, by omega⟩ := Subsingleton.elim _ _
      simp [this]
    · simp [h1]

theorem argLen_denotes {d : ℕ} {arg : Quad.MeanArg} {v : Fin d → ℝ} (h : Denotes d arg v) : argLen arg = 1 ∨ argLen arg = d := by
  rcases h with ⟨c, rfl, rfl⟩ | rfl
  · exact Or.inl rfl
  · exact Or.inr rfl

theorem bcast_denotes {d l : ℕ} (h : l = 1 ∨ l = d) : bcastLen d l = some d := by
  rcases h with rfl | rfl
  · by_cases h : d = 1 <;> simp [bcastLen, h]
  · simp [bcastLen]

theorem positive_denotes {d : ℕ} (hd : 1 ≤ d) {std : Quad.MeanArg} {s : Fin d → ℝ} (h : Denotes d std s) (hs : ∀ i, 0 < s i) :
    ¬∃ j < argLen std, argAt std j ≤ 0 := by
  rintro ⟨j, hj, hle⟩
  have hjd : j < d := by
    rcases argLen_denotes h with e | e <;> omega
  have := argAt_denotes h ⟨j, hjd⟩
  rw [this] at hle
  exact absurd (hs _) (not_lt.mpr hle)

theorem gaussInit_one {mean : Quad.MeanArg} {cov : Quad.CovArg} {m c : ℝ} (h1 : mean.one? = some m) (h2 : cov.one? = some c)
    (d : ℤ) : Quad.gaussInit mean cov (some d) = Quad.gaussInit (.scalar m) (.scalar c) (some d) := by
  have e : Quad.extend mean cov (some d) = Quad.extend (.scalar m) (.scalar c) (some d) := by
    unfold Quad.extend
    rw [h1, h2]
    rfl
  rw [Quad.gaussInit, Quad.gaussInit, e]

theorem one_denotes {arg : Quad.MeanArg} {v : Fin 1 → ℝ} (h : Denotes 1 arg v) : arg.one? = some (v 0) := by
  rcases h with ⟨c, rfl, rfl⟩ | rfl <;> simp [Quad.MeanArg.one?]

theorem measure_denotes {d : ℕ} (hd : 1 ≤ d) {mean std : Quad.MeanArg} {m s : Fin d → ℝ} (hm : Denotes d mean m)
    (hs : Denotes d std s) (hk : d = 1 ∨ (IsScalar mean ↔ IsScalar std)) :
    ∃ cov, covOf d std = .ok cov ∧ ∃ g : Quad.GaussMeasure d, Quad.gaussInit mean cov (some (d : ℤ)) = .ok ⟨d, g⟩ ∧
      g.mean = m ∧ g.cov = diagonal (fun i => s i ^ 2) ∧ g.FlagCorrect := by
  by_cases h1 : d = 1
  · subst h1
    have : ∃ cov, covOf 1 std = .ok cov ∧ cov.one? = some (s 0 ^ 2) := by
      rcases hs with ⟨c, rfl, rfl⟩ | rfl
      · exact ⟨_, rfl, rfl⟩
      · refine ⟨_, by simp only [covOf, true_or, if_true]; rfl, ?_⟩
        simp [Quad.CovArg.one?, argAt]
    obtain ⟨cov, hc, ho⟩ := this
    obtain ⟨g, hg, h2, h3, h4⟩ := (Quad.gaussian_measure_scalars (m 0) (s 0 ^ 2)).1 1 le_rfl
    refine ⟨cov, hc, g, (gaussInit_one (one_denotes hm) ho _).trans hg, ?_, ?_, h4⟩
    · rw [h2]
      funext i
      rw [Subsingleton.elim i 0]
    · rw [h3]
      ext i j
      rw [Subsingleton.elim i 0, Subsingleton.elim j 0]
      simp
  · have hk := hk.resolve_left h1
    rcases hm with ⟨a, rfl, rfl⟩ | rfl
    · rcases hs with ⟨c, rfl, rfl⟩ | rfl
      · obtain ⟨g, hg, h2, h3, h4⟩ := (Quad.gaussian_measure_scalars a (c ^ 2)).1 d hd
        refine ⟨_, rfl, g, hg, h2, ?_, h4⟩
        rw [h3, smul_one_eq_diagonal]
      · obtain ⟨c, hc⟩ := hk.1 ⟨a, rfl⟩
        cases hc
    · rcases hs with ⟨c, rfl, rfl⟩ | rfl
      · obtain ⟨c, hc⟩ := hk.2 ⟨c, rfl⟩
        cases hc
      · obtain ⟨g, hg, h2, h3, h4⟩ := Quad.gaussian_measure_arrays (by omega) m
          (diagonal fun j : Fin d => argAt (.vec d s) j ^ 2) (some (d : ℤ))
        refine ⟨_, by simp only [covOf, true_or, if_true], g, hg, h2, ?_, h4⟩
        rw [h3]
        congr 1
        funext j
        rw [argAt_denotes (Or.inr rfl)]

theorem integrand_denotes {p : Problem} {d : ℕ} (hd : 1 ≤ d) {f : (Fin d → ℝ) → ℝ} (hp : Poses p d f) {mean std : Quad.MeanArg}
    {m s : Fin d → ℝ} (hm : Denotes d mean m) (hs : Denotes d std s) (hpos : ∀ i, 0 < s i) (n : ℕ) (x : Points)
    (hx : x.shape = [n, d]) : toGaussianIntegrand p.fn mean std x =
      some (.ok ((List.range n).map fun i => some (f fun j => normCdf ((x.entry i j - m j) / s j)))) := by
  rw [toGaussianIntegrand, if_neg (positive_denotes hd hs hpos)]
  have e : cdfShape mean std x.shape = some [n, d] := by
    simp only [hx, cdfShape, List.getLast_cons_cons, List.getLast_singleton, bcast_denotes (argLen_denotes hm), Option.bind_some,
      bcast_denotes (argLen_denotes hs), Option.map_some]
    rfl
  simp only [cdfPoints, e, Except.bind]
  rw [hp.values n _ ⟨rfl, fun i _ j _ => ⟨(normCdf_mem _).1.le, (normCdf_mem _).2.le⟩⟩]
  congr 2
  refine List.map_congr_left fun i _ => ?_
  congr 2
  funext j
  simp only
  rw [argAt_denotes hm, argAt_denotes hs]
  congr 3
  by_cases h1 : d = 1
  · subst h1
    rw [Subsingleton.elim j 0]
    simp
  · simp [hx, h1]

theorem integrand_rejects {p : Problem} {d : ℕ} (hd : 1 ≤ d) {f : (Fin d → ℝ) → ℝ} (hp : Poses p d f) {mean std : Quad.MeanArg}
    {m s : Fin d → ℝ} (hm : Denotes d mean m) (hs : Denotes d std s) (hpos : ∀ i, 0 < s i) (n k : ℕ) (x : Points)
    (hx : x.shape = [n, k]) (hk : k ≠ d) (hk1 : k ≠ 1) : toGaussianIntegrand p.fn mean std x = some (.error .valueError) := by
  rw [toGaussianIntegrand, if_neg (positive_denotes hd hs hpos)]
  have e : cdfShape mean std x.shape = none ∨ cdfShape mean std x.shape = some [n, k] := by
    simp only [hx, cdfShape, List.getLast_cons_cons, List.getLast_singleton]
    rcases argLen_denotes hm with h | h <;> rcases argLen_denotes hs with h' | h' <;> rw [h, h'] <;>
      by_cases h1 : d = 1 <;> simp [bcastLen, hk, hk1, h1]
  rcases e with e | e
  · simp only [cdfPoints, e, Except.bind]
  · simp only [cdfPoints, e, Except.bind]
    rw [hp.rejects]
    · simp
    · rintro n' ⟨h, -⟩
      simp only [List.cons.injEq, and_true] at h
      exact hk h.2

/-- **C75.** `uniform_to_gaussian_quadprob`. For a problem that asks for the integral of `f` over the unit cube, and a mean
and positive standard deviations that are both scalars or both arrays, the result keeps the solution, its measure is normal
with that mean and those (independent) deviations, its integrand takes the values `f(Φ((x - m) / s))`, and the expectation
of the integrand under the measure exists and is the integral of `f` over the cube. (Partial: the documentation also allows
a scalar with an array, see `uniform_to_gaussian_mixed`.) -/
theorem uniform_to_gaussian_partial {p : Problem} {d : ℕ} (hd : 1 ≤ d) {f : (Fin d → ℝ) → ℝ} (hp : Poses p d f)
    {mean std : Quad.MeanArg} {m s : Fin d → ℝ} (hm : Denotes d mean m) (hs : Denotes d std s)
    (hk : d = 1 ∨ (IsScalar mean ↔ IsScalar std)) (hpos : ∀ i, 0 < s i) :
    ∃ (g : Quad.GaussMeasure d) (fn : Points → Option (Res (List (Option ℝ)))),
      uniformToGaussian p 0 mean std = .ok ⟨d, g, fn, p.solution⟩ ∧
      g.mean = m ∧ g.cov = diagonal (fun i => s i ^ 2) ∧ g.FlagCorrect ∧
      (∀ n x, x.shape = [n, d] → fn x =
        some (.ok ((List.range n).map fun i => some (f fun j => normCdf ((x.entry i j - m j) / s j))))) ∧
      (∀ n k x, x.shape = [n, k] → k ≠ d → k ≠ 1 → fn x = some (.error .valueError)) ∧
      ∀ (Ω : Type) (_ : MeasurableSpace Ω) (P : Measure Ω) (X : Ω → Fin d → ℝ), Gauss.IsNormal P X g.mean g.cov →
        Integrable (fun ω => f fun j => normCdf ((X ω j - m j) / s j)) P ∧
        ∫ ω, f (fun j => normCdf ((X ω j - m j) / s j)) ∂P = ∫ x in Icc (0 : Fin d → ℝ) 1, f x := by
  obtain ⟨cov, hc, g, hg, h2, h3, h4⟩ := measure_denotes hd hm hs hk
  refine ⟨g, toGaussianIntegrand p.fn mean std, ?_, h2, h3, h4,
    fun n x hx => integrand_denotes hd hp hm hs hpos n x hx,
    fun n k x hx h h' => integrand_rejects hd hp hm hs hpos n k x hx h h', fun Ω _ P X hX => ?_⟩
  · have e1 : ¬∃ x ∈ p.lower, x ≠ 0 := by
      rw [hp.lower]
      rintro ⟨x, hx, h⟩
      exact h (List.eq_of_mem_replicate hx)
    have e2 : ¬∃ x ∈ p.upper, x ≠ 1 := by
      rw [hp.upper]
      rintro ⟨x, hx, h⟩
      exact h (List.eq_of_mem_replicate hx)
    have e3 : p.lower.length = d := by rw [hp.lower, List.length_replicate]
    rw [uniformToGaussian, if_neg e1, if_neg e2, if_neg (by simp)]
    simp only [e3, hc, Except.bind, hg, Except.map]
  · rw [h2, h3] at hX
    obtain ⟨hmeas, hmap⟩ := map_cdf_vector hX hpos
    have hi : Integrable f (P.map fun ω i => normCdf ((X ω i - m i) / s i)) := by
      rw [hmap]
      exact hp.integrable
    refine ⟨hi.comp_aemeasurable hmeas, ?_⟩
    rw [← hmap, integral_map hmeas hi.aestronglyMeasurable]

/-- The hypotheses are met by a transformed Genz problem. -/
example : ∃ (g : Quad.GaussMeasure 2) (fn : Points → Option (Res (List (Option ℝ)))) (p : Problem),
    genzContinuous 2 none none = .ok p ∧
    uniformToGaussian p 0 (.vec 2 ![1, 2]) (.vec 2 ![3, 4]) = .ok ⟨2, g, fn, p.solution⟩ := by
  obtain ⟨p, h1, h2, -⟩ := genz_continuous_partial (d := 2) (a := none) (u := none) (A := fun _ => 5) (U := fun _ => 1 / 2)
    (by norm_num) (Or.inl ⟨rfl, fun _ => rfl⟩) (Or.inl ⟨rfl, fun _ => rfl⟩) (fun _ => by norm_num) fun _ => by norm_num
  obtain ⟨g, fn, h, -⟩ := uniform_to_gaussian_partial (by norm_num) h2 (mean := .vec 2 ![1, 2]) (std := .vec 2 ![3, 4])
    (Or.inr rfl) (Or.inr rfl) (Or.inr ⟨fun h => (by obtain ⟨c, h⟩ := h; cases h), fun h => (by obtain ⟨c, h⟩ := h; cases h)⟩)
    (fun i => by fin_cases i <;> norm_num)
  exact ⟨g, fn, p, h1, h⟩

/-- **C75, refuted in part.** In two or more dimensions the documented combinations of a scalar and an array are rejected
with `ValueError`. -/
theorem uniform_to_gaussian_mixed (p : Problem) (hd : 2 ≤ p.lower.length) (c : ℝ) (v : Fin p.lower.length → ℝ) :
    uniformToGaussian p 0 (.vec _ v) (.scalar c) = .error .valueError ∧
    uniformToGaussian p 0 (.scalar c) (.vec _ v) = .error .valueError := by
  have h1 := (Quad.gaussian_measure_rejects (some (p.lower.length : ℤ))).2.1 _ v (c ^ 2) (by omega)
  have h2 := (Quad.gaussian_measure_rejects (some (p.lower.length : ℤ))).2.2.1 c p.lower.length
    (diagonal fun j : Fin p.lower.length => argAt (.vec _ v) j ^ 2) (by omega)
  constructor
  · simp only [uniformToGaussian, covOf, Except.bind, h1, Except.map, ite_self]
  · simp only [uniformToGaussian, covOf, true_or, if_true, Except.bind, h2, Except.map, ite_self]

/-- **C75.** Problems on another box than the unit cube, problems whose solution is not a scalar, and arrays of a wrong length
are rejected with `ValueError`. -/
theorem uniform_to_gaussian_rejects (p : Problem) (ndim : ℕ) (mean std : Quad.MeanArg)
    (h : (∃ x ∈ p.lower, x ≠ 0) ∨ (∃ x ∈ p.upper, x ≠ 1) ∨ ndim ≠ 0 ∨
      (∃ n v, std = .vec n v ∧ n ≠ 1 ∧ n ≠ p.lower.length) ∨
      (∃ n v n' w, mean = .vec n v ∧ std = .vec n' w ∧ n ≠ p.lower.length)) :
    uniformToGaussian p ndim mean std = .error .valueError := by
  by_cases h1 : ∃ x ∈ p.lower, x ≠ 0
  · rw [uniformToGaussian, if_pos h1]
  by_cases h2 : ∃ x ∈ p.upper, x ≠ 1
  · rw [uniformToGaussian, if_neg h1, if_pos h2]
  by_cases h3 : ndim ≠ 0
  · rw [uniformToGaussian, if_neg h1, if_neg h2, if_pos h3]
  rw [uniformToGaussian, if_neg h1, if_neg h2, if_neg h3]
  rcases h with h | h | h | ⟨n, v, rfl, ha, hb⟩ | ⟨n, v, n', w, rfl, rfl, hb⟩
  · exact absurd h h1
  · exact absurd h h2
  · exact absurd h h3
  · simp only [covOf, ha, hb, or_self, if_false, Except.bind]
  · by_cases hn : n' = p.lower.length ∨ n' = 1
    · have := (Quad.gaussian_measure_rejects (some (p.lower.length : ℤ))).1 n v _
        (diagonal fun j : Fin p.lower.length => argAt (.vec n' w) j ^ 2) hb
      simp only [covOf, hn, if_true, Except.bind, this, Except.map]
    · simp only [covOf, hn, if_false, Except.bind]

/-! ## Sums of polynomials -/

/-- What an argument looks like after the defaults have been filled in. -/
theorem coeffs_default {p d : ℕ} {a : Option Points} {A : Fin p → Fin d → ℝ} (h : Coeffs p d a A) :
    ∃ q pa, a.getD ⟨[1, d], fun _ _ => 1⟩ = q ∧ q.shape = [pa, d] ∧ (pa = p ∨ pa = 1) ∧
      (∀ (r : Fin p) (c : Fin d), bAt pa d q.entry r c = A r c) ∧ (∀ q', a = some q' → q'.shape.head? = some pa) ∧
      (a = none → pa = 1) := by
  rcases h with ⟨rfl, h⟩ | ⟨q, rfl, hs, h⟩ | ⟨q, rfl, hs, h⟩
  · exact ⟨_, 1, rfl, rfl, Or.inr rfl, fun r c => (h r c).symm, fun q' hq => by simp at hq, fun _ => rfl⟩
  · refine ⟨q, p, rfl, hs, Or.inl rfl, fun r c => ?_, fun q' hq => ?_, fun hn => by simp at hn⟩
    · rw [← h r c, bAt]
      congr 1
      · split_ifs with h1
        · subst h1; omega
        · rfl
      · split_ifs with h1
        · subst h1; omega
        · rfl
    · cases hq; simp [hs]
  · refine ⟨q, 1, rfl, hs, Or.inr rfl, fun r c => ?_, fun q' hq => ?_, fun hn => by simp at hn⟩
    · rw [← h r c, bAt, if_pos rfl]
      congr 1
      split_ifs with h1
      · subst h1; omega
      · rfl
    · cases hq; simp [hs]

theorem orders_default {p d : ℕ} {b : Option IntArray} {B : Fin p → Fin d → ℕ} (h : Orders p d b B) (hp : 1 ≤ p) :
    ∃ q pb, b.getD ⟨[1, d], fun _ _ => 1⟩ = q ∧ q.shape = [pb, d] ∧ (pb = p ∨ pb = 1) ∧
      (∀ (r : Fin p) (c : Fin d), bAt pb d q.entry r c = B r c) ∧ (∀ q', b = some q' → q'.shape.head? = some pb) ∧
      (b = none → pb = 1) ∧ ¬∃ r < pb, ∃ c < d, q.entry r c < 0 := by
  rcases h with ⟨rfl, h⟩ | ⟨q, rfl, hs, h⟩ | ⟨q, rfl, hs, h⟩
  · refine ⟨_, 1, rfl, rfl, Or.inr rfl, fun r c => by simp [h r c, bAt], fun q' hq => by simp at hq, fun _ => rfl, ?_⟩
    rintro ⟨r, -, c, -, h⟩
    simp at h
  · refine ⟨q, p, rfl, hs, Or.inl rfl, fun r c => ?_, fun q' hq => ?_, fun hn => by simp at hn, ?_⟩
    · rw [← h r c, bAt]
      congr 1
      · split_ifs with h1
        · subst h1; omega
        · rfl
      · split_ifs with h1
        · subst h1; omega
        · rfl
    · cases hq; simp [hs]
    · rintro ⟨r, hr, c, hc, hlt⟩
      have := h ⟨r, hr⟩ ⟨c, hc⟩
      simp only at this
      omega
  · refine ⟨q, 1, rfl, hs, Or.inr rfl, fun r c => ?_, fun q' hq => ?_, fun hn => by simp at hn, ?_⟩
    · rw [← h r c, bAt, if_pos rfl]
      congr 1
      split_ifs with h1
      · subst h1; omega
      · rfl
    · cases hq; simp [hs]
    · rintro ⟨r, hr, c, hc, hlt⟩
      have := h ⟨0, hp⟩ ⟨c, hc⟩
      have hr0 : r = 0 := by omega
      subst hr0
      simp only at this
      omega

/-- The factor of the solution for one variable: the moment, but with `σ ^ b` for a variable with *standard deviation*
`σ`. -/
theorem factor_eq {f2 : ℝ} {b : ℕ} (h : f2 = 1 ∨ 0 < b) :
    ((((b : ℤ) % 2 - 1) ^ 2 : ℤ) : ℝ) * factorial2 f2 ((b : ℤ) - 1) = ∫ z, z ^ b ∂(gaussianReal 0 1) := by
  rcases Nat.even_or_odd' b with ⟨k, rfl | rfl⟩
  · rw [gaussian_moment_even]
    have e : (((2 * k : ℕ) : ℤ) % 2 - 1) ^ 2 = 1 := by
      have : ((2 * k : ℕ) : ℤ) % 2 = 0 := by omega
      rw [this]; norm_num
    rw [e, Int.cast_one, one_mul, factorial2]
    by_cases hk : k = 0
    · subst hk
      rcases h with h | h
      · simp [h]
      · simp at h
    · rw [if_neg (by omega)]
      congr 2
      omega
  · rw [gaussian_moment_odd ⟨k, rfl⟩]
    have e : (((2 * k + 1 : ℕ) : ℤ) % 2 - 1) ^ 2 = 0 := by
      have : ((2 * k + 1 : ℕ) : ℤ) % 2 = 1 := by omega
      rw [this]; norm_num
    rw [e, Int.cast_zero, zero_mul]

/-- **C75.** `sum_polynomials`: the measure is `N(0, var I)`, the integrand evaluates the sum of products at every row of an
array of points, and the solution is its expectation - but under `N(0, var² I)`. `f2` is scipy's value of the double
factorial of `-1`. -/
theorem sum_polynomials_outcome {p d : ℕ} (hp : 1 ≤ p) (hd : 1 ≤ d) {a : Option Points} {b : Option IntArray}
    {A : Fin p → Fin d → ℝ} {B : Fin p → Fin d → ℕ} (ha : Coeffs p d a A) (hb : Orders p d b B) (ht : Terms p a b)
    {float : Bool} (hf : float = true ∨ d = 1) (f2 var : ℝ) :
    ∃ (g : Quad.GaussMeasure d) (fn : Points → Option (Res (List (Option ℝ)))) (solution : ℝ),
      sumPolynomials f2 d a b float var = .ok ⟨d, g, fn, some solution⟩ ∧
      g.mean = 0 ∧ g.cov = var • (1 : Matrix (Fin d) (Fin d) ℝ) ∧ g.FlagCorrect ∧
      (∀ n x, x.shape = [n, d] → fn x =
        some (.ok ((List.range n).map fun i => some (∑ r, ∏ c : Fin d, A r c * x.entry i c ^ B r c)))) ∧
      (∀ x, x.shape.length < 2 → fn x = some (.error .indexError)) ∧
      (∀ n k x, x.shape = [n, k] → k ≠ d → k ≠ 1 → d ≠ 1 → fn x = some (.error .valueError)) ∧
      ((f2 = 1 ∨ ∀ r c, 0 < B r c) →
        ∀ (Ω : Type) (_ : MeasurableSpace Ω) (P : Measure Ω) (X : Ω → Fin d → ℝ),
          Gauss.IsNormal P X 0 (var ^ 2 • (1 : Matrix (Fin d) (Fin d) ℝ)) →
          Integrable (fun ω => ∑ r, ∏ c, A r c * X ω c ^ B r c) P ∧
          ∫ ω, ∑ r, ∏ c, A r c * X ω c ^ B r c ∂P = solution) := by
  obtain ⟨qa, pa, ea, sa, oa, va, ra, na⟩ := coeffs_default ha
  obtain ⟨qb, pb, eb, sb, ob, vb, rb, nb, hneg⟩ := orders_default hb hp
  have hbc : bcastLen pa pb = some p := by
    have : pa = p ∨ pb = p := by
      rcases ht with rfl | ⟨q, rfl, hq⟩ | ⟨q, rfl, hq⟩
      · omega
      · have := ra q rfl
        rw [hq] at this
        exact Or.inl (Option.some.inj this).symm
      · have := rb q rfl
        rw [hq] at this
        exact Or.inr (Option.some.inj this).symm
    rcases this with rfl | rfl
    · exact bcast_denotes (by omega)
    · by_cases h : pa = pb
      · simp [bcastLen, h]
      · have : pa = 1 := by omega
        simp [bcastLen, h, this]
  have hm : ∃ g : Quad.GaussMeasure d, Quad.gaussInit (if float = true then .scalar 0 else .vec ((d : ℤ)).toNat fun _ => 0)
      (.scalar var) (some (d : ℤ)) = .ok ⟨d, g⟩ ∧ g.mean = 0 ∧ g.cov = var • (1 : Matrix (Fin d) (Fin d) ℝ) ∧ g.FlagCorrect := by
    obtain ⟨g, hg, h2, h3, h4⟩ := (Quad.gaussian_measure_scalars 0 var).1 d hd
    refine ⟨g, ?_, h2, h3, h4⟩
    rw [← hg]
    by_cases hf' : float = true
    · rw [if_pos hf']
    · have := hf.resolve_left hf'
      subst this
      rw [if_neg hf']
      exact gaussInit_one (by simp [Quad.MeanArg.one?]) rfl _
  obtain ⟨g, hg, h2, h3, h4⟩ := hm
  refine ⟨g, polyIntegrand pa pb p d qa.entry qb.entry, ∑ r ∈ Finset.range p, ∏ c ∈ Finset.range d,
    bAt pa d qa.entry r c * (((bAt pb d qb.entry r c % 2 - 1) ^ 2 : ℤ) : ℝ) * var ^ (bAt pb d qb.entry r c).toNat
      * factorial2 f2 (bAt pb d qb.entry r c - 1), ?_, h2, h3, h4, fun n x hx => ?_, fun x hx => ?_,
    fun n k x hx hk hk1 hd1 => ?_, fun hb2 Ω _ P X hX => ?_⟩
  · have e0 : ¬((d : ℤ) < 0 ∧ (a = none ∨ b = none)) := by omega
    simp only [sumPolynomials, polyDefaults, e0, if_false, Int.toNat_natCast, ea, eb, Except.bind, sa, sb, ne_eq,
      not_true_eq_false, hneg, hbc]
    rw [Int.toNat_natCast] at hg
    rw [hg]
    rfl
  · simp only [polyIntegrand, hx, bcast_denotes (Or.inr rfl : d = 1 ∨ d = d)]
    congr 2
    refine List.map_congr_left fun i _ => ?_
    congr 1
    rw [Finset.sum_range]
    refine Finset.sum_congr rfl fun r _ => ?_
    rw [Finset.prod_range]
    refine Finset.prod_congr rfl fun c _ => ?_
    rw [va, vb, Int.toNat_natCast]
    congr 3
    split_ifs with h1
    · subst h1; omega
    · rfl
  · obtain ⟨shape, entry⟩ := x
    rcases shape with _ | ⟨n, _ | ⟨k, rest⟩⟩
    · rfl
    · rfl
    · simp at hx
  · simp only [polyIntegrand, hx, bcastLen, hk, hk1, hd1, if_false]
  · have key := fun r => gaussian_monomial hX (A r) (B r)
    refine ⟨integrable_finsetSum _ fun r _ => (key r).1, ?_⟩
    rw [integral_finsetSum _ fun r _ => (key r).1, Finset.sum_range]
    refine Finset.sum_congr rfl fun r _ => ?_
    rw [(key r).2, Finset.prod_range]
    refine Finset.prod_congr rfl fun c _ => ?_
    rw [va, vb, Int.toNat_natCast, ← factor_eq (hb2.imp id fun h => h r c)]
    ring

/-- **C75.** For variance 1 the solution is the expectation of the integrand under the measure of the problem. (Partial: for
another variance it is not, see `sum_polynomials_wrong`; nor, with scipy from 1.11 on, if an order is zero, see
`sum_polynomials_zero_order`.) -/
theorem sum_polynomials_partial {p d : ℕ} (hp : 1 ≤ p) (hd : 1 ≤ d) {a : Option Points} {b : Option IntArray}
    {A : Fin p → Fin d → ℝ} {B : Fin p → Fin d → ℕ} (ha : Coeffs p d a A) (hb : Orders p d b B) (ht : Terms p a b)
    {float : Bool} (hf : float = true ∨ d = 1) (f2 : ℝ) (hf2 : f2 = 1 ∨ ∀ r c, 0 < B r c) :
    ∃ (g : Quad.GaussMeasure d) (fn : Points → Option (Res (List (Option ℝ)))) (solution : ℝ),
      sumPolynomials f2 d a b float 1 = .ok ⟨d, g, fn, some solution⟩ ∧
      (∀ n x, x.shape = [n, d] → fn x =
        some (.ok ((List.range n).map fun i => some (∑ r, ∏ c : Fin d, A r c * x.entry i c ^ B r c)))) ∧
      ∀ (Ω : Type) (_ : MeasurableSpace Ω) (P : Measure Ω) (X : Ω → Fin d → ℝ), Gauss.IsNormal P X g.mean g.cov →
        Integrable (fun ω => ∑ r, ∏ c, A r c * X ω c ^ B r c) P ∧
        ∫ ω, ∑ r, ∏ c, A r c * X ω c ^ B r c ∂P = solution := by
  obtain ⟨g, fn, sol, h1, h2, h3, -, h5, -, -, h6⟩ := sum_polynomials_outcome hp hd ha hb ht hf f2 1
  refine ⟨g, fn, sol, h1, h5, fun Ω _ P X hX => h6 hf2 Ω _ P X ?_⟩
  rw [h2, h3] at hX
  simpa using hX

/-- The hypotheses are met: `x² y + 3 y⁴`. -/
example : ∃ (g : Quad.GaussMeasure 2) (fn : Points → Option (Res (List (Option ℝ)))) (solution : ℝ),
    sumPolynomials 0 2 (some ⟨[2, 2], fun r c => if r = 1 ∧ c = 1 then 3 else 1⟩)
      (some ⟨[2, 2], fun r c => if r = 0 then (if c = 0 then 2 else 1) else 4⟩) true 1 = .ok ⟨2, g, fn, some solution⟩ := by
  obtain ⟨g, fn, s, h, -⟩ := sum_polynomials_partial (p := 2) (d := 2) (by norm_num) (by norm_num)
    (a := some ⟨[2, 2], fun r c => if r = 1 ∧ c = 1 then 3 else 1⟩)
    (b := some ⟨[2, 2], fun r c => if r = 0 then (if c = 0 then 2 else 1) else 4⟩)
    (A := fun r c => if (r : ℕ) = 1 ∧ (c : ℕ) = 1 then 3 else 1)
    (B := fun r c => if (r : ℕ) = 0 then (if (c : ℕ) = 0 then 2 else 1) else 4)
    (Or.inr (Or.inl ⟨_, rfl, rfl, fun _ _ => rfl⟩))
    (Or.inr (Or.inl ⟨_, rfl, rfl, fun r c => by push_cast; rfl⟩))
    (Or.inr (Or.inl ⟨_, rfl, rfl⟩)) (float := true) (Or.inl rfl) 0
    (Or.inr fun r c => by split_ifs <;> norm_num)
  exact ⟨g, fn, s, h⟩

/-- **C75, refuted in general.** `sum_polynomials(1, b=[[2]], var=v)` asks for the expectation of `x²` under `N(0, v)`, which
is `v`; the solution it gives is `v²`. -/
theorem sum_polynomials_wrong (f2 v : ℝ) : ∃ (g : Quad.GaussMeasure 1) (fn : Points → Option (Res (List (Option ℝ)))),
    sumPolynomials f2 1 none (some ⟨[1, 1], fun _ _ => 2⟩) true v = .ok ⟨1, g, fn, some (v ^ 2)⟩ ∧
    (∀ n x, x.shape = [n, 1] → fn x = some (.ok ((List.range n).map fun i => some (x.entry i 0 ^ 2)))) ∧
    ∀ (Ω : Type) (_ : MeasurableSpace Ω) (P : Measure Ω) (X : Ω → Fin 1 → ℝ), 0 ≤ v → Gauss.IsNormal P X g.mean g.cov →
      ∫ ω, X ω 0 ^ 2 ∂P = v := by
  obtain ⟨g, fn, sol, h1, h2, h3, -, h5, -, -, -⟩ := sum_polynomials_outcome (p := 1) (d := 1) le_rfl le_rfl (a := none)
    (b := some ⟨[1, 1], fun _ _ => 2⟩) (A := fun _ _ => 1) (B := fun _ _ => 2) (Or.inl ⟨rfl, fun _ _ => rfl⟩)
    (Or.inr (Or.inl ⟨_, rfl, rfl, fun _ _ => rfl⟩)) (Or.inl rfl) (float := true) (Or.inl rfl) f2 v
  have hsol : sol = v ^ 2 := by
    have e : (bcastLen 1 1) = some 1 := rfl
    have h := h1
    simp only [sumPolynomials, polyDefaults, Except.bind, Option.getD, e, Nat.cast_one] at h
    norm_num [bAt, factorial2, bcastLen] at h
    revert h
    cases hg : Quad.gaussInit (.scalar 0) (.scalar v) (some 1) with
    | error e => intro h; simp [Except.map] at h
    | ok g' =>
      intro h
      simp only [Except.map, Except.ok.injEq, GaussProblem.mk.injEq, Option.some.injEq] at h
      first | exact h.2.2.2.symm | (rw [← h.2.2.2]; norm_num [Nat.doubleFactorial])
  subst hsol
  refine ⟨g, fn, h1, fun n x hx => ?_, fun Ω _ P X hv hX => ?_⟩
  · rw [h5 n x hx]
    simp
  · rw [h2, h3, show v = Real.sqrt v ^ 2 from (Real.sq_sqrt hv).symm] at hX
    have := (gaussian_monomial hX (fun _ => 1) fun _ => 2).2
    have e2 := gaussian_moment_even 1
    norm_num at this e2
    rw [this, e2, Real.sq_sqrt hv]
    simp

/-- A normal distribution with that variance exists, and for `v = 2` the two numbers differ. -/
example : ∃ (g : Quad.GaussMeasure 1) (fn : Points → Option (Res (List (Option ℝ)))),
    sumPolynomials 1 1 none (some ⟨[1, 1], fun _ _ => 2⟩) true 2 = .ok ⟨1, g, fn, some (2 ^ 2)⟩ ∧ (2 : ℝ) ^ 2 ≠ 2 := by
  obtain ⟨g, fn, h, -⟩ := sum_polynomials_wrong 1 2
  exact ⟨g, fn, h, by norm_num⟩

/-- **C75, refuted in part.** With a scipy whose double factorial of `-1` is 0, the constant polynomial `1` comes with the
solution 0. -/
theorem sum_polynomials_zero_order (var : ℝ) : ∃ (g : Quad.GaussMeasure 1) (fn : Points → Option (Res (List (Option ℝ)))),
    sumPolynomials 0 1 none (some ⟨[1, 1], fun _ _ => 0⟩) true var = .ok ⟨1, g, fn, some 0⟩ ∧
    ∀ n x, x.shape = [n, 1] → fn x = some (.ok ((List.range n).map fun _ => some 1)) := by
  obtain ⟨g, fn, sol, h1, h2, h3, -, h5, -, -, -⟩ := sum_polynomials_outcome (p := 1) (d := 1) le_rfl le_rfl (a := none)
    (b := some ⟨[1, 1], fun _ _ => 0⟩) (A := fun _ _ => 1) (B := fun _ _ => 0) (Or.inl ⟨rfl, fun _ _ => rfl⟩)
    (Or.inr (Or.inl ⟨_, rfl, rfl, fun _ _ => rfl⟩)) (Or.inl rfl) (float := true) (Or.inl rfl) 0 var
  have hsol : sol = 0 := by
    have e : (bcastLen 1 1) = some 1 := rfl
    have h := h1
    simp only [sumPolynomials, polyDefaults, Except.bind, Option.getD, e, Nat.cast_one] at h
    norm_num [bAt, factorial2, bcastLen] at h
    revert h
    cases hg : Quad.gaussInit (.scalar 0) (.scalar var) (some 1) with
    | error e => intro h; simp [Except.map] at h
    | ok g' =>
      intro h
      simp only [Except.map, Except.ok.injEq, GaussProblem.mk.injEq, Option.some.injEq] at h
      first | exact h.2.2.2.symm | (rw [← h.2.2.2]; norm_num [Nat.doubleFactorial])
  subst hsol
  refine ⟨g, fn, h1, fun n x hx => ?_⟩
  rw [h5 n x hx]
  simp

/-- **C75.** Parameters that are not matrices with `dim` columns, negative orders, numbers of rows that do not fit together,
and a dimension below one are rejected with `ValueError` - and so is, for two or more dimensions, every `var` that is not a
`float`. -/
theorem sum_polynomials_rejects (f2 : ℝ) (dim : ℤ) (a : Option Points) (b : Option IntArray) (float : Bool) (var : ℝ)
    (h : dim < 1 ∨ (∃ q, a = some q ∧ ∀ p : ℕ, q.shape ≠ [p, dim.toNat]) ∨
      (∃ q, b = some q ∧ ∀ p : ℕ, q.shape ≠ [p, dim.toNat]) ∨
      (∃ q p, b = some q ∧ q.shape = [p, dim.toNat] ∧ ∃ r < p, ∃ c < dim.toNat, q.entry r c < 0) ∨
      (∃ q q' p p', a = some q ∧ b = some q' ∧ q.shape.head? = some p ∧ q'.shape.head? = some p' ∧ p ≠ p' ∧ p ≠ 1 ∧ p' ≠ 1) ∨
      (2 ≤ dim ∧ float = false)) :
    sumPolynomials f2 dim a b float var = .error .valueError := by
  rcases hd : polyDefaults dim a b with e | ⟨qa, qb⟩
  · simp only [sumPolynomials, hd, Except.bind]
    simp only [polyDefaults] at hd
    split_ifs at hd
    simpa using hd.symm
  have hq : a.getD ⟨[1, dim.toNat], fun _ _ => 1⟩ = qa ∧ b.getD ⟨[1, dim.toNat], fun _ _ => 1⟩ = qb := by
    simp only [polyDefaults] at hd
    split_ifs at hd
    simpa using hd
  simp only [sumPolynomials, hd, Except.bind]
  split
  case h_2 => rfl
  case h_1 pa da pb db sa sb =>
  by_cases h1 : (da : ℤ) ≠ dim
  · rw [if_pos h1]
  rw [if_neg h1]
  by_cases h2 : (db : ℤ) ≠ dim
  · rw [if_pos h2]
  rw [if_neg h2]
  by_cases h3 : ∃ r < pb, ∃ c < db, qb.entry r c < 0
  · rw [if_pos h3]
  rw [if_neg h3]
  push Not at h1 h2
  have h1' : da = dim.toNat := by omega
  have h2' : db = dim.toNat := by omega
  cases h4 : bcastLen pa pb with
  | none => rfl
  | some p =>
  simp only
  rcases h with h | ⟨q, rfl, h⟩ | ⟨q, rfl, h⟩ | ⟨q, p, rfl, h, hr⟩ | ⟨q, q', p, p', rfl, rfl, hp, hp', h5, h6, h7⟩ | ⟨hd2, hf⟩
  · cases float
    · rw [if_neg (by simp)]
      have h0 : dim.toNat ≠ 1 := by omega
      rw [(Quad.gaussian_measure_rejects (some dim)).2.1 _ _ _ h0]
      rfl
    · rw [if_pos rfl, (Quad.gaussian_measure_rejects (some dim)).2.2.2 _ _ _ h]
      rfl
  · have : q = qa := hq.1
    subst this
    exact absurd (h1' ▸ sa) (h pa)
  · have : q = qb := hq.2
    subst this
    exact absurd (h2' ▸ sb) (h pb)
  · have : q = qb := hq.2
    subst this
    rw [sb] at h
    simp only [List.cons.injEq, and_true] at h
    rw [← h.1, ← h.2] at hr
    exact absurd hr h3
  · have e1 : q = qa := hq.1
    have e2 : q' = qb := hq.2
    subst e1 e2
    rw [sa] at hp
    rw [sb] at hp'
    simp only [List.head?_cons, Option.some.injEq] at hp hp'
    subst hp hp'
    simp [bcastLen, h5, h6, h7] at h4
  · rw [hf, if_neg (by simp), (Quad.gaussian_measure_rejects (some dim)).2.1 _ _ _ (by omega)]
    rfl

end Probnum.Zoo
