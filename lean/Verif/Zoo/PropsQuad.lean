import Verif.Zoo.QuadLemmas
import Verif.Quad.PropsNodes
import Verif.Quad.ExpQuadLemmas

/-!
# C74: the solution that comes with a quadrature test problem is the integral of its integrand

The specification (`Given`, `InBox`, `Poses`) only speaks about arrays, the unit cube and Lebesgue integrals.
-/

namespace Probnum.Zoo

open MeasureTheory Set

/-! ## Specification -/

/-- The vector that an optional parameter denotes: the array itself, or `d` copies of the default. -/
def Given {d : ℕ} (p : Option Param) (default : ℝ) (v : Fin d → ℝ) : Prop :=
  (p = none ∧ ∀ i, v i = default) ∨ ∃ q, p = some q ∧ q.shape = [d] ∧ ∀ i : Fin d, q.entry i = v i

/-- An array of `n` points in the unit cube of dimension `d`. -/
def InBox (d n : ℕ) (x : Points) : Prop := x.shape = [n, d] ∧ ∀ i < n, ∀ j < d, 0 ≤ x.entry i j ∧ x.entry i j ≤ 1

/-- The problem `p` asks for the integral of `f` over the unit cube: its integrand evaluates `f` at every row of an array of
points of the cube and rejects all other arrays; its domain is the cube; and `f` is integrable there. -/
structure Poses (p : Problem) (d : ℕ) (f : (Fin d → ℝ) → ℝ) : Prop where
  lower : p.lower = List.replicate d 0
  upper : p.upper = List.replicate d 1
  values : ∀ n x, InBox d n x → p.fn x = .ok ((List.range n).map fun i => some (f fun j => x.entry i j))
  rejects : ∀ x, (∀ n, ¬InBox d n x) → p.fn x = .error (if x.shape = [] then .indexError else .valueError)
  integrable : IntegrableOn f (Icc 0 1)

/-! ## Helpers -/

theorem params_ok {d : ℕ} {a u : Option Param} {A U : Fin d → ℝ} (ha : Given a 5 A) (hu : Given u (1 / 2) U)
    (hU : ∀ i, 0 ≤ U i ∧ U i ≤ 1) : ∃ q r : Param, genzParams d a u = .ok (q, r) ∧
      A = (fun i : Fin d => q.entry i) ∧ U = fun i : Fin d => r.entry i := by
  have h1 : ∃ q, orDefault a 5 d = .ok q ∧ q.shape = [d] ∧ ∀ i : Fin d, q.entry i = A i := by
    rcases ha with ⟨rfl, h⟩ | ⟨q, rfl, hs, h⟩
    · refine ⟨⟨[d], fun _ => 5⟩, ?_, rfl, fun i => (h i).symm⟩
      simp [orDefault, broadcast]
    · exact ⟨q, rfl, hs, h⟩
  have h2 : ∃ q, orDefault u 0.5 d = .ok q ∧ q.shape = [d] ∧ ∀ i : Fin d, q.entry i = U i := by
    rcases hu with ⟨rfl, h⟩ | ⟨q, rfl, hs, h⟩
    · refine ⟨⟨[d], fun _ => 0.5⟩, ?_, rfl, fun i => ?_⟩
      · simp [orDefault, broadcast]
      · rw [h i]
        norm_num
    · exact ⟨q, rfl, hs, h⟩
  obtain ⟨q, hq, hqs, hqe⟩ := h1
  obtain ⟨r, hr, hrs, hre⟩ := h2
  refine ⟨q, r, ?_, funext fun i => (hqe i).symm, funext fun i => (hre i).symm⟩
  have hneg : ¬((∃ i < d, r.entry i < 0) ∨ ∃ i < d, 1 < r.entry i) := by
    rintro (⟨i, hi, h⟩ | ⟨i, hi, h⟩)
    · have := (hU ⟨i, hi⟩).1
      rw [← hre ⟨i, hi⟩] at this
      exact absurd h (not_lt.mpr this)
    · have := (hU ⟨i, hi⟩).2
      rw [← hre ⟨i, hi⟩] at this
      exact absurd h (not_lt.mpr this)
  simp only [genzParams, hq, Except.bind, hr, hqs, hrs, List.map_cons, List.map_nil, ne_eq, not_true_eq_false, if_false,
    Int.toNat_natCast, if_neg hneg]

theorem uniform_ok {d : ℕ} (hd : 1 ≤ d) (fn : Points → Res (List (Option ℝ))) (s : Option ℝ) :
    uniformProblem d fn s = .ok ⟨fn, List.replicate d 0, List.replicate d 1, s⟩ := by
  classical
  have h : Quad.asDomain [constArr 0 d, constArr 1 d] (some (d : ℤ)) =
      .ok ((List.replicate d (0 : ℝ), List.replicate d 1), (d : ℤ)) := by
    rw [Quad.as_domain_iff]
    refine ⟨⟨_, _, rfl, ?_⟩, fun i h1 h2 => ?_⟩
    · rcases Nat.eq_or_lt_of_le hd with rfl | h
      · exact Or.inl ⟨rfl, by simp, 0, 1, by simp [constArr], by simp [constArr], by simp, by simp⟩
      · exact Or.inr ⟨Or.inr ⟨rfl, by exact_mod_cast h⟩, by simp [constArr], by simp [constArr], rfl, rfl, by simp, by simp⟩
    · simp
  rw [uniformProblem, if_neg (by omega), Int.toNat_natCast]
  have h' : Quad.asDomain [constArr 0 d, constArr 1 d] (some (d : ℤ)) =
      .ok ((List.replicate d (0 : ℝ), List.replicate d 1), (d : ℤ)) := h
  have e := congrArg (Except.map fun p : (List ℝ × List ℝ) × ℤ => (⟨fn, p.1.1, p.1.2, s⟩ : Problem)) h'
  refine Eq.trans ?_ e
  congr!

theorem poses {d : ℕ} (row : (Fin d → ℝ) → Option ℝ) (f : (Fin d → ℝ) → ℝ) (s : Option ℝ)
    (h : ∀ x ∈ Icc (0 : Fin d → ℝ) 1, row x = some (f x)) (hi : IntegrableOn f (Icc 0 1)) :
    Poses ⟨integrand d row, List.replicate d 0, List.replicate d 1, s⟩ d f := by
  refine ⟨rfl, rfl, fun n x hx => ?_, fun x hx => ?_, hi⟩
  · have hneg : ¬((∃ i < n, ∃ j < d, x.entry i j < 0) ∨ ∃ i < n, ∃ j < d, 1 < x.entry i j) := by
      rintro (⟨i, hi, j, hj, h⟩ | ⟨i, hi, j, hj, h⟩)
      · exact absurd h (not_lt.mpr (hx.2 i hi j hj).1)
      · exact absurd h (not_lt.mpr (hx.2 i hi j hj).2)
    simp only [integrand, hx.1, ne_eq, not_true_eq_false, if_false, if_neg hneg]
    congr 1
    refine List.map_congr_left fun i hi => ?_
    rw [h _ ⟨fun j => (hx.2 i (List.mem_range.mp hi) j j.2).1, fun j => (hx.2 i (List.mem_range.mp hi) j j.2).2⟩]
  · obtain ⟨shape, entry⟩ := x
    cases shape with
    | nil => rfl
    | cons n rest =>
      by_cases hs : n :: rest = [n, d]
      · have : ((∃ i < n, ∃ j < d, entry i j < 0) ∨ ∃ i < n, ∃ j < d, 1 < entry i j) := by
          by_contra hno
          simp only [not_or, not_exists, not_and, not_lt] at hno
          exact hx n ⟨hs, fun i hi j hj => ⟨hno.1 i hi j hj, hno.2 i hi j hj⟩⟩
        simp only [integrand, ne_eq, hs, not_true_eq_false, if_false, if_pos this]
        simp
      · simp only [integrand, ne_eq, hs, not_false_eq_true, if_true]
        simp

theorem posed {d : ℕ} (hd : 1 ≤ d) {c : Res Problem} {row : (Fin d → ℝ) → Option ℝ} {f : (Fin d → ℝ) → ℝ} {v : Option ℝ}
    (hc : c = uniformProblem d (integrand d row) v) (h : ∀ x ∈ Icc (0 : Fin d → ℝ) 1, row x = some (f x))
    (hi : IntegrableOn f (Icc 0 1)) : ∃ p, c = .ok p ∧ Poses p d f ∧ p.solution = v :=
  ⟨_, hc.trans (uniform_ok hd _ _), poses row f v h hi, rfl⟩

theorem unsolved {d : ℕ} (hd : 1 ≤ d) {c : Res Problem} {fn : Points → Res (List (Option ℝ))} {v : Option ℝ}
    (hc : c = uniformProblem d fn v) (hv : v = none) : ∃ p, c = .ok p ∧ p.solution = none :=
  ⟨_, hc.trans (uniform_ok hd _ _), hv⟩

theorem overParams_some {d : ℕ} {a : Fin d → ℝ} (h : ∀ i, a i ≠ 0) (v : ℝ) : overParams a v = some v := by
  rw [overParams, if_neg (by simpa using h)]

theorem overParams_none {d : ℕ} {a : Fin d → ℝ} (h : ∃ i, a i = 0) (v : ℝ) : overParams a v = none := by
  rw [overParams, if_pos h]

theorem cube_le (d : ℕ) : (0 : Fin d → ℝ) ≤ 1 := zero_le_one

theorem cube_integrable {d : ℕ} {f : (Fin d → ℝ) → ℝ} (h : Continuous f) : IntegrableOn f (Icc 0 1) :=
  h.continuousOn.integrableOn_compact isCompact_Icc

theorem cube_prod {d : ℕ} (f : Fin d → ℝ → ℝ) :
    ∫ x in Icc (0 : Fin d → ℝ) 1, ∏ i, f i (x i) = ∏ i, ∫ t in (0 : ℝ)..1, f i t :=
  Quad.integral_box f (cube_le d)

/-! ## Genz functions -/

section genz

variable {d : ℕ} {a u : Option Param} {A U : Fin d → ℝ}

/-- **C74.** `genz_continuous`, for parameters `a` without zeros. -/
theorem genz_continuous_partial (hd : 1 ≤ d) (ha : Given a 5 A) (hu : Given u (1 / 2) U) (hU : ∀ i, 0 ≤ U i ∧ U i ≤ 1)
    (hA : ∀ i, A i ≠ 0) : ∃ p, genzContinuous d a u = .ok p ∧ Poses p d (fun x => Real.exp (-∑ i, A i * |x i - U i|)) ∧
      p.solution = some (∫ x in Icc (0 : Fin d → ℝ) 1, Real.exp (-∑ i, A i * |x i - U i|)) := by
  obtain ⟨q, r, h, hq, hr⟩ := params_ok ha hu hU
  refine posed hd (row := fun x => some (Real.exp (-∑ i, A i * |x i - U i|))) ?_ (fun _ _ => rfl)
    (cube_integrable (Real.continuous_exp.comp (continuous_finsetSum _ fun i _ => by fun_prop).neg))
  have e : ∫ x in Icc (0 : Fin d → ℝ) 1, Real.exp (-∑ i, A i * |x i - U i|) =
      ∏ i, (2 - Real.exp (-1 * A i * U i) - Real.exp (A i * (U i - 1))) / A i := by
    simp only [← Finset.sum_neg_distrib, Real.exp_sum]
    rw [cube_prod fun i t => Real.exp (-(A i * |t - U i|))]
    exact Finset.prod_congr rfl fun i _ => integral_continuous (hA i) (hU i).1 (hU i).2
  rw [e, ← overParams_some hA]
  subst hq hr
  rw [genzContinuous, h]
  rfl

/-- **C74.** `genz_discontinuous`, for parameters `a` without zeros. -/
theorem genz_discontinuous_partial (hd : 1 ≤ d) (ha : Given a 5 A) (hu : Given u (1 / 2) U)
    (hU : ∀ i, 0 ≤ U i ∧ U i ≤ 1) (hA : ∀ i, A i ≠ 0) :
    ∃ p, genzDiscontinuous d a u = .ok p ∧
      Poses p d (open Classical in fun x => if ∃ i, U i < x i then 0 else Real.exp (∑ i, A i * x i)) ∧
      p.solution = some (∫ x in Icc (0 : Fin d → ℝ) 1,
        (open Classical in if ∃ i, U i < x i then 0 else Real.exp (∑ i, A i * x i))) := by
  classical
  obtain ⟨q, r, h, hq, hr⟩ := params_ok ha hu hU
  have e : (fun x : Fin d → ℝ => (if ∃ i, U i < x i then 0 else Real.exp (∑ i, A i * x i) : ℝ)) =
      fun x => ∏ i, (if U i < x i then 0 else Real.exp (A i * x i) : ℝ) := by
    funext x
    by_cases hx : ∃ i, U i < x i
    · obtain ⟨i, hi⟩ := hx
      have h0 : ∏ i, (if U i < x i then 0 else Real.exp (A i * x i) : ℝ) = 0 :=
        Finset.prod_eq_zero (Finset.mem_univ i) (by simp [hi])
      rw [if_pos ⟨i, hi⟩, h0]
    · rw [if_neg hx, Real.exp_sum]
      refine Finset.prod_congr rfl fun i _ => ?_
      rw [if_neg fun hi => hx ⟨i, hi⟩]
  have hi : IntegrableOn (fun x : Fin d → ℝ => if ∃ i, U i < x i then 0 else Real.exp (∑ i, A i * x i)) (Icc 0 1) := by
    have hc : IntegrableOn (fun x : Fin d → ℝ => Real.exp (∑ i, A i * x i)) (Icc 0 1) :=
      cube_integrable (Real.continuous_exp.comp (continuous_finsetSum _ fun i _ => by fun_prop))
    have hm : MeasurableSet {x : Fin d → ℝ | ∃ i, U i < x i} := by
      rw [Set.setOf_exists]
      exact MeasurableSet.iUnion fun i => measurableSet_lt measurable_const (measurable_pi_apply i)
    have := hc.indicator hm.compl
    refine this.congr (Filter.Eventually.of_forall fun x => ?_)
    by_cases hx : ∃ i, U i < x i
    · rw [Set.indicator_of_notMem (by simpa using hx)]
      simp only [if_pos hx]
    · rw [Set.indicator_of_mem (by simpa using hx)]
      simp only [if_neg hx]
  refine posed hd (row := fun x => some (if ∃ i, 0 < x i - U i then 0 else Real.exp (∑ i, A i * x i))) ?_
    (fun x _ => by simp only [sub_pos]) hi
  have e : ∫ x in Icc (0 : Fin d → ℝ) 1, (if ∃ i, U i < x i then 0 else Real.exp (∑ i, A i * x i) : ℝ) =
      ∏ i, (Real.exp (A i * U i) - 1) / A i := by
    rw [e, cube_prod fun i t => if U i < t then 0 else Real.exp (A i * t)]
    exact Finset.prod_congr rfl fun i _ => integral_discontinuous (hA i) (hU i).1 (hU i).2
  have e2 : (if (d : ℤ) = 1 then overParams A (∏ i, (Real.exp (A i * U i) - 1) / A i)
        else overParams A (∏ i, (Real.exp (A i * min (U i) 1) - 1) / A i)) =
      some (∏ i, (Real.exp (A i * U i) - 1) / A i) := by
    simp only [min_eq_left (hU _).2, ite_self, overParams_some hA]
  rw [e, ← e2]
  subst hq hr
  rw [genzDiscontinuous, h]
  rfl

/-- **C74.** `genz_gaussian`, for parameters `a` without zeros. -/
theorem genz_gaussian_partial (hd : 1 ≤ d) (ha : Given a 5 A) (hu : Given u (1 / 2) U) (hU : ∀ i, 0 ≤ U i ∧ U i ≤ 1)
    (hA : ∀ i, A i ≠ 0) : ∃ p, genzGaussian d a u = .ok p ∧
      Poses p d (fun x => Real.exp (-∑ i, A i ^ 2 * (x i - U i) ^ 2)) ∧
      p.solution = some (∫ x in Icc (0 : Fin d → ℝ) 1, Real.exp (-∑ i, A i ^ 2 * (x i - U i) ^ 2)) := by
  obtain ⟨q, r, h, hq, hr⟩ := params_ok ha hu hU
  refine posed hd (row := fun x => some (Real.exp (-∑ i, (A i * (x i - U i)) ^ 2))) ?_ (fun x _ => by simp only [mul_pow])
    (cube_integrable (Real.continuous_exp.comp (continuous_finsetSum _ fun i _ => by fun_prop).neg))
  have e : ∫ x in Icc (0 : Fin d → ℝ) 1, Real.exp (-∑ i, A i ^ 2 * (x i - U i) ^ 2) = Real.pi ^ ((d : ℝ) / 2)
        * ∏ i, (normCdf (Real.sqrt 2 * A i * (1 - U i)) - normCdf (-Real.sqrt 2 * A i * U i)) / A i := by
    simp only [← Finset.sum_neg_distrib, Real.exp_sum, ← mul_pow]
    rw [cube_prod fun i t => Real.exp (-(A i * (t - U i)) ^ 2), Finset.prod_congr rfl fun i _ => integral_gaussian (hA i),
      Finset.prod_mul_distrib, Finset.prod_const, Finset.card_univ, Fintype.card_fin, Quad.rpow_half Real.pi_pos.le]
  rw [e, ← overParams_some hA]
  subst hq hr
  rw [genzGaussian, h]
  rfl

/-- **C74.** `genz_productpeak`, for all parameters `a`. (The documented integrand has no value for a zero parameter; the
code's is then zero, and so is the solution.) -/
theorem genz_productpeak (hd : 1 ≤ d) (ha : Given a 5 A) (hu : Given u (1 / 2) U) (hU : ∀ i, 0 ≤ U i ∧ U i ≤ 1) :
    ∃ f, (∃ p, genzProductpeak d a u = .ok p ∧ Poses p d f ∧ p.solution = some (∫ x in Icc (0 : Fin d → ℝ) 1, f x)) ∧
      ((∀ i, A i ≠ 0) → f = fun x => ∏ i, ((A i) ^ (-2 : ℤ) + (x i - U i) ^ 2)⁻¹) := by
  obtain ⟨q, r, h, hq, hr⟩ := params_ok ha hu hU
  have hc : Continuous fun x : Fin d → ℝ => ∏ i, peak (A i) (x i) (U i) := by
    refine continuous_finsetProd _ fun i _ => ?_
    by_cases hA : A i = 0
    · simp only [peak, if_pos hA]
      exact continuous_const
    · simp only [peak, if_neg hA]
      refine Continuous.div continuous_const (by fun_prop) fun x => ?_
      positivity
  refine ⟨fun x => ∏ i, peak (A i) (x i) (U i), ?_, ?_⟩
  · refine posed hd (row := fun x => some (∏ i, peak (A i) (x i) (U i))) ?_ (fun _ _ => rfl) (cube_integrable hc)
    rw [cube_prod fun i t => peak (A i) t (U i), Finset.prod_congr rfl fun i _ => integral_peak]
    subst hq hr
    rw [genzProductpeak, h]
    rfl
  · intro hA
    funext x
    refine Finset.prod_congr rfl fun i _ => ?_
    rw [peak, if_neg (hA i), one_div, one_div]
    rfl

/-- **C74.** `genz_oscillatory`, for parameters `a` without zeros. -/
theorem genz_oscillatory_partial (hd : 1 ≤ d) (ha : Given a 5 A) (hu : Given u (1 / 2) U) (hU : ∀ i, 0 ≤ U i ∧ U i ≤ 1)
    (hA : ∀ i, A i ≠ 0) : ∃ p, genzOscillatory d a u = .ok p ∧
      Poses p d (fun x => Real.cos (2 * Real.pi * U ⟨0, hd⟩ + ∑ i, A i * x i)) ∧
      p.solution = some (∫ x in Icc (0 : Fin d → ℝ) 1, Real.cos (2 * Real.pi * U ⟨0, hd⟩ + ∑ i, A i * x i)) := by
  obtain ⟨q, r, h, hq, hr⟩ := params_ok ha hu hU
  refine posed hd (row := fun x => some (Real.cos (2 * Real.pi * U ⟨0, hd⟩ + ∑ i, A i * x i))) ?_ (fun _ _ => rfl)
    (cube_integrable (Real.continuous_cos.comp (continuous_const.add (continuous_finsetSum _ fun i _ => by fun_prop))))
  have hP : ∏ i, A i ≠ 0 := Finset.prod_ne_zero_iff.mpr fun i _ => hA i
  -- the derivatives of the `d`-fold antiderivative
  have hmod : ∀ k : ℕ, (k % 4 = 0 ∧ (k + 1) % 4 = 1) ∨ (k % 4 = 1 ∧ (k + 1) % 4 = 2) ∨ (k % 4 = 2 ∧ (k + 1) % 4 = 3) ∨
      (k % 4 = 3 ∧ (k + 1) % 4 = 0) := by omega
  have hder : ∀ k : ℕ, ∀ s : ℝ, HasDerivAt (hfunc (k + 1)) (hfunc k s) s := by
    intro k s
    rcases hmod k with ⟨h1, h2⟩ | ⟨h1, h2⟩ | ⟨h1, h2⟩ | ⟨h1, h2⟩ <;> unfold hfunc <;> simp only [h1, h2] <;> norm_num
    · exact Real.hasDerivAt_sin s
    · have := (Real.hasDerivAt_cos s).neg
      rw [neg_neg] at this
      exact this
    · exact (Real.hasDerivAt_sin s).neg
    · exact Real.hasDerivAt_cos s
  let g : ℕ → ℝ → ℝ := fun k => hfunc (d + 3 * k)
  have hper : ∀ k, hfunc (k + 4) = hfunc k := by
    intro k
    funext s
    unfold hfunc
    simp only [Nat.add_mod_right]
  have hg : ∀ k, ∀ s ∈ (Set.univ : Set ℝ), HasDerivAt (g k) (g (k + 1) s) s := by
    intro k s _
    have := hder (d + 3 * (k + 1)) s
    rw [show d + 3 * (k + 1) + 1 = d + 3 * k + 4 by ring, hper] at this
    exact this
  have hgd : g d = Real.cos := by
    funext s
    simp only [g, hfunc, show d + 3 * d = d * 4 by ring, Nat.mul_mod_left]
    norm_num
  have key := integral_chain g Set.univ hg A (2 * Real.pi * U ⟨0, hd⟩) fun _ _ => Set.mem_univ _
  rw [hgd, List.ofFn_eq_map, ← diffs_sublists] at key
  have e : ∫ x in Icc (0 : Fin d → ℝ) 1, Real.cos (2 * Real.pi * U ⟨0, hd⟩ + ∑ i, A i * x i) =
      subsetLoop d (fun k subset => (-1) ^ k * hfunc d (2 * Real.pi * U ⟨0, hd⟩ + ∑ i, A i - (subset.map A).sum)) /
        ∏ i, A i := by
    rw [eq_div_iff hP, mul_comm, key, subsetLoop_eq]
    simp only [g, mul_zero, add_zero, Fin.sum_univ_def]
  rw [e, ← overParams_some hA]
  subst hq hr
  rw [genzOscillatory, h]
  exact if_neg (by simp only [Int.toNat_natCast]; omega)

theorem subset_sum {d : ℕ} (A : Fin d → ℝ) {k : ℕ} {sub : List (Fin d)} (h : sub ∈ combinations d k) :
    ∃ x ∈ Icc (0 : Fin d → ℝ) 1, ∑ i, A i - (sub.map A).sum = ∑ i, A i * x i := by
  have hn : sub.Nodup := ((List.mem_sublistsLen.mp h).1).nodup (List.nodup_finRange d)
  refine ⟨fun i => if i ∈ sub then 0 else 1, ⟨fun i => ?_, fun i => ?_⟩, ?_⟩
  · dsimp only
    split <;> simp
  · dsimp only
    split <;> simp
  · rw [← List.sum_toFinset A hn, sub_eq_iff_eq_add, ← Finset.sum_filter_add_sum_filter_not Finset.univ (· ∈ sub)]
    simp only [mul_ite, mul_zero, mul_one]
    rw [Finset.sum_ite]
    simp only [Finset.sum_const_zero, zero_add]
    rw [add_comm]
    congr 2
    ext i
    simp

/-- **C74.** `genz_cornerpeak`, for parameters `a` without zeros for which the base of the power is positive on the cube
(for instance, positive parameters). -/
theorem genz_cornerpeak_partial (hd : 1 ≤ d) (ha : Given a 5 A) (hu : Given u (1 / 2) U) (hU : ∀ i, 0 ≤ U i ∧ U i ≤ 1)
    (hA : ∀ i, A i ≠ 0) (hpos : ∀ x ∈ Icc (0 : Fin d → ℝ) 1, 0 < 1 + ∑ i, A i * x i) : ∃ p, genzCornerpeak d a u = .ok p ∧
      Poses p d (fun x => (1 + ∑ i, A i * x i) ^ (-(d : ℤ) - 1)) ∧
      p.solution = some (∫ x in Icc (0 : Fin d → ℝ) 1, (1 + ∑ i, A i * x i) ^ (-(d : ℤ) - 1)) := by
  classical
  obtain ⟨q, r, h, hq, hr⟩ := params_ok ha hu hU
  have hcont : ContinuousOn (fun x : Fin d → ℝ => (1 + ∑ i, A i * x i) ^ (-(d : ℤ) - 1)) (Icc 0 1) := by
    refine ContinuousOn.zpow₀ (Continuous.continuousOn (continuous_const.add
      (continuous_finsetSum _ fun i _ => by fun_prop))) _ fun x hx => Or.inl (hpos x hx).ne'
  refine posed hd (row := fun x => if 1 + ∑ i, A i * x i = 0 then none else some ((1 + ∑ i, A i * x i) ^ (-(d : ℤ) - 1))) ?_
    (fun x hx => if_neg (hpos x hx).ne') (hcont.integrableOn_compact isCompact_Icc)
  have hP : ∏ i, A i ≠ 0 := Finset.prod_ne_zero_iff.mpr fun i _ => hA i
  let g : ℕ → ℝ → ℝ := fun k s => (-1) ^ k * (k.factorial : ℝ) * s ^ (-(k : ℤ) - 1)
  have hg : ∀ k, ∀ s ∈ Ioi (0 : ℝ), HasDerivAt (g k) (g (k + 1) s) s := by
    intro k s hs
    have := (hasDerivAt_zpow (-(k : ℤ) - 1) s (Or.inl (ne_of_gt hs))).const_mul ((-1) ^ k * (k.factorial : ℝ))
    refine this.congr_deriv ?_
    simp only [g, Nat.factorial_succ]
    push_cast
    rw [show -((k : ℤ) + 1) - 1 = -(k : ℤ) - 1 - 1 by ring]
    ring
  have key := integral_chain g (Ioi 0) hg A 1 hpos
  rw [List.ofFn_eq_map, ← diffs_sublists] at key
  simp only [g] at key
  rw [integral_const_mul] at key
  have hs : ((-1 : ℝ)) ^ d ≠ 0 := pow_ne_zero _ (by norm_num)
  have hf : (d.factorial : ℝ) ≠ 0 := Nat.cast_ne_zero.mpr d.factorial_ne_zero
  have e : ∫ x in Icc (0 : Fin d → ℝ) 1, (1 + ∑ i, A i * x i) ^ (-(d : ℤ) - 1) =
      subsetLoop d (fun k subset => (-1) ^ (k + d) * (1 + ∑ i, A i - (subset.map A).sum)⁻¹) /
        ((∏ i, A i) * (d.factorial : ℝ)) := by
    rw [eq_div_iff (mul_ne_zero hP hf), subsetLoop_eq]
    have hsq : ((-1 : ℝ)) ^ d * (-1) ^ d = 1 := by rw [← mul_pow]; simp
    have hl : (((List.finRange d).sublists'.map fun sub => (-1 : ℝ) ^ (sub.length + d) *
        (1 + ∑ i, A i - (sub.map A).sum)⁻¹)).sum = (-1) ^ d * (((List.finRange d).sublists'.map fun sub =>
          (-1 : ℝ) ^ sub.length * ((-1) ^ 0 * ((Nat.factorial 0 : ℕ) : ℝ) *
            (1 + ((List.finRange d).map A).sum - (sub.map A).sum) ^ (-((0 : ℕ) : ℤ) - 1)))).sum := by
      rw [← List.sum_map_mul_left]
      congr 1
      refine List.map_congr_left fun sub _ => ?_
      rw [Fin.sum_univ_def, pow_add, show (-((0 : ℕ) : ℤ) - 1) = -1 by norm_num, zpow_neg_one]
      simp
      ring
    rw [hl, ← key]
    calc _ = ((-1 : ℝ) ^ d * (-1) ^ d) * ((∏ i, A i) * (d.factorial : ℝ) *
          ∫ x in Icc (0 : Fin d → ℝ) 1, (1 + ∑ i, A i * x i) ^ (-(d : ℤ) - 1)) := by rw [hsq]; ring
      _ = _ := by ring
  have hno : ¬∃ k ≤ d, ∃ subset ∈ combinations d k, 1 + ∑ i, A i - (subset.map A).sum = 0 := by
    rintro ⟨k, -, sub, hsub, h0⟩
    obtain ⟨x, hx, hxe⟩ := subset_sum A hsub
    have := hpos x hx
    rw [add_sub_assoc, hxe] at h0
    exact this.ne' h0
  have e3 : some (subsetLoop d (fun k subset => (-1) ^ (k + d) * (1 + ∑ i, A i - (subset.map A).sum)⁻¹) /
        ((∏ i, A i) * (d.factorial : ℝ))) =
      if ∃ k ≤ d, ∃ subset ∈ combinations d k, 1 + ∑ i, A i - (subset.map A).sum = 0 then none
        else overParams A (subsetLoop d (fun k subset => (-1) ^ (k + d) * (1 + ∑ i, A i - (subset.map A).sum)⁻¹) /
        ((∏ i, A i) * (d.factorial : ℝ))) := by
    rw [if_neg hno, overParams_some hA]
  rw [e, e3]
  subst hq hr
  rw [genzCornerpeak, h]
  simp only [Except.bind, Int.toNat_natCast]

/-- **C74 is violated.** A zero parameter is accepted by five of the six Genz functions, and the solution is not a number,
although the integrand is integrable. -/
theorem genz_zero_parameter (hd : 1 ≤ d) (ha : Given a 5 A) (hu : Given u (1 / 2) U) (hU : ∀ i, 0 ≤ U i ∧ U i ≤ 1)
    (hA : ∃ i, A i = 0) :
    (∃ p, genzContinuous d a u = .ok p ∧ Poses p d (fun x => Real.exp (-∑ i, A i * |x i - U i|)) ∧ p.solution = none) ∧
    (∃ p, genzGaussian d a u = .ok p ∧ Poses p d (fun x => Real.exp (-∑ i, A i ^ 2 * (x i - U i) ^ 2)) ∧
      p.solution = none) ∧
    (∃ p, genzOscillatory d a u = .ok p ∧ Poses p d (fun x => Real.cos (2 * Real.pi * U ⟨0, hd⟩ + ∑ i, A i * x i)) ∧
      p.solution = none) ∧
    (∃ p, genzDiscontinuous d a u = .ok p ∧ p.solution = none) ∧ (∃ p, genzCornerpeak d a u = .ok p ∧ p.solution = none) := by
  classical
  obtain ⟨q, r, h, hq, hr⟩ := params_ok ha hu hU
  have hA' : ∃ i : Fin d, q.entry i = 0 := by rwa [hq] at hA
  refine ⟨?_, ?_, ?_, ?_, ?_⟩
  · refine posed hd (row := fun x => some (Real.exp (-∑ i, A i * |x i - U i|))) ?_ (fun _ _ => rfl)
      (cube_integrable (Real.continuous_exp.comp (continuous_finsetSum _ fun i _ => by fun_prop).neg))
    subst hq hr
    rw [genzContinuous, h]
    exact congrArg (uniformProblem _ _) (overParams_none hA' _)
  · refine posed hd (row := fun x => some (Real.exp (-∑ i, (A i * (x i - U i)) ^ 2))) ?_
      (fun x _ => by simp only [mul_pow])
      (cube_integrable (Real.continuous_exp.comp (continuous_finsetSum _ fun i _ => by fun_prop).neg))
    subst hq hr
    rw [genzGaussian, h]
    exact congrArg (uniformProblem _ _) (overParams_none hA' _)
  · refine posed hd (row := fun x => some (Real.cos (2 * Real.pi * U ⟨0, hd⟩ + ∑ i, A i * x i))) ?_ (fun _ _ => rfl)
      (cube_integrable (Real.continuous_cos.comp (continuous_const.add (continuous_finsetSum _ fun i _ => by fun_prop))))
    subst hq hr
    rw [genzOscillatory, h]
    refine (if_neg (by simp only [Int.toNat_natCast]; omega)).trans ?_
    exact congrArg (uniformProblem _ _) (overParams_none hA' _)
  · rw [genzDiscontinuous, h]
    exact unsolved hd rfl
      ((congrArg₂ (ite ((d : ℤ) = 1)) (overParams_none hA' _) (overParams_none hA' _)).trans (ite_self _))
  · rw [genzCornerpeak, h]
    exact unsolved hd rfl ((congrArg (ite _ none) (overParams_none hA' _)).trans (ite_self _))

theorem params_cases (dim : ℤ) (a u : Option Param) : genzParams dim a u = .error .valueError ∨
    ∃ q r, genzParams dim a u = .ok (q, r) ∧ 0 ≤ dim ∧ Given a 5 (fun i : Fin dim.toNat => q.entry i) ∧
      Given u (1 / 2) (fun i : Fin dim.toNat => r.entry i) ∧ ∀ i < dim.toNat, 0 ≤ r.entry i ∧ r.entry i ≤ 1 := by
  have key : ∀ (p : Option Param) (v w : ℝ), v = w → orDefault p v dim = .error .valueError ∨ ∃ q, orDefault p v dim = .ok q ∧
      (q.shape.map (Nat.cast : ℕ → ℤ) = [dim] → 0 ≤ dim ∧ Given p w (fun i : Fin dim.toNat => q.entry i)) := by
    intro p v w hvw
    cases p with
    | none =>
      by_cases hd : dim < 0
      · exact Or.inl (by simp [orDefault, broadcast, hd])
      · refine Or.inr ⟨⟨[dim.toNat], fun _ => v⟩, by simp [orDefault, broadcast, hd], fun _ => ⟨by omega, ?_⟩⟩
        exact Or.inl ⟨rfl, fun _ => hvw⟩
    | some q =>
      refine Or.inr ⟨q, rfl, fun hs => ?_⟩
      obtain ⟨n, hn, hd⟩ : ∃ n, q.shape = [n] ∧ (n : ℤ) = dim := by
        rcases hq : q.shape with _ | ⟨n, _ | ⟨m, t⟩⟩
        · simp [hq] at hs
        · exact ⟨n, rfl, by simpa [hq] using hs⟩
        · simp [hq] at hs
      refine ⟨by omega, Or.inr ⟨q, rfl, ?_, fun _ => rfl⟩⟩
      rw [hn]
      congr 1
      omega
  rcases key a 5 5 rfl with h1 | ⟨q, h1, hq⟩
  · exact Or.inl (by simp only [genzParams, h1, Except.bind])
  rcases key u 0.5 (1 / 2) (by norm_num) with h2 | ⟨r, h2, hr⟩
  · exact Or.inl (by simp only [genzParams, h1, h2, Except.bind])
  by_cases hqs : q.shape.map (Nat.cast : ℕ → ℤ) = [dim]
  swap
  · exact Or.inl (by simp only [genzParams, h1, h2, Except.bind, ne_eq, hqs, not_false_eq_true, if_true])
  by_cases hrs : r.shape.map (Nat.cast : ℕ → ℤ) = [dim]
  swap
  · exact Or.inl (by simp only [genzParams, h1, h2, Except.bind, ne_eq, hqs, hrs, not_false_eq_true, not_true_eq_false,
      if_false, if_true])
  by_cases hb : (∃ i < dim.toNat, r.entry i < 0) ∨ ∃ i < dim.toNat, 1 < r.entry i
  · exact Or.inl (by simp only [genzParams, h1, h2, Except.bind, ne_eq, hqs, hrs, not_true_eq_false, if_false, if_pos hb])
  · refine Or.inr ⟨q, r, ?_, (hq hqs).1, (hq hqs).2, (hr hrs).2, ?_⟩
    · simp only [genzParams, h1, h2, Except.bind, ne_eq, hqs, hrs, not_true_eq_false, if_false, if_neg hb]
    · simp only [not_or, not_exists, not_and, not_lt] at hb
      exact fun i hi => ⟨hb.1 i hi, hb.2 i hi⟩

theorem uniform_rejects {dim : ℤ} (h : dim ≤ 0) (fn : Points → Res (List (Option ℝ))) (s : Option ℝ) :
    uniformProblem dim fn s = .error .valueError := by
  rw [uniformProblem]
  split_ifs with h1
  · rfl
  · have : Quad.badDim (some dim) = true := by simp [Quad.badDim]; omega
    simp only [Quad.asDomain, this, if_true, Except.map]

/-- **C74.** Arguments that do not denote vectors of length `dim ≥ 1` with `u` in the unit cube are rejected by every Genz
function. (`genz_oscillatory` raises `IndexError` in dimension zero if the parameters are empty, and `ValueError`
otherwise.) -/
theorem genz_rejects (dim : ℤ) (a u : Option Param)
    (h : dim ≤ 0 ∨ ∀ A U : Fin dim.toNat → ℝ, Given a 5 A → Given u (1 / 2) U → ∃ i, U i < 0 ∨ 1 < U i) :
    genzContinuous dim a u = .error .valueError ∧ genzCornerpeak dim a u = .error .valueError ∧
    genzDiscontinuous dim a u = .error .valueError ∧ genzGaussian dim a u = .error .valueError ∧
    genzProductpeak dim a u = .error .valueError ∧
    (genzOscillatory dim a u = .error .valueError ∨ dim = 0 ∧ genzOscillatory dim a u = .error .indexError) := by
  rcases params_cases dim a u with h1 | ⟨q, r, h1, hd, hq, hr, hb⟩
  · simp only [genzContinuous, genzCornerpeak, genzDiscontinuous, genzGaussian, genzProductpeak, genzOscillatory, h1,
      Except.bind, true_or, and_self]
  · rcases h with h | h
    · have h0 : dim.toNat = 0 := by omega
      refine ⟨?_, ?_, ?_, ?_, ?_, Or.inr ⟨by omega, ?_⟩⟩
      · rw [genzContinuous, h1]; exact uniform_rejects h _ _
      · rw [genzCornerpeak, h1]; exact uniform_rejects h _ _
      · rw [genzDiscontinuous, h1]; exact uniform_rejects h _ _
      · rw [genzGaussian, h1]; exact uniform_rejects h _ _
      · rw [genzProductpeak, h1]; exact uniform_rejects h _ _
      · rw [genzOscillatory, h1]; exact if_pos h0
    · obtain ⟨i, hi | hi⟩ := h _ _ hq hr
      · exact absurd hi (not_lt.mpr (hb i i.2).1)
      · exact absurd hi (not_lt.mpr (hb i i.2).2)

end genz

/-! ## Other functions -/

/-- **C74.** `bratley1992`. -/
theorem bratley {d : ℕ} (hd : 1 ≤ d) : ∃ p, bratley1992 d = .ok p ∧
    Poses p d (fun x => ∑ i : Fin d, (-1) ^ (i.val + 1) * ∏ j ∈ Finset.univ.filter (· ≤ i), x j) ∧
    p.solution = some (∫ x in Icc (0 : Fin d → ℝ) 1,
      ∑ i : Fin d, (-1) ^ (i.val + 1) * ∏ j ∈ Finset.univ.filter (· ≤ i), x j) := by
  have hc : ∀ i : Fin d, Continuous fun x : Fin d → ℝ => (-1 : ℝ) ^ (i.val + 1) * ∏ j ∈ Finset.univ.filter (· ≤ i), x j :=
    fun i => continuous_const.mul (continuous_finsetProd _ fun j _ => continuous_apply j)
  refine posed hd (row := fun x => some (∑ i : Fin d, (-1 : ℝ) ^ (i.val + 1) * ∏ j ∈ Finset.univ.filter (· ≤ i), x j)) ?_
    (fun _ _ => rfl) (cube_integrable (continuous_finsetSum _ fun i _ => hc i))
  have e1 : ∀ i : Fin d, ∫ x in Icc (0 : Fin d → ℝ) 1, ∏ j ∈ Finset.univ.filter (· ≤ i), x j = (1 / 2 : ℝ) ^ (i.val + 1) := by
    intro i
    simp only [Finset.prod_filter]
    rw [cube_prod fun j t => if j ≤ i then t else 1]
    have : ∀ j, (∫ t in (0 : ℝ)..1, if j ≤ i then t else 1) = if j ≤ i then 1 / 2 else 1 := by
      intro j
      by_cases hj : j ≤ i
      · simp only [if_pos hj]
        rw [integral_id]
        norm_num
      · simp only [if_neg hj]
        simp
    simp only [this]
    rw [← Finset.prod_filter, Finset.prod_const, show (Finset.univ.filter (· ≤ i)) = Finset.Iic i by ext; simp, Fin.card_Iic]
  have e : ∫ x in Icc (0 : Fin d → ℝ) 1, ∑ i : Fin d, (-1 : ℝ) ^ (i.val + 1) * ∏ j ∈ Finset.univ.filter (· ≤ i), x j =
      -(1 / 3) * (1 - (-0.5) ^ (d : ℤ)) := by
    rw [integral_finsetSum _ fun i _ => cube_integrable (hc i)]
    simp only [integral_const_mul, e1, ← mul_pow]
    rw [Fin.sum_univ_eq_sum_range fun i => (-1 * (1 / 2) : ℝ) ^ (i + 1), zpow_natCast]
    clear hd hc e1
    induction d with
    | zero => simp
    | succ n ih =>
      rw [Finset.sum_range_succ, ih]
      ring
  rw [e]
  rfl

/-- **C74.** `roos_arnold`. -/
theorem roos_arnold {d : ℕ} (hd : 1 ≤ d) : ∃ p, roosArnold d = .ok p ∧ Poses p d (fun x => ∏ i, |4 * x i - 2|) ∧
    p.solution = some (∫ x in Icc (0 : Fin d → ℝ) 1, ∏ i, |4 * x i - 2|) := by
  refine posed hd (row := fun x => some (∏ i, |4 * x i - 2|)) ?_ (fun _ _ => rfl)
    (cube_integrable (continuous_finsetProd _ fun i _ => by fun_prop))
  rw [cube_prod fun _ t => |4 * t - 2|]
  simp only [integral_roos, Finset.prod_const_one]
  rfl

/-- **C74.** `gfunction`; the parameters are `a_i = (i - 2) / 2` for `i = 1, …, d`. -/
theorem gfunction_solution {d : ℕ} (hd : 1 ≤ d) : ∃ p, gfunction d = .ok p ∧
    Poses p d (fun x => ∏ i : Fin d, (|4 * x i - 2| + (((i : ℕ) + 1 : ℝ) - 2) / 2) / (1 + (((i : ℕ) + 1 : ℝ) - 2) / 2)) ∧
    p.solution = some (∫ x in Icc (0 : Fin d → ℝ) 1,
      ∏ i : Fin d, (|4 * x i - 2| + (((i : ℕ) + 1 : ℝ) - 2) / 2) / (1 + (((i : ℕ) + 1 : ℝ) - 2) / 2)) := by
  refine posed hd (row := fun x => some (∏ i : Fin d, (|4 * x i - 2| + (((i : ℕ) + 1 : ℝ) - 2) / 2) /
    (1 + (((i : ℕ) + 1 : ℝ) - 2) / 2))) ?_ (fun _ _ => rfl) (cube_integrable (continuous_finsetProd _ fun i _ => by fun_prop))
  rw [cube_prod fun (i : Fin d) t => (|4 * t - 2| + (((i : ℕ) + 1 : ℝ) - 2) / 2) / (1 + (((i : ℕ) + 1 : ℝ) - 2) / 2)]
  have : ∀ i : Fin d, ∫ t in (0 : ℝ)..1, (|4 * t - 2| + (((i : ℕ) + 1 : ℝ) - 2) / 2) / (1 + (((i : ℕ) + 1 : ℝ) - 2) / 2) = 1 := by
    intro i
    rw [intervalIntegral.integral_div, intervalIntegral.integral_add
      ((by fun_prop : Continuous fun t : ℝ => |4 * t - 2|).intervalIntegrable _ _)
      (continuous_const.intervalIntegrable _ _), integral_roos]
    have : (0 : ℝ) ≤ (i : ℕ) := Nat.cast_nonneg _
    have hne : 1 + (((i : ℕ) + 1 : ℝ) - 2) / 2 ≠ 0 := by linarith
    simp only [intervalIntegral.integral_const, sub_zero, one_smul]
    exact div_self hne
  simp only [this, Finset.prod_const_one]
  rfl

/-- **C74.** `morokoff_caflisch_1`. -/
theorem morokoff_caflisch_one {d : ℕ} (hd : 1 ≤ d) : ∃ p, morokoffCaflisch1 d = .ok p ∧
    Poses p d (fun x => (1 + 1 / (d : ℝ)) ^ d * ∏ i, (x i) ^ (1 / (d : ℝ))) ∧
    p.solution = some (∫ x in Icc (0 : Fin d → ℝ) 1, (1 + 1 / (d : ℝ)) ^ d * ∏ i, (x i) ^ (1 / (d : ℝ))) := by
  have hd0 : (0 : ℝ) < d := by exact_mod_cast hd
  have hq : (0 : ℝ) ≤ 1 / (d : ℝ) := by positivity
  refine posed hd (row := fun x => some ((1 + 1 / (d : ℝ)) ^ d * ∏ i, (x i) ^ (1 / (d : ℝ)))) ?_ (fun _ _ => rfl)
    (cube_integrable (continuous_const.mul (continuous_finsetProd _ fun i _ =>
      (Real.continuous_rpow_const hq).comp (continuous_apply i))))
  rw [integral_const_mul, cube_prod fun _ t => t ^ (1 / (d : ℝ))]
  rw [integral_rpow (Or.inl (by linarith))]
  rw [Finset.prod_const, Finset.card_univ, Fintype.card_fin, Real.one_rpow, Real.zero_rpow (by linarith), sub_zero,
    ← mul_pow, add_comm (1 / (d : ℝ)) 1, mul_one_div_cancel (by linarith), one_pow]
  rfl

/-- **C74.** `morokoff_caflisch_2`. -/
theorem morokoff_caflisch_two {d : ℕ} (hd : 1 ≤ d) : ∃ p, morokoffCaflisch2 d = .ok p ∧
    Poses p d (fun x => 1 / ((d : ℝ) - 1 / 2) ^ d * ∏ i, ((d : ℝ) - x i)) ∧
    p.solution = some (∫ x in Icc (0 : Fin d → ℝ) 1, 1 / ((d : ℝ) - 1 / 2) ^ d * ∏ i, ((d : ℝ) - x i)) := by
  have hd0 : (1 : ℝ) ≤ d := by exact_mod_cast hd
  refine posed hd (row := fun x => some (1 / ((d : ℝ) - 0.5) ^ d * ∏ i, ((d : ℝ) - x i))) ?_
    (fun _ _ => by norm_num)
    (cube_integrable (continuous_const.mul (continuous_finsetProd _ fun i _ => by fun_prop)))
  rw [integral_const_mul, cube_prod fun _ t => (d : ℝ) - t]
  have : ∫ t in (0 : ℝ)..1, ((d : ℝ) - t) = d - 1 / 2 := by
    have h := intervalIntegral.integral_sub (μ := volume) (a := 0) (b := 1) (f := fun _ : ℝ => (d : ℝ)) (g := fun t : ℝ => t)
      (continuous_const.intervalIntegrable _ _) (continuous_id.intervalIntegrable _ _)
    rw [h, integral_id]
    simp
  rw [this, Finset.prod_const, Finset.card_univ, Fintype.card_fin, one_div_mul_cancel (pow_ne_zero _ (by linarith))]
  rfl

/-- **C74.** The functions without parameters reject dimensions that are not positive. -/
theorem dimension_rejects {dim : ℤ} (h : dim ≤ 0) : bratley1992 dim = .error .valueError ∧
    roosArnold dim = .error .valueError ∧ gfunction dim = .error .valueError ∧
    morokoffCaflisch1 dim = .error .valueError ∧ morokoffCaflisch2 dim = .error .valueError :=
  ⟨uniform_rejects h _ _, uniform_rejects h _ _, uniform_rejects h _ _, uniform_rejects h _ _, uniform_rejects h _ _⟩

/-! ## Examples -/

/-- The hypotheses are met by parameters in dimension two, one of them the default. -/
example : ∃ (a u : Option Param) (A U : Fin 2 → ℝ), Given a 5 A ∧ Given u (1 / 2) U ∧ (∀ i, 0 ≤ U i ∧ U i ≤ 1) ∧
    (∀ i, A i ≠ 0) ∧ ∀ x ∈ Icc (0 : Fin 2 → ℝ) 1, 0 < 1 + ∑ i, A i * x i := by
  refine ⟨some ⟨[2], fun i => i + 1⟩, none, fun i => (i : ℕ) + 1, fun _ => 1 / 2, Or.inr ⟨_, rfl, rfl, fun _ => rfl⟩,
    Or.inl ⟨rfl, fun _ => rfl⟩, fun i => by norm_num, fun i => by positivity, fun x hx => ?_⟩
  have : 0 ≤ ∑ i : Fin 2, ((i : ℕ) + 1 : ℝ) * x i := Finset.sum_nonneg fun i _ => mul_nonneg (by positivity) (hx.1 i)
  linarith

/-- Points of the square, and an array that is not accepted. -/
example : InBox 2 3 ⟨[3, 2], fun i j => if i = j then 1 / 4 else 1⟩ ∧ ∀ n, ¬InBox 2 n ⟨[3, 3], fun _ _ => 0⟩ := by
  refine ⟨⟨rfl, fun i _ j _ => ?_⟩, fun n h => ?_⟩
  · dsimp only
    split <;> norm_num
  · exact absurd h.1 (by simp)

/-- Values of `u` outside of the unit interval are rejected. -/
example : ∀ A U : Fin (1 : ℤ).toNat → ℝ, Given none 5 A → Given (some ⟨[1], fun _ => 2⟩) (1 / 2) U → ∃ i, U i < 0 ∨ 1 < U i := by
  rintro A U - (⟨h, -⟩ | ⟨q, hq, -, h⟩)
  · cases h
  · refine ⟨⟨0, by decide⟩, Or.inr ?_⟩
    rw [← h, ← Option.some.inj hq]
    norm_num

end Probnum.Zoo
