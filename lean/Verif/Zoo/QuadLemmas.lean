import Verif.Zoo.Quad
import Verif.Quad.MaternLemmas
import Verif.Quad.PropsMatern
import Mathlib.MeasureTheory.Constructions.Pi
import Mathlib.MeasureTheory.Integral.Pi
import Mathlib.MeasureTheory.Integral.Prod
import Mathlib.MeasureTheory.Integral.IntervalIntegral.FundThmCalculus
import Mathlib.MeasureTheory.Integral.IntegralEqImproper
import Mathlib.Analysis.SpecialFunctions.Gaussian.GaussianIntegral
import Mathlib.Analysis.SpecialFunctions.Trigonometric.ArctanDeriv
import Mathlib.Analysis.SpecialFunctions.Integrability.Basic
import Mathlib.Algebra.BigOperators.Fin
import Mathlib.Data.Finset.Powerset
import Mathlib.Data.Multiset.Powerset

/-! # Integrals used for the quadrature test problems -/

namespace Probnum.Zoo

open MeasureTheory Set

/-! ## One-dimensional integrals -/

theorem integral_continuous {a u : ℝ} (ha : a ≠ 0) (h0 : 0 ≤ u) (h1 : u ≤ 1) :
    ∫ t in (0 : ℝ)..1, Real.exp (-(a * |t - u|)) = (2 - Real.exp (-1 * a * u) - Real.exp (a * (u - 1))) / a := by
  have hK : ∀ r, HasDerivAt (fun r : ℝ => (1 - Real.exp (-(a * r))) / a) (Real.exp (-(a * r))) r := by
    intro r
    have h := ((((hasDerivAt_id r).const_mul a).neg.exp).const_sub 1).div_const a
    refine h.congr_deriv ?_
    simp
    field_simp
  have := Quad.integral_dist hK (by fun_prop) (by simp) h0 h1
  rw [this]
  field_simp
  ring_nf

theorem integral_discontinuous {a u : ℝ} (ha : a ≠ 0) (h0 : 0 ≤ u) (h1 : u ≤ 1) :
    ∫ t in (0 : ℝ)..1, (if u < t then 0 else Real.exp (a * t)) = (Real.exp (a * u) - 1) / a := by
  have hd : ∀ r, HasDerivAt (fun r : ℝ => Real.exp (a * r) / a) (Real.exp (a * r)) r := by
    intro r
    have h := (((hasDerivAt_id r).const_mul a).exp).div_const a
    refine h.congr_deriv ?_
    simp
    field_simp
  have e1 : ∫ t in (0 : ℝ)..u, (if u < t then 0 else Real.exp (a * t)) = (Real.exp (a * u) - 1) / a := by
    have : ∫ t in (0 : ℝ)..u, (if u < t then 0 else Real.exp (a * t)) = ∫ t in (0 : ℝ)..u, Real.exp (a * t) := by
      refine intervalIntegral.integral_congr fun t ht => ?_
      rw [uIcc_of_le h0] at ht
      simp only [if_neg (not_lt.mpr ht.2)]
    rw [this, intervalIntegral.integral_eq_sub_of_hasDerivAt (fun r _ => hd r)
      ((by fun_prop : Continuous fun t => Real.exp (a * t)).intervalIntegrable _ _)]
    simp
    ring
  have e2 : ∫ t in u..1, (if u < t then 0 else Real.exp (a * t)) = 0 := by
    have : ∫ t in u..1, (if u < t then 0 else Real.exp (a * t)) = ∫ t in u..1, (0 : ℝ) := by
      refine intervalIntegral.integral_congr_ae (Filter.Eventually.of_forall fun t ht => ?_)
      rw [uIoc_of_le h1] at ht
      simp only [if_pos ht.1]
    rw [this]
    simp
  have i1 : IntervalIntegrable (fun t => if u < t then 0 else Real.exp (a * t)) volume 0 u := by
    refine ((by fun_prop : Continuous fun t => Real.exp (a * t)).intervalIntegrable 0 u).congr ?_
    intro t ht
    rw [uIoc_of_le h0] at ht
    simp only [if_neg (not_lt.mpr ht.2)]
  have i2 : IntervalIntegrable (fun t => if u < t then 0 else Real.exp (a * t)) volume u 1 := by
    refine ((continuous_const : Continuous fun _ : ℝ => (0 : ℝ)).intervalIntegrable u 1).congr ?_
    intro t ht
    rw [uIoc_of_le h1] at ht
    simp only [if_pos ht.1]
  rw [← intervalIntegral.integral_add_adjacent_intervals i1 i2, e1, e2, add_zero]

theorem normCdf_sub {x y : ℝ} (h : x ≤ y) :
    normCdf y - normCdf x = ∫ t in x..y, (Real.sqrt (2 * Real.pi))⁻¹ * Real.exp (-t ^ 2 / 2) := by
  have hi : Integrable fun t : ℝ => (Real.sqrt (2 * Real.pi))⁻¹ * Real.exp (-t ^ 2 / 2) := by
    have := (integrable_exp_neg_mul_sq (b := 1 / 2) (by norm_num)).const_mul (Real.sqrt (2 * Real.pi))⁻¹
    refine this.congr (Filter.Eventually.of_forall fun t => ?_)
    simp only
    congr 2
    ring
  rw [normCdf, normCdf, intervalIntegral.integral_Iic_sub_Iic hi.integrableOn hi.integrableOn]

theorem normCdf_hasDerivAt (x : ℝ) : HasDerivAt normCdf ((Real.sqrt (2 * Real.pi))⁻¹ * Real.exp (-x ^ 2 / 2)) x := by
  have hc : Continuous fun t : ℝ => (Real.sqrt (2 * Real.pi))⁻¹ * Real.exp (-t ^ 2 / 2) := by fun_prop
  have h := (intervalIntegral.integral_hasDerivAt_right (hc.intervalIntegrable 0 x)
    (hc.stronglyMeasurableAtFilter _ _) hc.continuousAt).const_add (normCdf 0)
  refine h.congr_of_eventuallyEq (Filter.Eventually.of_forall fun y => ?_)
  rcases le_total 0 y with hy | hy
  · have := normCdf_sub hy
    simp only
    linarith
  · have := normCdf_sub hy
    rw [intervalIntegral.integral_symm] at this
    simp only
    linarith

theorem integral_gaussian {a u : ℝ} (ha : a ≠ 0) :
    ∫ t in (0 : ℝ)..1, Real.exp (-(a * (t - u)) ^ 2) =
      Real.sqrt Real.pi * ((normCdf (Real.sqrt 2 * a * (1 - u)) - normCdf (-Real.sqrt 2 * a * u)) / a) := by
  have hd : ∀ t, HasDerivAt (fun t : ℝ => Real.sqrt Real.pi / a * normCdf (Real.sqrt 2 * a * (t - u)))
      (Real.exp (-(a * (t - u)) ^ 2)) t := by
    intro t
    have h1 : HasDerivAt (fun t : ℝ => Real.sqrt 2 * a * (t - u)) (Real.sqrt 2 * a) t := by
      simpa using ((hasDerivAt_id t).sub_const u).const_mul (Real.sqrt 2 * a)
    have h := ((normCdf_hasDerivAt (Real.sqrt 2 * a * (t - u))).comp t h1).const_mul (Real.sqrt Real.pi / a)
    refine h.congr_deriv ?_
    have h2 : Real.sqrt 2 ≠ 0 := by positivity
    have hp : Real.sqrt Real.pi ≠ 0 := by positivity
    have e : -(Real.sqrt 2 * a * (t - u)) ^ 2 / 2 = -(a * (t - u)) ^ 2 := by
      have := Real.sq_sqrt (show (0 : ℝ) ≤ 2 by norm_num)
      rw [mul_pow, mul_pow, this]
      ring
    rw [e, Real.sqrt_mul (by norm_num)]
    field_simp
  rw [intervalIntegral.integral_eq_sub_of_hasDerivAt (fun t _ => hd t)
    ((by fun_prop : Continuous fun t => Real.exp (-(a * (t - u)) ^ 2)).intervalIntegrable _ _)]
  have e : Real.sqrt 2 * a * (0 - u) = -Real.sqrt 2 * a * u := by ring
  rw [e]
  ring

theorem integral_peak {a u : ℝ} :
    ∫ t in (0 : ℝ)..1, peak a t u = a * (Real.arctan (a * (1 - u)) - Real.arctan (-1 * a * u)) := by
  by_cases ha : a = 0
  · simp [peak, ha]
  simp only [peak, if_neg ha]
  have hpos : ∀ t, 1 / a ^ 2 + (t - u) ^ 2 ≠ 0 := fun t => by positivity
  have hd : ∀ t, HasDerivAt (fun t : ℝ => a * Real.arctan (a * (t - u))) (1 / (1 / a ^ 2 + (t - u) ^ 2)) t := by
    intro t
    have h1 : HasDerivAt (fun t : ℝ => a * (t - u)) a t := by
      simpa using ((hasDerivAt_id t).sub_const u).const_mul a
    have h := (h1.arctan).const_mul a
    refine h.congr_deriv ?_
    have := hpos t
    have h3 : 1 + (a * (t - u)) ^ 2 ≠ 0 := by positivity
    field_simp
  rw [intervalIntegral.integral_eq_sub_of_hasDerivAt (fun t _ => hd t)
    ((Continuous.div continuous_const (by fun_prop) hpos).intervalIntegrable _ _)]
  have e : a * (0 - u) = -1 * a * u := by ring
  rw [e]
  ring

theorem integral_roos : ∫ t in (0 : ℝ)..1, |4 * t - 2| = 1 := by
  have hK : ∀ r, HasDerivAt (fun r : ℝ => 2 * r ^ 2) (4 * r) r := by
    intro r
    have h := ((hasDerivAt_id r).pow 2).const_mul 2
    refine h.congr_deriv ?_
    simp
    ring
  have := Quad.integral_dist hK (by fun_prop) (by simp) (show (0 : ℝ) ≤ 1 / 2 by norm_num) (show (1 / 2 : ℝ) ≤ 1 by norm_num)
  have e : ∀ t : ℝ, |4 * t - 2| = 4 * |t - 1 / 2| := by
    intro t
    rw [show 4 * t - 2 = 4 * (t - 1 / 2) by ring, abs_mul, abs_of_pos (by norm_num)]
  simp only [e]
  rw [this]
  norm_num

/-! ## Integrals over the unit cube -/

theorem integral_cube_succ {n : ℕ} {F : (Fin (n + 1) → ℝ) → ℝ} (hF : IntegrableOn F (Icc 0 1)) :
    ∫ x in Icc (0 : Fin (n + 1) → ℝ) 1, F x =
      ∫ t in (0 : ℝ)..1, ∫ y in Icc (0 : Fin n → ℝ) 1, F (Fin.cons t y) := by
  let e := MeasurableEquiv.piFinSuccAbove (fun _ : Fin (n + 1) => ℝ) 0
  have mp := volume_preserving_piFinSuccAbove (fun _ : Fin (n + 1) => ℝ) 0
  have hs : e.symm ⁻¹' (Icc (0 : Fin (n + 1) → ℝ) 1) = Icc (0 : ℝ) 1 ×ˢ Icc (0 : Fin n → ℝ) 1 := by
    ext ⟨t, y⟩
    simp only [e, mem_preimage, mem_Icc, mem_prod, Pi.le_def, MeasurableEquiv.piFinSuccAbove_symm_apply,
      Fin.forall_fin_succ, Fin.insertNthEquiv, Equiv.coe_fn_mk, Fin.insertNth_zero', Fin.cons_zero, Fin.cons_succ,
      Pi.zero_apply, Pi.one_apply]
    tauto
  have hsymm : ∀ p : ℝ × (Fin n → ℝ), e.symm p = Fin.cons p.1 p.2 := by
    intro p
    simp [e, MeasurableEquiv.piFinSuccAbove_symm_apply, Fin.insertNthEquiv]
  rw [intervalIntegral.integral_of_le zero_le_one, ← integral_Icc_eq_integral_Ioc,
    ← mp.symm.setIntegral_preimage_emb (MeasurableEquiv.measurableEmbedding _), hs]
  have hi : IntegrableOn (fun p : ℝ × (Fin n → ℝ) => F (e.symm p)) (Icc (0 : ℝ) 1 ×ˢ Icc (0 : Fin n → ℝ) 1) := by
    rw [← hs]
    exact (mp.symm.integrableOn_comp_preimage (MeasurableEquiv.measurableEmbedding _)).mpr hF
  have := setIntegral_prod (fun p : ℝ × (Fin n → ℝ) => F (e.symm p)) hi
  rw [show (volume : Measure (ℝ × (Fin n → ℝ))) = volume.prod volume from rfl]
  refine Eq.trans this ?_
  simp only [hsymm]

/-! ## Alternating sums over subsets -/

/-- The iterated difference of `h`: the alternating sum over all subsets of the increments. -/
def diffs (h : ℝ → ℝ) : List ℝ → ℝ → ℝ
  | [], c => h c
  | a :: l, c => diffs h l (c + a) - diffs h l c

theorem diffs_sublists {ι : Type*} (h : ℝ → ℝ) (a : ι → ℝ) (l : List ι) : ∀ c : ℝ,
    (l.sublists'.map fun sub => (-1 : ℝ) ^ sub.length * h (c + (l.map a).sum - (sub.map a).sum)).sum =
      diffs h (l.map a) c := by
  induction l with
  | nil => intro c; simp [diffs]
  | cons i l ih =>
    intro c
    rw [List.sublists'_cons, List.map_append, List.sum_append, List.map_map, List.map_cons, diffs, ← ih, ← ih]
    rw [sub_eq_add_neg, ← neg_one_mul (List.sum _), ← List.sum_map_mul_left]
    congr 2
    · refine List.map_congr_left fun sub _ => ?_
      rw [List.sum_cons, add_assoc]
    · refine List.map_congr_left fun sub _ => ?_
      simp only [Function.comp, List.length_cons, List.map_cons, List.sum_cons]
      rw [show c + (a i + (l.map a).sum) - (a i + (sub.map a).sum) = c + (l.map a).sum - (sub.map a).sum by ring]
      ring

theorem foldl_add {α : Type*} (f : α → ℝ) (l : List α) (s : ℝ) : l.foldl (fun s c => s + f c) s = s + (l.map f).sum := by
  induction l generalizing s with
  | nil => simp
  | cons x l ih => rw [List.foldl_cons, ih, List.map_cons, List.sum_cons, add_assoc]

theorem subsetLoop_eq (dim : ℕ) (term : ℕ → List (Fin dim) → ℝ) :
    subsetLoop dim term = (((List.finRange dim).sublists'.map fun sub => term sub.length sub)).sum := by
  have hp := List.range_bind_sublistsLen_perm (List.finRange dim)
  rw [List.length_finRange] at hp
  rw [← (hp.map fun sub => term sub.length sub).sum_eq, subsetLoop]
  have : ∀ s k, (combinations dim k).foldl (fun s c => s + term k c) s =
      s + ((combinations dim k).map fun sub => term sub.length sub).sum := by
    intro s k
    rw [foldl_add]
    congr 2
    refine List.map_congr_left fun sub hsub => ?_
    rw [(List.mem_sublistsLen.mp hsub).2]
  simp only [this]
  rw [foldl_add, zero_add, List.map_flatMap, List.flatMap_def, List.sum_flatten, List.map_map]
  rfl

/-- Every partial sum lies in `U`. -/
def Inside (U : Set ℝ) : List ℝ → ℝ → Prop
  | [], s => s ∈ U
  | a :: l, s => Inside U l (s + a) ∧ Inside U l s

theorem inside_cube {U : Set ℝ} {d : ℕ} (a : Fin d → ℝ) (s : ℝ) (h : ∀ x ∈ Icc (0 : Fin d → ℝ) 1, s + ∑ i, a i * x i ∈ U) :
    Inside U (List.ofFn a) s := by
  induction d generalizing s with
  | zero =>
    have := h 0 (by simp)
    simpa [Inside] using this
  | succ n ih =>
    rw [List.ofFn_succ]
    refine ⟨ih _ _ fun x hx => ?_, ih _ _ fun x hx => ?_⟩
    · have := h (Fin.cons 1 x) ?_
      · rw [Fin.sum_univ_succ] at this
        simpa [add_assoc] using this
      · constructor <;> intro i <;> refine Fin.cases ?_ (fun j => ?_) i <;> simp [hx.1 _, hx.2 _]
        exacts [hx.1 j, hx.2 j]
    · have := h (Fin.cons 0 x) ?_
      · rw [Fin.sum_univ_succ] at this
        simpa [add_assoc] using this
      · constructor <;> intro i <;> refine Fin.cases ?_ (fun j => ?_) i <;> simp [hx.1 _, hx.2 _]
        exacts [hx.1 j, hx.2 j]

theorem diffs_deriv {h h' : ℝ → ℝ} {U : Set ℝ} (hh : ∀ s ∈ U, HasDerivAt h (h' s) s) (l : List ℝ) :
    ∀ s, Inside U l s → HasDerivAt (diffs h l) (diffs h' l s) s := by
  induction l with
  | nil => intro s hs; exact hh s hs
  | cons a l ih =>
    intro s hs
    have h1 : HasDerivAt (fun s : ℝ => diffs h l (s + a)) (diffs h' l (s + a)) s := by
      simpa using (ih (s + a) hs.1).comp_add_const s a
    exact h1.sub (ih s hs.2)

theorem integral_chain {d : ℕ} : ∀ (g : ℕ → ℝ → ℝ) (U : Set ℝ) (_ : ∀ k, ∀ s ∈ U, HasDerivAt (g k) (g (k + 1) s) s)
    (a : Fin d → ℝ) (c : ℝ) (_ : ∀ x ∈ Icc (0 : Fin d → ℝ) 1, c + ∑ i, a i * x i ∈ U),
    (∏ i, a i) * ∫ x in Icc (0 : Fin d → ℝ) 1, g d (c + ∑ i, a i * x i) = diffs (g 0) (List.ofFn a) c := by
  induction d with
  | zero =>
    intro g U hg a c hU
    have : Icc (0 : Fin 0 → ℝ) 1 = Set.univ := by
      ext x
      simp [Subsingleton.elim x 0, Subsingleton.elim (1 : Fin 0 → ℝ) 0]
    rw [this]
    simp [diffs, volume_pi, measureReal_def]
  | succ n ih =>
    intro g U hg a c hU
    have hmem : ∀ t ∈ Icc (0 : ℝ) 1, ∀ y ∈ Icc (0 : Fin n → ℝ) 1, (Fin.cons t y : Fin (n + 1) → ℝ) ∈ Icc (0 : Fin (n + 1) → ℝ) 1 := by
      intro t ht y hy
      constructor <;> intro i <;> refine Fin.cases ?_ (fun j => ?_) i
      exacts [by simpa using ht.1, by simpa using hy.1 j, by simpa using ht.2, by simpa using hy.2 j]
    have hU' : ∀ t ∈ Icc (0 : ℝ) 1, ∀ y ∈ Icc (0 : Fin n → ℝ) 1, c + a 0 * t + ∑ i, a (Fin.succ i) * y i ∈ U := by
      intro t ht y hy
      have := hU _ (hmem t ht y hy)
      rw [Fin.sum_univ_succ] at this
      simpa [add_assoc] using this
    have hcont : ContinuousOn (fun x : Fin (n + 1) → ℝ => g (n + 1) (c + ∑ i, a i * x i)) (Icc 0 1) := by
      intro x hx
      refine ContinuousAt.continuousWithinAt ?_
      have h1 : ContinuousAt (g (n + 1)) (c + ∑ i, a i * x i) := (hg (n + 1) _ (hU x hx)).continuousAt
      exact ContinuousAt.comp (f := fun x : Fin (n + 1) → ℝ => c + ∑ i, a i * x i) h1
        (continuousAt_const.add (tendsto_finsetSum _ fun i _ => (continuousAt_const.mul (continuousAt_apply i x))))
    rw [integral_cube_succ (hcont.integrableOn_compact isCompact_Icc), Fin.prod_univ_succ, mul_assoc,
      ← intervalIntegral.integral_const_mul]
    have e1 : ∀ t ∈ Icc (0 : ℝ) 1, (∏ i : Fin n, a i.succ) * ∫ y in Icc (0 : Fin n → ℝ) 1,
        g (n + 1) (c + ∑ i, a i * (Fin.cons t y : Fin (n + 1) → ℝ) i) =
          diffs (g 1) (List.ofFn fun i => a (Fin.succ i)) (c + a 0 * t) := by
      intro t ht
      rw [← ih (fun k => g (k + 1)) U (fun k => hg (k + 1)) (fun i => a (Fin.succ i)) (c + a 0 * t) (hU' t ht)]
      congr 1
      refine setIntegral_congr_fun measurableSet_Icc fun y _ => ?_
      simp only [Fin.sum_univ_succ, Fin.cons_zero, Fin.cons_succ, add_assoc]
    have hin : ∀ t ∈ Icc (0 : ℝ) 1, Inside U (List.ofFn fun i => a (Fin.succ i)) (c + a 0 * t) := fun t ht =>
      inside_cube _ _ (hU' t ht)
    rw [intervalIntegral.integral_congr (g := fun t => diffs (g 1) (List.ofFn fun i => a (Fin.succ i)) (c + a 0 * t))
      (fun t ht => e1 t (by rwa [uIcc_of_le zero_le_one] at ht)), ← intervalIntegral.integral_const_mul]
    have hlin : ∀ t : ℝ, HasDerivAt (fun t : ℝ => c + a 0 * t) (a 0) t := fun t => by
      simpa using ((hasDerivAt_id t).const_mul (a 0)).const_add c
    have hd : ∀ k, ∀ t ∈ Icc (0 : ℝ) 1, HasDerivAt (fun t => diffs (g k) (List.ofFn fun i => a (Fin.succ i)) (c + a 0 * t))
        (a 0 * diffs (g (k + 1)) (List.ofFn fun i => a (Fin.succ i)) (c + a 0 * t)) t := by
      intro k t ht
      have := (diffs_deriv (hg k) _ _ (hin t ht)).comp t (hlin t)
      rwa [mul_comm] at this
    rw [intervalIntegral.integral_eq_sub_of_hasDerivAt (fun t ht => hd 0 t (by rwa [uIcc_of_le zero_le_one] at ht))]
    · rw [List.ofFn_succ, diffs]
      simp
    · refine ContinuousOn.intervalIntegrable fun t ht => ?_
      rw [uIcc_of_le zero_le_one] at ht
      exact ((hd 1 t ht).continuousAt.const_mul _).continuousWithinAt

end Probnum.Zoo
