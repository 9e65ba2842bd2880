import Verif.OdeFilter.Autodiff
import Mathlib.Analysis.Calculus.ContDiff.Comp
import Mathlib.Analysis.Calculus.IteratedDeriv.Lemmas
import Mathlib.Analysis.Calculus.ContDiff.FiniteDimension
import Mathlib.Analysis.Calculus.Deriv.Pow
import Mathlib.Analysis.Calculus.Deriv.Pi

/-! # Lemmas on derivatives of solutions of ODEs -/

namespace Probnum.OdeFilter

open Filter Topology

section General

variable {E : Type*} [NormedAddCommGroup E] [NormedSpace ℝ E] {F : E → E} {z : ℝ → E} {t₀ : ℝ} {N : ℕ}

/-- Derivatives of the vector field along itself. -/
noncomputable def alongField (F : E → E) : ℕ → E → E
  | 0 => F
  | k + 1 => fun x => fderiv ℝ (alongField F k) x (F x)

theorem alongField_contDiffAt {x : E} (hF : ContDiffAt ℝ N F x) : ∀ k ≤ N, ContDiffAt ℝ ((N - k : ℕ)) (alongField F k) x
  | 0, _ => hF
  | k + 1, hk => by
    have h1 := alongField_contDiffAt hF k (by omega)
    have h2 : ContDiffAt ℝ ((N - (k + 1) : ℕ)) (fderiv ℝ (alongField F k)) x := by
      refine h1.fderiv_right ?_
      have : N - (k + 1) + 1 = N - k := by omega
      exact_mod_cast this.le
    have h3 : ContDiffAt ℝ ((N - (k + 1) : ℕ)) F x := hF.of_le (by exact_mod_cast Nat.sub_le _ _)
    exact h2.clm_apply h3

/-- The derivatives of a solution are the derivatives of the vector field along itself. -/
theorem iteratedDeriv_solution (hz : ∀ᶠ t in 𝓝 t₀, HasDerivAt z (F (z t)) t) (hF : ContDiffAt ℝ N F (z t₀)) :
    ∀ k ≤ N, ∀ᶠ t in 𝓝 t₀, iteratedDeriv (k + 1) z t = alongField F k (z t)
  | 0, _ => hz.mono fun t ht => by rw [iteratedDeriv_one, ht.deriv]; rfl
  | k + 1, hk => by
    have h1 := (iteratedDeriv_solution hz hF k (by omega)).eventually_nhds
    have hc : ContinuousAt z t₀ := hz.self_of_nhds.continuousAt
    have h2 : ∀ᶠ x in 𝓝 (z t₀), DifferentiableAt ℝ (alongField F k) x := by
      have := (alongField_contDiffAt hF k (by omega)).eventually (by simp)
      refine this.mono fun x hx => hx.differentiableAt ?_
      have : N - k ≠ 0 := by omega
      exact_mod_cast this
    filter_upwards [h1, hc.eventually h2, hz] with t e1 e2 e3
    have e1' : iteratedDeriv (k + 1) z =ᶠ[𝓝 t] fun x => alongField F k (z x) := e1
    rw [iteratedDeriv_succ, e1'.deriv_eq]
    exact (e2.hasFDerivAt.comp_hasDerivAt t e3).deriv

/-- Solutions are one time more differentiable than the vector field. -/
theorem solution_contDiffAt (hz : ∀ᶠ t in 𝓝 t₀, HasDerivAt z (F (z t)) t) (hF : ContDiffAt ℝ N F (z t₀)) :
    ∀ k ≤ N + 1, ContDiffAt ℝ (k : ℕ) z t₀
  | 0, _ => by
    have : ∀ᶠ t in 𝓝 t₀, ContinuousAt z t := hz.mono fun t ht => ht.continuousAt
    rw [Nat.cast_zero, contDiffAt_zero]
    obtain ⟨u, hu, h⟩ := this.exists_mem
    exact ⟨u, hu, fun t ht => (h t ht).continuousWithinAt⟩
  | k + 1, hk => by
    have h1 := solution_contDiffAt hz hF k (by omega)
    have h2 : ContDiffAt ℝ k F (z t₀) := hF.of_le (by exact_mod_cast (by omega : k ≤ N))
    have h3 : ContDiffAt ℝ k (fun t => F (z t)) t₀ := h2.comp t₀ h1
    have : ((k + 1 : ℕ) : WithTop ℕ∞) = (k : WithTop ℕ∞) + 1 := by norm_cast
    rw [this, contDiffAt_succ_iff_hasFDerivAt]
    refine ⟨fun t => ContinuousLinearMap.toSpanSingleton ℝ (F (z t)), hz.exists_mem, ?_⟩
    exact (ContinuousLinearMap.toSpanSingletonCLE (𝕜 := ℝ) (E := E)).contDiff.contDiffAt.comp t₀ h3

/-- The derivatives of a composition depend only on those of the inner function. -/
theorem iteratedDeriv_comp_congr {p₁ p₂ : ℝ → E} {j : ℕ} (h0 : p₁ 0 = p₂ 0) (hF : ContDiffAt ℝ j F (p₁ 0))
    (h1 : ContDiffAt ℝ j p₁ 0) (h2 : ContDiffAt ℝ j p₂ 0) (h : ∀ i ≤ j, iteratedDeriv i p₁ 0 = iteratedDeriv i p₂ 0) :
    iteratedDeriv j (fun s => F (p₁ s)) 0 = iteratedDeriv j (fun s => F (p₂ s)) 0 := by
  have e1 := iteratedFDeriv_comp (g := F) (f := p₁) (x := (0 : ℝ)) hF h1 (i := j) le_rfl
  have e2 := iteratedFDeriv_comp (g := F) (f := p₂) (x := (0 : ℝ)) (h0 ▸ hF) h2 (i := j) le_rfl
  have hs : ∀ i ≤ j, iteratedFDeriv ℝ i p₁ 0 = iteratedFDeriv ℝ i p₂ 0 := fun i hi => by
    ext m
    rw [iteratedFDeriv_apply_eq_iteratedDeriv_mul_prod, iteratedFDeriv_apply_eq_iteratedDeriv_mul_prod, h i hi]
  have : iteratedFDeriv ℝ j (F ∘ p₁) 0 = iteratedFDeriv ℝ j (F ∘ p₂) 0 := by
    rw [e1, e2, h0]
    unfold FormalMultilinearSeries.taylorComp
    refine Finset.sum_congr rfl fun c _ => ?_
    unfold FormalMultilinearSeries.compAlongOrderedFinpartition
    congr 1
    funext m
    exact hs _ (c.partSize_le m)
  show iteratedFDeriv ℝ j (F ∘ p₁) 0 (fun _ => 1) = iteratedFDeriv ℝ j (F ∘ p₂) 0 (fun _ => 1)
  rw [this]

end General

section Curve

variable {n : ℕ}

theorem curve_cons (a : Fin n → ℝ) (c : List (Fin n → ℝ)) (s : ℝ) :
    curve (a :: c) s = a + ∑ i ∈ Finset.range c.length, (s ^ (i + 1) / ((i + 1).factorial : ℝ)) • c.getD i 0 := by
  rw [curve, List.length_cons, Finset.sum_range_succ', add_comm]
  simp

theorem curve_zero (a : Fin n → ℝ) (c : List (Fin n → ℝ)) : curve (a :: c) 0 = a := by
  rw [curve_cons]
  simp

theorem hasDerivAt_curve (a : Fin n → ℝ) (c : List (Fin n → ℝ)) (s : ℝ) : HasDerivAt (curve (a :: c)) (curve c s) s := by
  have h : HasDerivAt (fun s => a + ∑ i ∈ Finset.range c.length, (s ^ (i + 1) / ((i + 1).factorial : ℝ)) • c.getD i 0)
      (∑ i ∈ Finset.range c.length, (s ^ i / (i.factorial : ℝ)) • c.getD i 0) s := by
    refine HasDerivAt.const_add _ (HasDerivAt.fun_sum fun i _ => ?_)
    have h1 := ((hasDerivAt_pow (i + 1) s).div_const ((i + 1).factorial : ℝ)).smul_const (c.getD i 0)
    convert h1 using 2
    rw [Nat.add_sub_cancel, Nat.factorial_succ]
    have : (i.factorial : ℝ) ≠ 0 := by exact_mod_cast i.factorial_ne_zero
    push_cast
    field_simp
  have e : curve (a :: c) = fun s => a + ∑ i ∈ Finset.range c.length, (s ^ (i + 1) / ((i + 1).factorial : ℝ)) • c.getD i 0 :=
    funext fun s => curve_cons a c s
  rw [e]
  exact h

theorem iteratedDeriv_curve : ∀ (j : ℕ) (c : List (Fin n → ℝ)), j < c.length → iteratedDeriv j (curve c) 0 = c.getD j 0
  | _, [], h => by simp at h
  | 0, a :: c, _ => by rw [iteratedDeriv_zero, curve_zero]; rfl
  | j + 1, a :: c, h => by
    have : deriv (curve (a :: c)) = curve c := funext fun s => (hasDerivAt_curve a c s).deriv
    rw [iteratedDeriv_succ', this, iteratedDeriv_curve j c (by simpa using h)]
    rfl

theorem curve_contDiff (c : List (Fin n → ℝ)) {m : WithTop ℕ∞} : ContDiff ℝ m (curve c) := by
  unfold curve
  exact ContDiff.sum fun i _ => ((contDiff_id.pow i).div_const _).smul contDiff_const

end Curve

section Taylor

variable {n : ℕ} {F : (Fin n → ℝ) → Fin n → ℝ} {z : ℝ → Fin n → ℝ} {t₀ : ℝ} {N : ℕ}

/-- The Taylor generator yields the derivatives of the solution. -/
theorem taylorGen_eq (hz : ∀ᶠ t in 𝓝 t₀, HasDerivAt z (F (z t)) t) (hF : ContDiffAt ℝ N F (z t₀)) :
    ∀ k ≤ N + 1, taylorGen F (z t₀) k = (List.range (k + 1)).map fun j => iteratedDeriv j z t₀
  | 0, _ => by simp [taylorGen]
  | 1, _ => by
    have : iteratedDeriv 1 z t₀ = F (z t₀) := by rw [iteratedDeriv_one, hz.self_of_nhds.deriv]
    simp [taylorGen, List.range_succ, this]
  | k + 2, hk => by
    have ih := taylorGen_eq hz hF (k + 1) (by omega)
    have hcons : z t₀ :: (taylorGen F (z t₀) (k + 1)).tail = (List.range (k + 2)).map fun j => iteratedDeriv j z t₀ := by
      rw [ih, List.range_succ_eq_map]
      simp
    have hlen : (taylorGen F (z t₀) (k + 1)).tail.length = k + 1 := by
      rw [ih]
      simp
    have hz1 : deriv z =ᶠ[𝓝 t₀] fun t => F (z t) := hz.mono fun t ht => ht.deriv
    have hj : ∀ j < k + 1, iteratedDeriv (j + 1) (fun s => F (curve (z t₀ :: (taylorGen F (z t₀) (k + 1)).tail) s)) 0 =
        iteratedDeriv (j + 2) z t₀ := fun j hj => by
      have hsm : ContDiffAt ℝ ((j + 1 : ℕ) : ℕ) z t₀ := solution_contDiffAt hz hF (j + 1) (by omega)
      have e : iteratedDeriv (j + 1) (fun s => F (curve (z t₀ :: (taylorGen F (z t₀) (k + 1)).tail) s)) 0 =
          iteratedDeriv (j + 1) (fun s => F (z (t₀ + s))) 0 := by
        refine iteratedDeriv_comp_congr ?_ ?_ (curve_contDiff _).contDiffAt ?_ fun i hi => ?_
        · rw [curve_zero, add_zero]
        · rw [curve_zero]
          exact hF.of_le (by exact_mod_cast (by omega : j + 1 ≤ N))
        · have h0 : ContDiffAt ℝ ((j + 1 : ℕ) : ℕ) z (t₀ + 0) := by rw [add_zero]; exact hsm
          exact h0.comp (0 : ℝ) (contDiff_const.add contDiff_id).contDiffAt
        · rw [iteratedDeriv_curve i _ (by rw [List.length_cons, hlen]; omega), hcons, iteratedDeriv_comp_const_add]
          simp only [add_zero]
          rw [List.getD_eq_getElem?_getD, List.getElem?_map, List.getElem?_range (by omega)]
          rfl
      rw [e]
      have e2 : iteratedDeriv (j + 1) (fun s => F (z (t₀ + s))) 0 = iteratedDeriv (j + 1) (fun t => F (z t)) t₀ := by
        have := congrFun (iteratedDeriv_comp_const_add (j + 1) (fun t => F (z t)) t₀) 0
        simpa using this
      rw [e2, iteratedDeriv_succ' (n := j + 1)]
      exact (Filter.EventuallyEq.iteratedDeriv_eq (j + 1) hz1).symm
    have h1 : F (z t₀) = iteratedDeriv 1 z t₀ := by rw [iteratedDeriv_one, hz.self_of_nhds.deriv]
    show z t₀ :: F (z t₀) :: (List.range _).map _ = _
    rw [hlen, h1, List.range_succ_eq_map (n := k + 2), List.map_cons, List.map_map, iteratedDeriv_zero,
      List.range_succ_eq_map (n := k + 1), List.map_cons, List.map_map]
    congr 2
    refine List.map_congr_left fun j hj' => ?_
    exact hj j (List.mem_range.1 hj')

theorem jac_mulVec (g : (Fin n → ℝ) → Fin n → ℝ) (x v : Fin n → ℝ) : Matrix.mulVec (jac g x) v = fderiv ℝ g x v := by
  funext i
  have h : v = ∑ j, v j • (Pi.single j (1 : ℝ) : Fin n → ℝ) := by
    funext k
    simp [Finset.sum_apply, Pi.single_apply]
  have h2 : fderiv ℝ g x v = ∑ j, v j • fderiv ℝ g x (Pi.single j (1 : ℝ)) := by
    conv_lhs => rw [h]
    rw [map_sum]
    exact Finset.sum_congr rfl fun j _ => map_smul _ _ _
  rw [h2, Finset.sum_apply, Matrix.mulVec, dotProduct]
  refine Finset.sum_congr rfl fun j _ => ?_
  show fderiv ℝ g x (Pi.single j 1) i * v j = v j * _
  rw [mul_comm]

theorem directional_eq (mode : AutodiffMode) (g : (Fin n → ℝ) → Fin n → ℝ) (x v : Fin n → ℝ) :
    directional mode g x v = fderiv ℝ g x v := by
  cases mode
  · rfl
  · exact jac_mulVec g x v
  · exact jac_mulVec g x v
  · rfl

theorem derivGen_eq (mode : AutodiffMode) (y₀ : Fin n → ℝ) : ∀ k, derivGen mode F y₀ (k + 1) = alongField F k
  | 0 => rfl
  | k + 1 => by
    funext x
    show directional mode (derivGen mode F y₀ (k + 1)) x (F x) = _
    rw [directional_eq, derivGen_eq mode y₀ k]
    rfl

end Taylor

end Probnum.OdeFilter
