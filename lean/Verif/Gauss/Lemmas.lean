import Mathlib.Probability.Distributions.Gaussian.HasGaussianLaw.Independence
import Mathlib.Probability.Distributions.Gaussian.Fernique
import Mathlib.Topology.Instances.Matrix
import Mathlib.Data.Matrix.ColumnRowPartitioned
import Mathlib.Topology.Algebra.Module.FiniteDimension
import Mathlib.Tactic.Abel
import Verif.Gauss.Spec

/-!
# Helper lemmas about Gaussian random vectors
-/

namespace Probnum.Gauss

open MeasureTheory ProbabilityTheory Matrix

variable {Ω : Type*} {mΩ : MeasurableSpace Ω} {P : Measure Ω}
variable {ι κ μ : Type*} [Fintype ι] [Fintype κ] [Fintype μ]

theorem IsNormal.isProbabilityMeasure {X : Ω → ι → ℝ} {m : ι → ℝ} {C : Matrix ι ι ℝ} (h : IsNormal P X m C) :
    IsProbabilityMeasure P := h.gaussian.isProbabilityMeasure

theorem memLp_coord {X : Ω → ι → ℝ} (h : HasGaussianLaw X P) (i : ι) : MemLp (fun ω => X ω i) 2 P :=
  (h.eval (X := fun i ω => X ω i) i).memLp_two

theorem integrable_coord {X : Ω → ι → ℝ} (h : HasGaussianLaw X P) (i : ι) : Integrable (fun ω => X ω i) P :=
  (h.eval (X := fun i ω => X ω i) i).integrable

/-- Linear maps as continuous linear maps. -/
noncomputable def clm (A : Matrix κ ι ℝ) : (ι → ℝ) →L[ℝ] (κ → ℝ) := LinearMap.toContinuousLinearMap A.mulVecLin

@[simp] theorem clm_apply (A : Matrix κ ι ℝ) (x : ι → ℝ) : clm A x = A *ᵥ x := rfl

theorem gaussian_add_const {X : Ω → ι → ℝ} (h : HasGaussianLaw X P) (b : ι → ℝ) :
    HasGaussianLaw (fun ω => X ω + b) P where
  isGaussian_map := by
    have := h.isGaussian_map
    have e : (fun ω => X ω + b) = (fun x => x + b) ∘ X := rfl
    rw [e, ← AEMeasurable.map_map_of_aemeasurable (by fun_prop) h.aemeasurable]
    infer_instance

theorem gaussian_affine {X : Ω → ι → ℝ} (h : HasGaussianLaw X P) (A : Matrix κ ι ℝ) (b : κ → ℝ) :
    HasGaussianLaw (fun ω => A *ᵥ X ω + b) P := gaussian_add_const (h.map_fun (clm A)) b

/-- Mean of an affine image. -/
theorem mean_affine {X : Ω → ι → ℝ} {m : ι → ℝ} [IsProbabilityMeasure P] (hX : ∀ i, Integrable (fun ω => X ω i) P)
    (hm : ∀ i, ∫ ω, X ω i ∂P = m i) (A : Matrix κ ι ℝ) (b : κ → ℝ) (k : κ) :
    ∫ ω, (A *ᵥ X ω + b) k ∂P = (A *ᵥ m + b) k := by
  simp only [Pi.add_apply, Matrix.mulVec, dotProduct]
  rw [integral_add (integrable_finsetSum _ fun i _ => (hX i).const_mul _) (integrable_const _),
    integral_finsetSum _ fun i _ => (hX i).const_mul _]
  simp [integral_const_mul, hm]

/-- Covariance of two affine images. -/
theorem cov_affine {X : Ω → ι → ℝ} {Y : Ω → κ → ℝ} {C : Matrix ι κ ℝ} [IsProbabilityMeasure P]
    (hX : ∀ i, MemLp (fun ω => X ω i) 2 P) (hY : ∀ i, MemLp (fun ω => Y ω i) 2 P) (h : CrossCov P X Y C)
    {α β : Type*} (A : Matrix α ι ℝ) (B : Matrix β κ ℝ) (a : α → ℝ) (b : β → ℝ) :
    CrossCov P (fun ω => A *ᵥ X ω + a) (fun ω => B *ᵥ Y ω + b) (A * C * Bᵀ) := by
  intro k l
  have hA : MemLp (fun ω => (A *ᵥ X ω) k) 2 P := by
    simp only [Matrix.mulVec, dotProduct]
    exact memLp_finsetSum _ fun i _ => (hX i).const_mul _
  have hB : MemLp (fun ω => (B *ᵥ Y ω) l) 2 P := by
    simp only [Matrix.mulVec, dotProduct]
    exact memLp_finsetSum _ fun i _ => (hY i).const_mul _
  simp only [Pi.add_apply]
  rw [covariance_add_const_left (hA.integrable (by norm_num)), covariance_add_const_right (hB.integrable (by norm_num))]
  simp only [Matrix.mulVec, dotProduct]
  rw [covariance_fun_sum_fun_sum (fun i => (hX i).const_mul _) (fun i => (hY i).const_mul _)]
  simp only [covariance_const_mul_left, covariance_const_mul_right, h _ _, Matrix.mul_apply, Matrix.transpose_apply,
    Finset.sum_mul]
  rw [Finset.sum_comm]
  refine Finset.sum_congr rfl fun j _ => Finset.sum_congr rfl fun i _ => by ring

theorem IsNormal.affine {X : Ω → ι → ℝ} {m : ι → ℝ} {C : Matrix ι ι ℝ} (h : IsNormal P X m C)
    (A : Matrix κ ι ℝ) (b : κ → ℝ) :
    IsNormal P (fun ω => A *ᵥ X ω + b) (A *ᵥ m + b) (A * C * Aᵀ) := by
  have := h.isProbabilityMeasure
  refine ⟨gaussian_affine h.gaussian A b, mean_affine (integrable_coord h.gaussian) h.mean A b, ?_⟩
  exact cov_affine (memLp_coord h.gaussian) (memLp_coord h.gaussian) h.cov A A b b

/-- Pairing into one vector. -/
theorem gaussian_sumElim {X : Ω → ι → ℝ} {Y : Ω → κ → ℝ} (h : HasGaussianLaw (fun ω => (X ω, Y ω)) P) :
    HasGaussianLaw (fun ω => (Sum.elim (X ω) (Y ω) : ι ⊕ κ → ℝ)) P := by
  let L : ((ι → ℝ) × (κ → ℝ)) →ₗ[ℝ] (ι ⊕ κ → ℝ) :=
    { toFun := fun p => Sum.elim p.1 p.2
      map_add' := by intro p q; ext (i | i) <;> rfl
      map_smul' := by intro c p; ext (i | i) <;> rfl }
  exact h.map_fun (LinearMap.toContinuousLinearMap L)

/-- Splitting one vector. -/
theorem gaussian_prod_of_sum {Z : Ω → ι ⊕ κ → ℝ} (h : HasGaussianLaw Z P) :
    HasGaussianLaw (fun ω => (fun i => Z ω (Sum.inl i), fun i => Z ω (Sum.inr i))) P := by
  let L : (ι ⊕ κ → ℝ) →ₗ[ℝ] ((ι → ℝ) × (κ → ℝ)) :=
    { toFun := fun p => (fun i => p (Sum.inl i), fun i => p (Sum.inr i))
      map_add' := by intro p q; rfl
      map_smul' := by intro c p; rfl }
  exact h.map_fun (LinearMap.toContinuousLinearMap L)

theorem cov_zero_of_indep {X : Ω → ι → ℝ} {Y : Ω → κ → ℝ} (h : IndepFun X Y P)
    (hX : ∀ i, MemLp (fun ω => X ω i) 2 P) (hY : ∀ i, MemLp (fun ω => Y ω i) 2 P) :
    CrossCov P X Y 0 := by
  intro i j
  have h' : IndepFun (fun ω => X ω i) (fun ω => Y ω j) P :=
    h.comp (φ := fun x : ι → ℝ => x i) (ψ := fun y : κ → ℝ => y j) (by fun_prop) (by fun_prop)
  exact h'.covariance_eq_zero (hX i) (hY j)

/-- Independent Gaussian vectors are jointly normal with block diagonal covariance. -/
theorem IsNormal.pair {X : Ω → ι → ℝ} {Y : Ω → κ → ℝ} {m : ι → ℝ} {m' : κ → ℝ} {C : Matrix ι ι ℝ}
    {C' : Matrix κ κ ℝ} (hX : IsNormal P X m C) (hY : IsNormal P Y m' C') (h : IndepFun X Y P) :
    IsNormal P (fun ω => (Sum.elim (X ω) (Y ω) : ι ⊕ κ → ℝ)) (Sum.elim m m') (fromBlocks C 0 0 C') := by
  have hg : HasGaussianLaw (fun ω => (X ω, Y ω)) P := h.hasGaussianLaw hX.gaussian hY.gaussian
  refine ⟨gaussian_sumElim hg, ?_, ?_⟩
  · rintro (i | i)
    · exact hX.mean i
    · exact hY.mean i
  · have h0 := cov_zero_of_indep h (memLp_coord hX.gaussian) (memLp_coord hY.gaussian)
    rintro (i | i) (j | j)
    · exact hX.cov i j
    · exact h0 i j
    · simp only [Sum.elim_inr, Sum.elim_inl, fromBlocks_apply₂₁]
      rw [covariance_comm]; exact h0 j i
    · exact hY.cov i j

/-- Uncorrelated blocks of a jointly normal vector are independent. -/
theorem indep_of_cov_zero {Z : Ω → ι → ℝ} {m : ι → ℝ} {C : Matrix ι ι ℝ} (hZ : IsNormal P Z m C)
    (A : Matrix κ ι ℝ) (B : Matrix μ ι ℝ) (a : κ → ℝ) (b : μ → ℝ) (h : A * C * Bᵀ = 0) :
    IndepFun (fun ω => A *ᵥ Z ω + a) (fun ω => B *ᵥ Z ω + b) P := by
  have := hZ.isProbabilityMeasure
  have hc := cov_affine (memLp_coord hZ.gaussian) (memLp_coord hZ.gaussian) hZ.cov A B a b
  rw [h] at hc
  have hg : HasGaussianLaw (fun ω => ((fun i => (A *ᵥ Z ω + a) i : κ → ℝ), (fun i => (B *ᵥ Z ω + b) i : μ → ℝ))) P := by
    have h1 := gaussian_affine hZ.gaussian (fromRows A B) (Sum.elim a b)
    have h2 := gaussian_prod_of_sum h1
    have e : (fun ω => ((fun i => (A *ᵥ Z ω + a) i : κ → ℝ), (fun i => (B *ᵥ Z ω + b) i : μ → ℝ)))
        = fun ω => (fun i => (fromRows A B *ᵥ Z ω + Sum.elim a b) (Sum.inl i),
            fun i => (fromRows A B *ᵥ Z ω + Sum.elim a b) (Sum.inr i)) := by
      funext ω
      simp [fromRows_mulVec]
    rw [e]; exact h2
  exact hg.indepFun_of_covariance_eval (X := fun i ω => (A *ᵥ Z ω + a) i) (Y := fun i ω => (B *ᵥ Z ω + b) i)
    fun i j => hc i j

/-- Mean vector and covariance matrix determine the law. -/
theorem IsNormal.law_unique {Ω' : Type*} {mΩ' : MeasurableSpace Ω'} {P' : Measure Ω'} {X : Ω → ι → ℝ} {X' : Ω' → ι → ℝ}
    {m : ι → ℝ} {C : Matrix ι ι ℝ} (h : IsNormal P X m C) (h' : IsNormal P' X' m C) : P.map X = P'.map X' := by
  have := h.gaussian.isGaussian_map
  have := h'.gaussian.isGaussian_map
  have := h.isProbabilityMeasure
  have := h'.isProbabilityMeasure
  apply Measure.ext_of_charFunDual
  ext L
  -- a functional is a row vector
  classical
  let A : Matrix Unit ι ℝ := Matrix.of fun _ i => L (Pi.single i 1)
  have hL : ∀ x : ι → ℝ, L x = (A *ᵥ x + 0) () := by
    intro x
    conv_lhs => rw [pi_eq_sum_univ x, map_sum]
    simp only [map_smul, smul_eq_mul, Pi.add_apply, Pi.zero_apply, add_zero, Matrix.mulVec, dotProduct, A,
      Matrix.of_apply]
    refine Finset.sum_congr rfl fun i _ => ?_
    rw [mul_comm]
    congr 2
    ext j; simp [Pi.single_apply, eq_comm]
  have a1 := h.affine A 0
  have a2 := h'.affine A 0
  rw [h.gaussian.charFunDual_map_eq, h'.gaussian.charFunDual_map_eq]
  have e1 : (L ∘ X) = fun ω => (A *ᵥ X ω + 0) () := by funext ω; exact hL _
  have e2 : (L ∘ X') = fun ω => (A *ᵥ X' ω + 0) () := by funext ω; exact hL _
  rw [e1, e2, a1.mean (), a2.mean ()]
  rw [← covariance_self, ← covariance_self, a1.cov () (), a2.cov () ()]
  · exact (memLp_coord a2.gaussian ()).aestronglyMeasurable.aemeasurable
  · exact (memLp_coord a1.gaussian ()).aestronglyMeasurable.aemeasurable

/-- A covariance matrix is positive semidefinite. -/
theorem IsNormal.posSemidef {X : Ω → ι → ℝ} {m : ι → ℝ} {C : Matrix ι ι ℝ} (h : IsNormal P X m C) : C.PosSemidef := by
  have := h.isProbabilityMeasure
  refine Matrix.PosSemidef.of_dotProduct_mulVec_nonneg ?_ fun x => ?_
  · ext i j
    simp only [conjTranspose_apply, star_trivial]
    rw [← h.cov i j, ← h.cov j i, covariance_comm]
  · have a := h.affine (Matrix.of fun (_ : Unit) i => x i) 0
    have h1 := a.cov () ()
    rw [covariance_self (memLp_coord a.gaussian ()).aestronglyMeasurable.aemeasurable] at h1
    have h2 : (Matrix.of (fun (_ : Unit) i => x i) * C * (Matrix.of fun (_ : Unit) i => x i)ᵀ) () () = star x ⬝ᵥ C *ᵥ x := by
      simp [Matrix.mul_apply, dotProduct, Matrix.mulVec, Finset.sum_mul, Finset.mul_sum]
      rw [Finset.sum_comm]
      refine Finset.sum_congr rfl fun i _ => Finset.sum_congr rfl fun j _ => by ring
    rw [← h2, ← h1]
    exact variance_nonneg _ _

/-- Mutual independence of three variables from two pairwise statements. -/
theorem indep_triple {α β γ : Type*} [MeasurableSpace α] [MeasurableSpace β] [MeasurableSpace γ] [IsProbabilityMeasure P]
    {X : Ω → α} {Y : Ω → β} {Z : Ω → γ} (hX : AEMeasurable X P) (hY : AEMeasurable Y P) (hZ : AEMeasurable Z P)
    (h1 : IndepFun X Y P) (h2 : IndepFun (fun ω => (X ω, Y ω)) Z P) :
    IndepFun X (fun ω => (Y ω, Z ω)) P := by
  rw [indepFun_iff_map_prod_eq_prod_map_map hX (hY.prodMk hZ)]
  have hYZ : IndepFun Y Z P := h2.comp (φ := Prod.snd) (ψ := id) measurable_snd measurable_id
  rw [(indepFun_iff_map_prod_eq_prod_map_map hY hZ).1 hYZ]
  have h3 := (indepFun_iff_map_prod_eq_prod_map_map (hX.prodMk hY) hZ).1 h2
  rw [(indepFun_iff_map_prod_eq_prod_map_map hX hY).1 h1] at h3
  have e : (fun ω => (X ω, (Y ω, Z ω))) = MeasurableEquiv.prodAssoc ∘ fun ω => ((X ω, Y ω), Z ω) := rfl
  rw [e, ← AEMeasurable.map_map_of_aemeasurable (by fun_prop) ((hX.prodMk hY).prodMk hZ), h3]
  have := Measure.isProbabilityMeasure_map hX
  have := Measure.isProbabilityMeasure_map hY
  have := Measure.isProbabilityMeasure_map hZ
  exact (measurePreserving_prodAssoc (P.map X) (P.map Y) (P.map Z)).map_eq

end Probnum.Gauss

namespace Probnum.Gauss

open MeasureTheory ProbabilityTheory Matrix

variable {Ω : Type*} {mΩ : MeasurableSpace Ω} {P : Measure Ω}
variable {ι κ μ ν : Type*} [Fintype ι] [Fintype κ] [Fintype μ] [Fintype ν]

section TwoSources

variable {X : Ω → ι → ℝ} {Y : Ω → κ → ℝ} {m : ι → ℝ} {m' : κ → ℝ} {C : Matrix ι ι ℝ} {C' : Matrix κ κ ℝ}

theorem fromCols_elim (A : Matrix μ ι ℝ) (B : Matrix μ κ ℝ) (x : ι → ℝ) (y : κ → ℝ) :
    fromCols A B *ᵥ (Sum.elim x y) = A *ᵥ x + B *ᵥ y := by
  ext i
  simp [Matrix.mulVec, dotProduct, fromCols]

theorem fromCols_blocks (A : Matrix μ ι ℝ) (B : Matrix μ κ ℝ) (A' : Matrix ν ι ℝ) (B' : Matrix ν κ ℝ) :
    fromCols A B * fromBlocks C 0 0 C' * (fromCols A' B')ᵀ = A * C * A'ᵀ + B * C' * B'ᵀ := by
  rw [transpose_fromCols]
  simp [fromCols_mul_fromBlocks, fromCols_mul_fromRows]

/-- A combination of two independent normal vectors. -/
theorem IsNormal.comb (hX : IsNormal P X m C) (hY : IsNormal P Y m' C') (h : IndepFun X Y P)
    (A : Matrix μ ι ℝ) (B : Matrix μ κ ℝ) (c : μ → ℝ) :
    IsNormal P (fun ω => A *ᵥ X ω + B *ᵥ Y ω + c) (A *ᵥ m + B *ᵥ m' + c) (A * C * Aᵀ + B * C' * Bᵀ) := by
  have := (hX.pair hY h).affine (fromCols A B) c
  simpa only [fromCols_elim, fromCols_blocks] using this

/-- Cross-covariance of two combinations. -/
theorem IsNormal.comb_cov (hX : IsNormal P X m C) (hY : IsNormal P Y m' C') (h : IndepFun X Y P)
    (A : Matrix μ ι ℝ) (B : Matrix μ κ ℝ) (c : μ → ℝ) (A' : Matrix ν ι ℝ) (B' : Matrix ν κ ℝ) (c' : ν → ℝ) :
    CrossCov P (fun ω => A *ᵥ X ω + B *ᵥ Y ω + c) (fun ω => A' *ᵥ X ω + B' *ᵥ Y ω + c')
      (A * C * A'ᵀ + B * C' * B'ᵀ) := by
  have := hX.isProbabilityMeasure
  have hp := hX.pair hY h
  have := cov_affine (memLp_coord hp.gaussian) (memLp_coord hp.gaussian) hp.cov (fromCols A B) (fromCols A' B') c c'
  simpa only [fromCols_elim, fromCols_blocks] using this

/-- Two uncorrelated combinations are independent. -/
theorem IsNormal.comb_indep (hX : IsNormal P X m C) (hY : IsNormal P Y m' C') (h : IndepFun X Y P)
    (A : Matrix μ ι ℝ) (B : Matrix μ κ ℝ) (c : μ → ℝ) (A' : Matrix ν ι ℝ) (B' : Matrix ν κ ℝ) (c' : ν → ℝ)
    (h0 : A * C * A'ᵀ + B * C' * B'ᵀ = 0) :
    IndepFun (fun ω => A *ᵥ X ω + B *ᵥ Y ω + c) (fun ω => A' *ᵥ X ω + B' *ᵥ Y ω + c') P := by
  have := indep_of_cov_zero (hX.pair hY h) (fromCols A B) (fromCols A' B') c c' (by rw [fromCols_blocks, h0])
  simpa only [fromCols_elim] using this

end TwoSources

end Probnum.Gauss

namespace Probnum.Gauss

open MeasureTheory ProbabilityTheory Matrix

/-! ## Existence -/

/-- The standard normal base sample. -/
theorem std_isNormal (ι : Type*) [Fintype ι] [DecidableEq ι] :
    IsNormal (Measure.pi (fun _ : ι => gaussianReal 0 1)) (fun x : ι → ℝ => x) 0 1 := by
  have hi : iIndepFun (fun (i : ι) (x : ι → ℝ) => x i) (Measure.pi (fun _ : ι => gaussianReal 0 1)) :=
    iIndepFun_pi (X := fun _ x => x) (fun _ => aemeasurable_id)
  have hlaw : ∀ i, (Measure.pi (fun _ : ι => gaussianReal 0 1)).map (fun x : ι → ℝ => x i) = gaussianReal 0 1 := by
    intro i
    exact (measurePreserving_eval (fun _ : ι => gaussianReal 0 1) i).map_eq
  have hg : ∀ i, HasGaussianLaw (fun x : ι → ℝ => x i) (Measure.pi (fun _ : ι => gaussianReal 0 1)) := by
    intro i
    refine ⟨?_⟩
    rw [hlaw i]; infer_instance
  have hgauss := hi.hasGaussianLaw hg
  refine ⟨hgauss, ?_, ?_⟩
  · intro i
    have := integral_map (μ := Measure.pi (fun _ : ι => gaussianReal 0 1)) (φ := fun x : ι → ℝ => x i)
      (f := fun y : ℝ => y) (measurable_pi_apply i).aemeasurable (by fun_prop)
    rw [← this, hlaw i]
    simp
  · intro i j
    by_cases hij : i = j
    · subst hij
      rw [covariance_self (measurable_pi_apply i).aemeasurable]
      have : Var[fun x : ι → ℝ => x i; Measure.pi (fun _ : ι => gaussianReal 0 1)] =
          Var[id; (Measure.pi (fun _ : ι => gaussianReal 0 1)).map (fun x : ι → ℝ => x i)] := by
        rw [variance_map aemeasurable_id (measurable_pi_apply i).aemeasurable]; rfl
      rw [this, hlaw i]
      simp
    · rw [Matrix.one_apply_ne hij]
      exact (hi.indepFun hij).covariance_eq_zero (hg i).memLp_two (hg j).memLp_two

/-- Two independent normal vectors with arbitrary means and arbitrary covariances `L Lᵀ` exist. -/
theorem exists_independent_normals {ι κ : Type} [Fintype ι] [Fintype κ] [DecidableEq ι] [DecidableEq κ]
    (m : ι → ℝ) (L : Matrix ι ι ℝ) (m' : κ → ℝ) (L' : Matrix κ κ ℝ) :
    ∃ (Ω : Type) (_ : MeasurableSpace Ω) (P : Measure Ω) (X : Ω → ι → ℝ) (Y : Ω → κ → ℝ),
      IsNormal P X m (L * Lᵀ) ∧ IsNormal P Y m' (L' * L'ᵀ) ∧ IndepFun X Y P := by
  have h := std_isNormal (ι ⊕ κ)
  refine ⟨ι ⊕ κ → ℝ, inferInstance, Measure.pi (fun _ => gaussianReal 0 1),
    fun x => fromCols L 0 *ᵥ x + m, fun x => fromCols 0 L' *ᵥ x + m', ?_, ?_, ?_⟩
  · have := h.affine (fromCols L 0) m
    simpa [transpose_fromCols, fromCols_mul_fromRows] using this
  · have := h.affine (fromCols 0 L') m'
    simpa [transpose_fromCols, fromCols_mul_fromRows] using this
  · apply indep_of_cov_zero h
    simp [transpose_fromCols, fromCols_mul_fromRows]

end Probnum.Gauss
