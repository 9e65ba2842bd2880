import Verif.Quad.PropsAcq
import Verif.Gauss.Process

/-! # Bayesian quadrature is Bayesian: specification and lemmas -/

namespace Probnum.Quad

open Probnum Probnum.Linops Finset MeasureTheory ProbabilityTheory Probnum.Gauss

/-! ## Specification -/

/-- The statistical model: the integrand `g` is a Gaussian process with mean zero and covariance function `c`, with
measurable paths; the noise `e` is Gaussian with mean zero and variance `v`, independent between observations and of the
integrand. -/
structure IsPrior {Ω X ι : Type*} [MeasurableSpace Ω] [MeasurableSpace X] [DecidableEq ι] (Q : Measure Ω) (g : X → Ω → ℝ)
    (e : ι → Ω → ℝ) (c : X → X → ℝ) (v : ℝ) : Prop where
  gaussian : IsGaussianProcess (Sum.elim g e : X ⊕ ι → Ω → ℝ) Q
  mean : ∀ x, ∫ ω, g x ω ∂Q = 0
  noise_mean : ∀ i, ∫ ω, e i ω ∂Q = 0
  cov : ∀ x y, cov[g x, g y; Q] = c x y
  noise_cov : ∀ i j, cov[e i, e j; Q] = if i = j then v else 0
  uncorrelated : ∀ x i, cov[g x, e i; Q] = 0
  measurable : Measurable fun p : X × Ω => g p.1 p.2

/-- The statistical model of the levels: independent Gaussian processes, observed with independent noise. -/
structure IsMultiPrior {Ω X L : Type} [MeasurableSpace Ω] [MeasurableSpace X] {ι : L → Type} [∀ l, DecidableEq (ι l)]
    (Q : Measure Ω) (g : L → X → Ω → ℝ) (e : ∀ l, ι l → Ω → ℝ) (c : L → X → X → ℝ) (v : L → ℝ) : Prop where
  level : ∀ l, IsPrior Q (g l) (e l) (c l) (v l)
  gaussian : IsGaussianProcess (fun (t : Σ l, X ⊕ ι l) => (Sum.elim (g t.1) (e t.1) t.2 : Ω → ℝ)) Q
  across : ∀ l l', l ≠ l' → ∀ (t : X ⊕ ι l) (t' : X ⊕ ι l'),
    cov[(Sum.elim (g l) (e l) t : Ω → ℝ), (Sum.elim (g l') (e l') t' : Ω → ℝ); Q] = 0

/-- Kernel mean (at the locations in `S`) and kernel variance are the integrals of the kernel with respect to the finite
measure `μ`. -/
structure Embeds {X : Type} [MeasurableSpace X] (P : Problem X) (μ : Measure X) (S : Set X) : Prop where
  finite : IsFiniteMeasure μ
  sym : ∀ x y, P.k x y = P.k y x
  mean : ∀ x ∈ S, P.mean x = ∫ y, P.k x y ∂μ
  var : P.var = ∫ x, ∫ y, P.k x y ∂μ ∂μ
  diag : Integrable (fun x => P.k x x) μ

/-! ## Lemmas -/

section

variable {Ω X : Type} {ι : Type} [mΩ : MeasurableSpace Ω] [mX : MeasurableSpace X] [DecidableEq ι] {Q : Measure Ω} {g : X → Ω → ℝ}
  {e : ι → Ω → ℝ} {c : X → X → ℝ} {v : ℝ}

theorem IsPrior.prob (h : IsPrior Q g e c v) : IsProbabilityMeasure Q := h.gaussian.isProbabilityMeasure

theorem IsPrior.zero (h : IsPrior Q g e c v) (t : X ⊕ ι) : ∫ ω, (Sum.elim g e : X ⊕ ι → Ω → ℝ) t ω ∂Q = 0 := by
  cases t with
  | inl x => exact h.mean x
  | inr i => exact h.noise_mean i

theorem IsPrior.memLp (h : IsPrior Q g e c v) (t : X ⊕ ι) : MemLp ((Sum.elim g e : X ⊕ ι → Ω → ℝ) t) 2 Q :=
  (h.gaussian.hasGaussianLaw_eval t).memLp_two

theorem IsPrior.gen (h : IsPrior Q g e c v) (t : X ⊕ ι) : Generated Q (Sum.elim g e : X ⊕ ι → Ω → ℝ) ((Sum.elim g e : X ⊕ ι → Ω → ℝ) t) :=
  .of_mem h.memLp t

theorem cov_eq_integral {U V : Ω → ℝ} [IsProbabilityMeasure Q] (hU : MemLp U 2 Q) (hV : MemLp V 2 Q)
    (h0 : ∫ ω, U ω ∂Q = 0) : cov[U, V; Q] = ∫ ω, U ω * V ω ∂Q := by
  rw [covariance_eq_sub hU hV, h0, zero_mul, sub_zero]
  rfl

theorem cov_add_right {U V W : Ω → ℝ} [IsProbabilityMeasure Q] (hU : MemLp U 2 Q) (hV : MemLp V 2 Q) (hW : MemLp W 2 Q) :
    cov[U, fun ω => V ω + W ω; Q] = cov[U, V; Q] + cov[U, W; Q] := covariance_add_right hU hV hW

theorem cov_add_left {U V W : Ω → ℝ} [IsProbabilityMeasure Q] (hU : MemLp U 2 Q) (hV : MemLp V 2 Q) (hW : MemLp W 2 Q) :
    cov[fun ω => U ω + V ω, W; Q] = cov[U, W; Q] + cov[V, W; Q] := covariance_add_left hU hV hW

/-- The integral of the integrand. -/
theorem IsPrior.integral (h : IsPrior Q g e c v) {μ : Measure X} [IsFiniteMeasure μ] (hi : Integrable (fun x => c x x) μ) :
    Generated Q (Sum.elim g e : X ⊕ ι → Ω → ℝ) (fun ω => ∫ x, g x ω ∂μ) ∧
      ∀ U : Ω → ℝ, MemLp U 2 Q → cov[fun ω => ∫ x, g x ω ∂μ, U; Q] = ∫ x, cov[g x, U; Q] ∂μ := by
  have := h.prob
  have hg : ∀ x, MemLp (g x) 2 Q := fun x => h.memLp (.inl x)
  have hsq : ∀ x, ∫ ω, g x ω ^ 2 ∂Q = c x x := by
    intro x
    rw [← h.cov, cov_eq_integral (hg x) (hg x) (h.mean x)]
    simp only [pow_two]
  obtain ⟨h1, h2⟩ := Generated.integral (μ := μ) h.measurable hg (by simpa only [hsq] using hi)
  have gen : Generated Q (Sum.elim g e : X ⊕ ι → Ω → ℝ) (fun ω => ∫ x, g x ω ∂μ) := by
    refine ⟨h1, fun U hU h0 => ?_⟩
    rw [(h2 U hU).2]
    have : ∀ x, ∫ ω, g x ω * U ω ∂Q = 0 := fun x => h0 (.inl x)
    simp [this]
  refine ⟨gen, fun U hU => ?_⟩
  rw [cov_eq_integral h1 hU (gen.mean h.gaussian h.zero), (h2 U hU).2]
  refine integral_congr_ae (.of_forall fun x => ?_)
  exact (cov_eq_integral (hg x) hU (h.mean x)).symm

theorem IsPrior.cov_observed {P : Problem X} {s2 j : ℝ} {nodes : List X} {e : Fin nodes.length → Ω → ℝ}
    (h : IsPrior Q g e (fun x y => s2 * P.k x y) (s2 * j)) (i k : Fin nodes.length) :
    cov[fun ω => g nodes[i] ω + e i ω, fun ω => g nodes[k] ω + e k ω; Q] =
      s2 * (kernelMatrix P.k nodes nodes + j • eye) i k := by
  have := h.prob
  have lg : ∀ x, MemLp (g x) 2 Q := fun x => h.memLp (.inl x)
  have le : ∀ i, MemLp (e i) 2 Q := fun i => h.memLp (.inr i)
  rw [cov_add_left (W := fun ω => g nodes[k] ω + e k ω) (lg _) (le i) ((lg _).add (le k)), cov_add_right (lg _) (lg _) (le k),
    cov_add_right (le i) (lg _) (le k), h.cov, h.uncorrelated, covariance_comm, h.uncorrelated, h.noise_cov]
  show _ = s2 * (kernelMatrix P.k nodes nodes i k + j * eye i k)
  rw [kernelMatrix_get _ _ _ i.2 k.2, eye]
  by_cases hik : i = k
  · subst hik; simp; ring
  · have : (i : ℕ) ≠ k := fun h => hik (Fin.ext h)
    simp [hik, this]

/-- The distribution of the observations. -/
theorem IsPrior.observations {P : Problem X} {s2 j : ℝ} {nodes : List X} {e : Fin nodes.length → Ω → ℝ}
    (h : IsPrior Q g e (fun x y => s2 * P.k x y) (s2 * j)) :
    IsNormal Q (fun ω (i : Fin nodes.length) => g nodes[i] ω + e i ω) 0
      (s2 • toM nodes.length nodes.length (kernelMatrix P.k nodes nodes + j • eye)) := by
  have gY : ∀ i : Fin nodes.length, Generated Q (Sum.elim g e : X ⊕ Fin nodes.length → Ω → ℝ) (fun ω => g nodes[i] ω + e i ω) :=
    fun i => (h.gen (.inl nodes[i])).add (h.gen (.inr i))
  exact ⟨Generated.gaussian h.gaussian h.zero gY, fun i => (gY i).mean h.gaussian h.zero, h.cov_observed⟩

/-- The conditional distribution of quantities of the model given noisy values of the integrand. -/
theorem IsPrior.conditional {P : Problem X} {s2 j : ℝ} {nodes : List X} {e : Fin nodes.length → Ω → ℝ}
    (h : IsPrior Q g e (fun x y => s2 * P.k x y) (s2 * j)) (hsym : ∀ x y, P.k x y = P.k y x)
    (hp : (toM nodes.length nodes.length (kernelMatrix P.k nodes nodes + j • eye)).PosDef) {κ : Type} [Fintype κ]
    [DecidableEq κ] {Z : κ → Ω → ℝ} (hZ : ∀ t, Generated Q (Sum.elim g e : X ⊕ Fin nodes.length → Ω → ℝ) (Z t))
    {a : κ → ℕ → ℝ} {A : Matrix κ κ ℝ} (hA : ∀ t r, cov[Z t, Z r; Q] = A t r)
    (hg : ∀ t (i : Fin nodes.length), cov[Z t, g nodes[i]; Q] = s2 * a t i)
    (he : ∀ t i, cov[Z t, e i; Q] = 0) :
    IsConditional Q (fun ω t => Z t ω) (fun ω (i : Fin nodes.length) => g nodes[i] ω + e i ω)
      (fun y t => ∑ i : Fin nodes.length, choSolve nodes.length (kernelMatrix P.k nodes nodes + j • eye) (a t) i * y i)
      (Matrix.of fun t r => A t r - s2 * dot nodes.length
        (choSolve nodes.length (kernelMatrix P.k nodes nodes + j • eye) (a t)) (a r)) := by
  have := h.prob
  set M : Mat := kernelMatrix P.k nodes nodes + j • eye with hM
  have lg : ∀ x, MemLp (g x) 2 Q := fun x => h.memLp (.inl x)
  have le : ∀ i, MemLp (e i) 2 Q := fun i => h.memLp (.inr i)
  have gY : ∀ i : Fin nodes.length, Generated Q (Sum.elim g e : X ⊕ Fin nodes.length → Ω → ℝ) (fun ω => g nodes[i] ω + e i ω) :=
    fun i => (h.gen (.inl nodes[i])).add (h.gen (.inr i))
  let V : κ ⊕ Fin nodes.length → Ω → ℝ := Sum.elim Z fun i ω => g nodes[i] ω + e i ω
  have gV : ∀ t, Generated Q (Sum.elim g e : X ⊕ Fin nodes.length → Ω → ℝ) (V t) := by
    rintro (t | i)
    · exact hZ t
    · exact gY i
  have hV := Generated.gaussian h.gaussian h.zero gV
  have cZY : ∀ t (i : Fin nodes.length), cov[Z t, fun ω => g nodes[i] ω + e i ω; Q] = s2 * a t i := by
    intro t i
    rw [cov_add_right (hZ t).memLp (lg _) (le i), hg, he, add_zero]
  have cYY : ∀ i k : Fin nodes.length, cov[fun ω => g nodes[i] ω + e i ω, fun ω => g nodes[k] ω + e k ω; Q] = s2 * M i k :=
    h.cov_observed
  have hMs : ∀ i k : Fin nodes.length, M i k = M k i := by
    intro i k
    show kernelMatrix P.k nodes nodes i k + j * eye i k = kernelMatrix P.k nodes nodes k i + j * eye k i
    rw [kernelMatrix_get _ _ _ i.2 k.2, kernelMatrix_get _ _ _ k.2 i.2, hsym, eye, eye]
    simp only [eq_comm]
  let B : Matrix κ (Fin nodes.length) ℝ := Matrix.of fun t i => s2 * a t i
  let D : Matrix (Fin nodes.length) (Fin nodes.length) ℝ := Matrix.of fun i k => s2 * M i k
  let W : Matrix κ (Fin nodes.length) ℝ := Matrix.of fun t i => choSolve nodes.length M (a t) i
  have hN : IsNormal Q (fun ω => Sum.elim (fun t => Z t ω) (fun i : Fin nodes.length => g nodes[i] ω + e i ω)) 0
      (Matrix.fromBlocks A B B.transpose D) := by
    have hs : (fun ω => Sum.elim (fun t => Z t ω) (fun i : Fin nodes.length => g nodes[i] ω + e i ω)) = fun ω t => V t ω := by
      funext ω t
      cases t <;> rfl
    rw [hs]
    refine ⟨hV, fun t => (gV t).mean h.gaussian h.zero, ?_⟩
    rintro (t | i) (r | k)
    · exact hA t r
    · exact cZY t k
    · show cov[fun ω => g nodes[i] ω + e i ω, Z r; Q] = _
      rw [covariance_comm]; exact cZY r i
    · exact cYY i k
  have hW : W * D = B := by
    ext t k
    rw [Matrix.mul_apply]
    have := choSolve_solves hp (a t) k k.2
    rw [Finset.sum_range] at this
    show _ = s2 * a t k
    rw [← this, Finset.mul_sum]
    refine Finset.sum_congr rfl fun i _ => ?_
    show choSolve nodes.length M (a t) i * (s2 * M i k) = s2 * (M k i * choSolve nodes.length M (a t) i)
    rw [hMs i k]
    ring
  have hD : D.transpose = D := by
    ext i k
    show s2 * M k i = s2 * M i k
    rw [hMs]
  have := conditional_of_blocks hN hW hD
  suffices e1 : (Matrix.of fun t r => A t r - s2 * dot nodes.length (choSolve nodes.length M (a t)) (a r)) =
      A - W * B.transpose by rw [e1]; exact this
  ext t r
  show A t r - s2 * dot nodes.length (choSolve nodes.length M (a t)) (a r) = A t r - _
  rw [Matrix.mul_apply, dot, Finset.sum_range, Finset.mul_sum]
  congr 1
  refine Finset.sum_congr rfl fun i _ => ?_
  show _ = choSolve nodes.length M (a t) i * (s2 * a r i)
  ring

end

/-- Priors exist: a kernel with finitely many features. -/
theorem exists_prior {X : Type} [MeasurableSpace X] {m n : ℕ} (φ : Fin m → X → ℝ) (hφ : ∀ a, Measurable (φ a)) {s2 v : ℝ}
    (hs : 0 ≤ s2) (hv : 0 ≤ v) : ∃ (Ω : Type) (_ : MeasurableSpace Ω) (Q : Measure Ω) (g : X → Ω → ℝ) (e : Fin n → Ω → ℝ),
      IsPrior Q g e (fun x y => s2 * ∑ a, φ a x * φ a y) v := by
  have hN := std_isNormal (Fin m ⊕ Fin n)
  have := hN.isProbabilityMeasure
  let coef : X ⊕ Fin n → (Fin m ⊕ Fin n) → ℝ := Sum.elim (fun x => Sum.elim (fun a => Real.sqrt s2 * φ a x) 0)
    fun i => Sum.elim 0 fun k => if i = k then Real.sqrt v else 0
  let h : X ⊕ Fin n → (Fin m ⊕ Fin n → ℝ) → ℝ := fun t ω => ∑ a, coef t a * ω a
  have hh : (Sum.elim (fun x => h (.inl x)) (fun i => h (.inr i)) : X ⊕ Fin n → (Fin m ⊕ Fin n → ℝ) → ℝ) = h := by
    funext t; cases t <;> rfl
  have fin : ∀ {κ : Type} [Fintype κ] (t : κ → X ⊕ Fin n),
      IsNormal (Measure.pi fun _ => gaussianReal 0 1) (fun ω k => h (t k) ω) 0
        (Matrix.of (fun k => coef (t k)) * (Matrix.of fun k => coef (t k)).transpose) := by
    intro κ _ t
    have := hN.affine (Matrix.of fun k => coef (t k)) 0
    rw [Matrix.mul_one, Matrix.mulVec_zero, zero_add] at this
    convert this using 1
    funext ω k
    simp [h, Matrix.mulVec, dotProduct]
  have mean : ∀ t, ∫ ω, h t ω ∂(Measure.pi fun _ => gaussianReal 0 1) = 0 := fun t => (fin fun _ : Fin 1 => t).mean 0
  have cov : ∀ t r, cov[h t, h r; Measure.pi fun _ => gaussianReal 0 1] = ∑ a, coef t a * coef r a :=
    fun t r => (fin ![t, r]).cov 0 1
  refine ⟨_, inferInstance, Measure.pi fun _ : Fin m ⊕ Fin n => gaussianReal 0 1, fun x => h (.inl x), fun i => h (.inr i),
    ?_, fun x => mean _, fun i => mean _, fun x y => ?_, fun i k => ?_, fun x i => ?_, ?_⟩
  · rw [hh]
    exact ⟨fun I => (fin fun k : I => k.1).gaussian⟩
  · rw [cov, Fintype.sum_sum_type]
    simp only [coef, Sum.elim_inl, Sum.elim_inr, Pi.zero_apply, mul_zero, Finset.sum_const_zero, add_zero, Finset.mul_sum]
    refine Finset.sum_congr rfl fun a _ => ?_
    rw [mul_mul_mul_comm, Real.mul_self_sqrt hs]
  · rw [cov, Fintype.sum_sum_type]
    simp only [coef, Sum.elim_inl, Sum.elim_inr, Pi.zero_apply, mul_zero, Finset.sum_const_zero, zero_add]
    by_cases hik : i = k
    · subst hik; simp [Real.mul_self_sqrt hv]
    · simp [hik]
  · rw [cov, Fintype.sum_sum_type]
    simp [coef]
  · refine Finset.measurable_sum _ fun a _ => Measurable.mul ?_ (by fun_prop)
    cases a with
    | inl a => exact ((hφ a).comp measurable_fst).const_mul _
    | inr a => exact measurable_const

/-- The mean of the belief of any state. -/
theorem reach_mean {X : Type} {u : Update} {P : Problem X} (sym : ∀ x y, P.k x y = P.k y x) {s : State X}
    (h : Reachable u P s) : s.belief.1 = dot s.nodes.length
      (choSolve s.nodes.length (kernelMatrix P.k s.nodes s.nodes + u.jitter • eye) (vec (s.nodes.map P.mean))) (vec s.evals) := by
  by_cases hne : s.nodes = []
  · rw [(reach_nil sym h hne).1, hne]
    rfl
  · exact (closed_spec (reach_spec sym h hne).2.1).2.2.1

theorem predict_mean {X : Type} {P : Problem X} {s : State X} (hs : Fits P s) {j : ℝ}
    (hf : Eqv s.nodes.length s.nodes.length s.factor (kernelMatrix P.k s.nodes s.nodes + j • eye)) (x : X) :
    (predict P s x).1 = dot s.nodes.length (choSolve s.nodes.length (kernelMatrix P.k s.nodes s.nodes + j • eye)
      fun i => kernelMatrix P.k s.nodes [x] i 0) (vec s.evals) := by
  rw [predict]
  dsimp only
  split
  · rw [hs.evals, choSolve_congr hf fun _ _ => rfl]
    rfl
  · next h =>
    rw [not_not] at h
    rw [← hs.evals, h]
    rfl

end Probnum.Quad
