import Verif.Gauss.Lemmas
import Mathlib.LinearAlgebra.Matrix.NonsingularInverse
import Mathlib.Probability.Independence.Basic
import Mathlib.Tactic.Abel
import Mathlib.Tactic.Linarith

/-!
# Helper lemmas: calculus of conditional Gaussian distributions
-/

namespace Probnum.Gauss

open MeasureTheory ProbabilityTheory Matrix

variable {Ω : Type*} {mΩ : MeasurableSpace Ω} {P : Measure Ω}

theorem measurable_mulVec {ι κ : Type*} [Fintype ι] [Fintype κ] (A : Matrix κ ι ℝ) :
    Measurable fun x : ι → ℝ => A *ᵥ x := (clm A).continuous.measurable

section

variable {ι κ : Type*} [Fintype ι] [Fintype κ] {β : Type*} [MeasurableSpace β]

theorem IsConditional.aemeasurable_sub {X : Ω → ι → ℝ} {Y : Ω → β} {f : β → ι → ℝ} {C : Matrix ι ι ℝ}
    (h : IsConditional P X Y f C) : AEMeasurable (fun ω => X ω - f (Y ω)) P := h.residual.gaussian.aemeasurable

theorem IsConditional.aemeasurable {X : Ω → ι → ℝ} {Y : Ω → β} {f : β → ι → ℝ} {C : Matrix ι ι ℝ}
    (h : IsConditional P X Y f C) (hY : AEMeasurable Y P) : AEMeasurable X P := by
  have := h.aemeasurable_sub.add (h.measurable.comp_aemeasurable hY)
  refine this.congr (Filter.Eventually.of_forall fun ω => ?_)
  simp

/-- Change of the conditioning variable to one that carries the same information. -/
theorem IsConditional.change {γ : Type*} [MeasurableSpace γ] {X : Ω → ι → ℝ} {Y : Ω → β} {f : β → ι → ℝ}
    {C : Matrix ι ι ℝ} (h : IsConditional P X Y f C) {Z : Ω → γ} (φ : β → γ) (ψ : γ → β) (hφ : Measurable φ)
    (hψ : Measurable ψ) (hZ : ∀ ω, Z ω = φ (Y ω)) (hY : ∀ ω, Y ω = ψ (Z ω)) :
    IsConditional P X Z (fun z => f (ψ z)) C := by
  have e : ∀ ω, f (ψ (Z ω)) = f (Y ω) := fun ω => by rw [← hY]
  refine ⟨h.measurable.comp hψ, ?_, ?_⟩
  · simp only [e]
    have : Z = φ ∘ Y := funext hZ
    rw [this]
    exact h.indep.comp measurable_id hφ
  · simp only [e]; exact h.residual

theorem IsConditional.congr {X : Ω → ι → ℝ} {Y : Ω → β} {f g : β → ι → ℝ} {C C' : Matrix ι ι ℝ}
    (h : IsConditional P X Y f C) (hf : ∀ y, g y = f y) (hC : C' = C) : IsConditional P X Y g C' := by
  have : g = f := funext hf
  rw [this, hC]; exact h

/-- Swap of independence. -/
theorem IndepFun.pair_of {α γ δ : Type*} [MeasurableSpace α] [MeasurableSpace γ] [MeasurableSpace δ]
    [IsProbabilityMeasure P] {A : Ω → α} {B : Ω → γ} {Z : Ω → δ} (hA : AEMeasurable A P) (hB : AEMeasurable B P)
    (hZ : AEMeasurable Z P) (h1 : IndepFun A Z P) (h2 : IndepFun B (fun ω => (A ω, Z ω)) P) :
    IndepFun (fun ω => (A ω, B ω)) Z P := by
  have h3 : IndepFun (fun ω => (Z ω, A ω)) B P :=
    (h2.comp (φ := id) (ψ := fun p : α × δ => (p.2, p.1)) measurable_id (by fun_prop)).symm
  exact (indep_triple hZ hA hB h1.symm h3).symm

/-- Prediction. -/
theorem IsConditional.predict {X : Ω → ι → ℝ} {Y : Ω → β} {f : β → ι → ℝ} {C : Matrix ι ι ℝ}
    (h : IsConditional P X Y f C) (hY : AEMeasurable Y P) {W : Ω → κ → ℝ} {b : κ → ℝ} {Q : Matrix κ κ ℝ}
    (hW : IsNormal P W b Q) (hi : IndepFun W (fun ω => (X ω, Y ω)) P) (A : Matrix κ ι ℝ) :
    IsConditional P (fun ω => A *ᵥ X ω + W ω) Y (fun y => A *ᵥ f y + b) (A * C * Aᵀ + Q) := by
  classical
  have := hW.isProbabilityMeasure
  have hWE : IndepFun W (fun ω => (X ω - f (Y ω), Y ω)) P :=
    hi.comp (φ := id) (ψ := fun p : (ι → ℝ) × β => (p.1 - f p.2, p.2)) measurable_id
      ((measurable_fst.sub (h.measurable.comp measurable_snd)).prodMk measurable_snd)
  have hEW : IndepFun (fun ω => X ω - f (Y ω)) W P :=
    (hWE.comp (φ := id) (ψ := Prod.fst) measurable_id measurable_fst).symm
  have hpair : IndepFun (fun ω => (X ω - f (Y ω), W ω)) Y P :=
    IndepFun.pair_of h.aemeasurable_sub hW.gaussian.aemeasurable hY h.indep hWE
  have e : ∀ ω, A *ᵥ X ω + W ω - (A *ᵥ f (Y ω) + b)
      = A *ᵥ (X ω - f (Y ω)) + (1 : Matrix κ κ ℝ) *ᵥ W ω + (-b) := by
    intro ω; rw [Matrix.mulVec_sub, Matrix.one_mulVec]; abel
  refine ⟨((measurable_mulVec A).comp h.measurable).add measurable_const, ?_, ?_⟩
  · simp only [e]
    exact hpair.comp (φ := fun p : (ι → ℝ) × (κ → ℝ) => A *ᵥ p.1 + (1 : Matrix κ κ ℝ) *ᵥ p.2 + (-b)) (ψ := id)
      ((((measurable_mulVec A).comp measurable_fst).add ((measurable_mulVec _).comp measurable_snd)).add
        measurable_const) measurable_id
  · simp only [e]
    have := h.residual.comb hW hEW A (1 : Matrix κ κ ℝ) (-b)
    simpa using this

theorem measurable_comb {μ : Type*} [Fintype μ] (A : Matrix μ ι ℝ) (B : Matrix μ κ ℝ) (c : μ → ℝ) :
    Measurable fun p : (ι → ℝ) × (κ → ℝ) => A *ᵥ p.1 + B *ᵥ p.2 + c :=
  (((measurable_mulVec A).comp measurable_fst).add ((measurable_mulVec B).comp measurable_snd)).add measurable_const

theorem update_core [DecidableEq ι] [DecidableEq κ] {E : Ω → ι → ℝ} {V : Ω → κ → ℝ} {Y : Ω → β} {C : Matrix ι ι ℝ}
    {c : κ → ℝ} {R : Matrix κ κ ℝ} (hE : IsNormal P E 0 C) (hV : IsNormal P V c R) (hEV : IndepFun E V P)
    (hY : AEMeasurable Y P) (hpair : IndepFun (fun ω => (E ω, V ω)) Y P) (H : Matrix κ ι ℝ) (K : Matrix ι κ ℝ)
    (hK : K * (H * C * Hᵀ + R) = C * Hᵀ) :
    IndepFun (fun ω => (1 - K * H) *ᵥ E ω + (-K) *ᵥ V ω + K *ᵥ c)
      (fun ω => (H *ᵥ E ω + (1 : Matrix κ κ ℝ) *ᵥ V ω + (-c), Y ω)) P := by
  have := hV.isProbabilityMeasure
  have hind : IndepFun (fun ω => (1 - K * H) *ᵥ E ω + (-K) *ᵥ V ω + K *ᵥ c)
      (fun ω => H *ᵥ E ω + (1 : Matrix κ κ ℝ) *ᵥ V ω + (-c)) P := by
    refine hE.comb_indep hV hEV (1 - K * H) (-K) (K *ᵥ c) H 1 (-c) ?_
    rw [Matrix.transpose_one, Matrix.mul_one, Matrix.sub_mul, Matrix.one_mul, Matrix.sub_mul, Matrix.neg_mul, ← hK]
    simp only [Matrix.mul_add, Matrix.mul_assoc]
    abel
  have hpair' : IndepFun (fun ω => ((1 - K * H) *ᵥ E ω + (-K) *ᵥ V ω + K *ᵥ c,
      H *ᵥ E ω + (1 : Matrix κ κ ℝ) *ᵥ V ω + (-c))) Y P :=
    hpair.comp (φ := fun p : (ι → ℝ) × (κ → ℝ) =>
      ((1 - K * H) *ᵥ p.1 + (-K) *ᵥ p.2 + K *ᵥ c, H *ᵥ p.1 + (1 : Matrix κ κ ℝ) *ᵥ p.2 + (-c))) (ψ := id)
      ((measurable_comb _ _ _).prodMk (measurable_comb _ _ _)) measurable_id
  have h1 : AEMeasurable (fun ω => (1 - K * H) *ᵥ E ω + (-K) *ᵥ V ω + K *ᵥ c) P :=
    (hE.comb hV hEV (1 - K * H) (-K) (K *ᵥ c)).gaussian.aemeasurable
  have h2 : AEMeasurable (fun ω => H *ᵥ E ω + (1 : Matrix κ κ ℝ) *ᵥ V ω + (-c)) P :=
    (hE.comb hV hEV H (1 : Matrix κ κ ℝ) (-c)).gaussian.aemeasurable
  exact indep_triple h1 h2 hY hind hpair'

/-- Conditioning on one more linear observation. -/
theorem IsConditional.update [DecidableEq ι] [DecidableEq κ] {X : Ω → ι → ℝ} {Y : Ω → β} {f : β → ι → ℝ}
    {C : Matrix ι ι ℝ}
    (h : IsConditional P X Y f C) (hY : AEMeasurable Y P) {V : Ω → κ → ℝ} {c : κ → ℝ} {R : Matrix κ κ ℝ}
    (hV : IsNormal P V c R) (hi : IndepFun V (fun ω => (X ω, Y ω)) P) (H : Matrix κ ι ℝ) (K : Matrix ι κ ℝ)
    (hK : K * (H * C * Hᵀ + R) = C * Hᵀ) :
    IsConditional P X (fun ω => (Y ω, H *ᵥ X ω + V ω)) (fun p => f p.1 + K *ᵥ (p.2 - (H *ᵥ f p.1 + c)))
      ((1 - K * H) * C * (1 - K * H)ᵀ + K * R * Kᵀ) := by
  have := hV.isProbabilityMeasure
  have hVE : IndepFun V (fun ω => (X ω - f (Y ω), Y ω)) P :=
    hi.comp (φ := id) (ψ := fun p : (ι → ℝ) × β => (p.1 - f p.2, p.2)) measurable_id
      ((measurable_fst.sub (h.measurable.comp measurable_snd)).prodMk measurable_snd)
  have hEV : IndepFun (fun ω => X ω - f (Y ω)) V P :=
    (hVE.comp (φ := id) (ψ := Prod.fst) measurable_id measurable_fst).symm
  have hpair : IndepFun (fun ω => (X ω - f (Y ω), V ω)) Y P :=
    IndepFun.pair_of h.aemeasurable_sub hV.gaussian.aemeasurable hY h.indep hVE
  have htri := update_core h.residual hV hEV hY hpair H K hK
  have hres : ∀ ω, X ω - (f (Y ω) + K *ᵥ ((H *ᵥ X ω + V ω) - (H *ᵥ f (Y ω) + c)))
      = (1 - K * H) *ᵥ (X ω - f (Y ω)) + (-K) *ᵥ V ω + K *ᵥ c := by
    intro ω
    simp only [Matrix.sub_mulVec, Matrix.one_mulVec, Matrix.neg_mulVec, Matrix.mulVec_sub, Matrix.mulVec_add,
      Matrix.mulVec_mulVec]
    abel
  have hYe : (fun ω => (Y ω, H *ᵥ X ω + V ω)) = (fun p : (κ → ℝ) × β => (p.2, p.1 + (H *ᵥ f p.2 + c))) ∘
      fun ω => (H *ᵥ (X ω - f (Y ω)) + (1 : Matrix κ κ ℝ) *ᵥ V ω + (-c), Y ω) := by
    funext ω
    simp only [Function.comp, Matrix.one_mulVec, Matrix.mulVec_sub, Prod.mk.injEq, true_and]
    abel
  refine ⟨?_, ?_, ?_⟩
  · exact (h.measurable.comp measurable_fst).add ((measurable_mulVec K).comp (measurable_snd.sub
      (((measurable_mulVec H).comp (h.measurable.comp measurable_fst)).add measurable_const)))
  · simp only [hres]
    rw [hYe]
    exact htri.comp (φ := id) (ψ := fun p : (κ → ℝ) × β => (p.2, p.1 + (H *ᵥ f p.2 + c))) measurable_id
      (measurable_snd.prodMk (measurable_fst.add (((measurable_mulVec H).comp
        (h.measurable.comp measurable_snd)).add measurable_const)))
  · simp only [hres]
    have := h.residual.comb hV hEV (1 - K * H) (-K) (K *ᵥ c)
    rw [Matrix.mulVec_zero, zero_add, Matrix.neg_mulVec, neg_add_cancel, Matrix.transpose_neg, Matrix.neg_mul,
      Matrix.neg_mul, Matrix.mul_neg, neg_neg] at this
    exact this

/-- Chain rule (smoothing step): if `X` given `(Z, X')` has mean `a(Z) + G X'` and covariance `D`, and `X'` given `Z`
has mean `f'(Z)` and covariance `C'`, then `X` given `Z` has mean `a(Z) + G f'(Z)` and covariance `D + G C' Gᵀ`. -/
theorem IsConditional.chain {X : Ω → ι → ℝ} {X' : Ω → κ → ℝ} {Z : Ω → β} {a : β → ι → ℝ} {G : Matrix ι κ ℝ}
    {D : Matrix ι ι ℝ} {f' : β → κ → ℝ} {C' : Matrix κ κ ℝ} (hZ : AEMeasurable Z P) (ha : Measurable a)
    (h : IsConditional P X (fun ω => (Z ω, X' ω)) (fun p => a p.1 + G *ᵥ p.2) D)
    (h' : IsConditional P X' Z f' C') :
    IsConditional P X Z (fun z => a z + G *ᵥ f' z) (D + G * C' * Gᵀ) := by
  classical
  have := h.residual.isProbabilityMeasure
  set ε := fun ω => X ω - (a (Z ω) + G *ᵥ X' ω) with hε
  set E := fun ω => X' ω - f' (Z ω) with hE
  have h1 : IndepFun ε (fun ω => (E ω, Z ω)) P :=
    h.indep.comp (φ := id) (ψ := fun p : β × (κ → ℝ) => (p.2 - f' p.1, p.1)) measurable_id
      ((measurable_snd.sub (h'.measurable.comp measurable_fst)).prodMk measurable_fst)
  have h2 : IndepFun (fun ω => (E ω, ε ω)) Z P :=
    IndepFun.pair_of h'.aemeasurable_sub h.residual.gaussian.aemeasurable hZ h'.indep h1
  have h3 : IndepFun ε E P := h1.comp (φ := id) (ψ := Prod.fst) measurable_id measurable_fst
  have hres : ∀ ω, X ω - (a (Z ω) + G *ᵥ f' (Z ω)) = (1 : Matrix ι ι ℝ) *ᵥ ε ω + G *ᵥ E ω + 0 := by
    intro ω
    simp only [hε, hE, Matrix.one_mulVec, Matrix.mulVec_sub, add_zero]
    abel
  refine ⟨ha.add ((measurable_mulVec G).comp h'.measurable), ?_, ?_⟩
  · simp only [hres]
    exact h2.comp (φ := fun p : (κ → ℝ) × (ι → ℝ) => (1 : Matrix ι ι ℝ) *ᵥ p.2 + G *ᵥ p.1 + 0) (ψ := id)
      ((((measurable_mulVec _).comp measurable_snd).add ((measurable_mulVec _).comp measurable_fst)).add
        measurable_const) measurable_id
  · simp only [hres]
    have := h.residual.comb h'.residual h3 (1 : Matrix ι ι ℝ) G 0
    simpa using this

/-- The conditional covariance is determined by the joint law. -/
theorem IsConditional.cov_unique {X : Ω → ι → ℝ} {Y : Ω → β} {f g : β → ι → ℝ} {C C' : Matrix ι ι ℝ}
    (hY : AEMeasurable Y P) (h : IsConditional P X Y f C) (h' : IsConditional P X Y g C') : C = C' := by
  have := h.residual.isProbabilityMeasure
  have key : ∀ {f g : β → ι → ℝ} {C C' : Matrix ι ι ℝ}, IsConditional P X Y f C → IsConditional P X Y g C' →
      ∀ i j, C i j = C' i j + cov[fun ω => g (Y ω) i - f (Y ω) i, fun ω => g (Y ω) j - f (Y ω) j; P] := by
    intro f g C C' h h' i j
    have hd : ∀ k, MemLp (fun ω => g (Y ω) k - f (Y ω) k) 2 P := by
      intro k
      have := (memLp_coord h.residual.gaussian k).sub (memLp_coord h'.residual.gaussian k)
      refine this.ae_eq (Filter.Eventually.of_forall fun ω => ?_)
      simp
    have hE : ∀ k, MemLp (fun ω => X ω k - g (Y ω) k) 2 P := fun k => memLp_coord h'.residual.gaussian k
    have hz : ∀ k l, cov[fun ω => X ω k - g (Y ω) k, fun ω => g (Y ω) l - f (Y ω) l; P] = 0 := by
      intro k l
      have : IndepFun (fun ω => X ω k - g (Y ω) k) (fun ω => g (Y ω) l - f (Y ω) l) P :=
        h'.indep.comp (φ := fun x : ι → ℝ => x k) (ψ := fun y => g y l - f y l) (by fun_prop)
          (((measurable_pi_apply l).comp h'.measurable).sub ((measurable_pi_apply l).comp h.measurable))
      exact this.covariance_eq_zero (hE k) (hd l)
    have e : ∀ k, (fun ω => (X ω - f (Y ω)) k)
        = (fun ω => X ω k - g (Y ω) k) + (fun ω => g (Y ω) k - f (Y ω) k) := by
      intro k; funext ω; simp
    rw [← h.residual.cov i j, ← h'.residual.cov i j, e, e, covariance_add_left (hE i) (hd i) ((hE j).add (hd j)),
      covariance_add_right (hE i) (hE j) (hd j), covariance_add_right (hd i) (hE j) (hd j), hz i j,
      covariance_comm (fun ω => g (Y ω) i - f (Y ω) i), hz j i]
    simp
  ext i j
  have h1 := key h h' i j
  have h2 := key h' h i j
  have e : cov[fun ω => f (Y ω) i - g (Y ω) i, fun ω => f (Y ω) j - g (Y ω) j; P]
      = cov[fun ω => g (Y ω) i - f (Y ω) i, fun ω => g (Y ω) j - f (Y ω) j; P] := by
    have a : ∀ k, (fun ω => f (Y ω) k - g (Y ω) k) = -(fun ω => g (Y ω) k - f (Y ω) k) := by
      intro k; funext ω; simp
    rw [a, a, covariance_neg_left, covariance_neg_right, neg_neg]
  rw [e] at h2
  linarith

end

end Probnum.Gauss
