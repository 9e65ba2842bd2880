import Verif.IWP.PreconLemmas

/-!
# Preconditioned transitions, for any transition and its expression in other coordinates
-/

namespace Probnum.IWP

open Matrix Probnum.LinGauss Probnum.Kalman

variable {n : ℕ} {P Pi : Matrix (Fin n) (Fin n) ℝ} {tr tr' : Transition n n}

theorem pre_forward_exact (hC : InCoords P Pi tr tr') (hQ : tr.noise.cov.PosSemidef) (ch : CovCholesky n) {ε δ : ℝ}
    (hε : 0 ≤ ε) (hδ : 0 ≤ δ) (rv : Rv n) (hv : rv.Valid) (hp : rv.cov.PosSemidef) (L : Matrix (Fin n) (Fin n) ℝ) :
    let f := forwardClassic tr δ ⟨rv.mean, effCov ε rv, L⟩
    let out := preForward ch ε P Pi tr' δ rv
    out.rv.mean = f.mean ∧ out.rv.cov = f.cov + ε • (P * Pᵀ) ∧ out.crosscov = f.crosscov := by
  obtain ⟨e1, e2, e3⟩ := pre_forwardClassic hC ch hε δ rv hv hp L
  have ht : Piᵀ * Pᵀ = 1 := by rw [← Matrix.transpose_mul, hC.right, Matrix.transpose_one]
  have psd : (forwardClassic tr δ ⟨rv.mean, effCov ε rv, L⟩).cov.PosSemidef := by
    have : (forwardClassic tr δ ⟨rv.mean, effCov ε rv, L⟩).cov
        = tr.mat * effCov ε rv * tr.matᵀ + δ • tr.noise.cov := predCov_eq tr δ ⟨rv.mean, effCov ε rv, L⟩
    rw [this]
    exact (psd_conj _ (effCov_psd hε rv hp)).add (hQ.smul hδ)
  refine ⟨?_, ?_, ?_⟩
  · rw [preForward, applyPrecon_mean, e1, Matrix.mulVec_mulVec, hC.right, Matrix.one_mulVec]
  · simp only [preForward]
    rw [applyPrecon_cov ch hε _ _ (fun L hL => by cases hL) (by
      show (forwardClassic _ _ _).cov.PosSemidef
      rw [e2]; exact psd_conj _ psd)]
    rw [effCov_none, e2]
    simp only [Matrix.mul_add, Matrix.add_mul, Matrix.mul_smul, Matrix.smul_mul, Matrix.mul_one, Matrix.mul_assoc,
      conj_cancel hC.right, ht]
  · simp only [preForward]
    rw [e3]
    simp only [Matrix.mul_assoc, conj_cancel hC.right, ht, Matrix.mul_one]

theorem pre_backward_exact (hC : InCoords P Pi tr tr') (hQ : tr.noise.cov.PosSemidef) (ch : CovCholesky n) {ε δ : ℝ}
    (hε : 0 ≤ ε) (hδ : 0 ≤ δ) (obt rv : Rv n) (hv : rv.Valid) (hp : rv.cov.PosSemidef) (hvo : obt.Valid)
    (hpo : obt.cov.PosSemidef) (L L' : Matrix (Fin n) (Fin n) ℝ) :
    (∀ e, backwardClassic tr δ ⟨obt.mean, effCov ε obt, L'⟩ ⟨rv.mean, effCov ε rv, L⟩ none = .error e →
      preBackward ch ε P Pi tr' δ obt rv none = .error e) ∧
    ∀ u, backwardClassic tr δ ⟨obt.mean, effCov ε obt, L'⟩ ⟨rv.mean, effCov ε rv, L⟩ none = .ok u →
      ∃ out, preBackward ch ε P Pi tr' δ obt rv none = .ok out ∧ out.mean = u.mean ∧
        out.cov = u.cov + ε • (P * Pᵀ) := by
  obtain ⟨e1, e2, e3⟩ := pre_forwardClassic hC ch hε δ rv hv hp L
  have hg := pre_gainClassic hC ch hε δ rv hv hp L
  have ht : Piᵀ * Pᵀ = 1 := by rw [← Matrix.transpose_mul, hC.right, Matrix.transpose_one]
  simp only [preBackward, Option.map_none]
  cases hK : gainClassic tr δ ⟨rv.mean, effCov ε rv, L⟩ with
  | error e =>
    rw [hK] at hg
    simp only [backwardClassic, hK, hg, Except.map, bind, Except.bind]
    exact ⟨fun e' h => by cases h; rfl, fun u h => by cases h⟩
  | ok K =>
    rw [hK] at hg
    refine ⟨fun e' h => by simp [backwardClassic, hK, bind, Except.bind] at h, fun u hu => ?_⟩
    have hpu : u.cov.PosSemidef := backward_cov_posSemidef tr δ ⟨obt.mean, effCov ε obt, L'⟩
      ⟨rv.mean, effCov ε rv, L⟩ hδ (effCov_psd hε rv hp) hQ (effCov_psd hε obt hpo) u hu
    simp only [backwardClassic, hK, hg, Except.map, bind, Except.bind, Except.ok.injEq] at hu ⊢
    obtain ⟨c1, c2⟩ := pre_condition hC ⟨obt.mean, effCov ε obt, L'⟩ ⟨rv.mean, effCov ε rv, L⟩
      ((applyPrecon ch ε Pi obt).toNormal ch ε) ((applyPrecon ch ε Pi rv).toNormal ch ε)
      (forwardClassic tr δ ⟨rv.mean, effCov ε rv, L⟩).mean _ (forwardClassic tr δ ⟨rv.mean, effCov ε rv, L⟩).cov _ K rfl
      (applyPrecon_cov ch hε _ obt hvo hpo) rfl (applyPrecon_cov ch hε _ rv hv hp) e1 e2
    rw [hu] at c1 c2
    refine ⟨_, rfl, ?_, ?_⟩
    · rw [applyPrecon_mean, c1, Matrix.mulVec_mulVec, hC.right, Matrix.one_mulVec]
    · rw [applyPrecon_cov ch hε _ _ (fun L hL => by cases hL) (by
        simp only
        rw [c2]; exact psd_conj _ hpu)]
      rw [effCov_none, c2]
      simp only [Matrix.mul_add, Matrix.add_mul, Matrix.mul_smul, Matrix.smul_mul, Matrix.mul_one, Matrix.mul_assoc,
        conj_cancel hC.right, ht]

end Probnum.IWP
