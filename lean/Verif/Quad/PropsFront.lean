import Verif.Quad.FrontLemmas
import Verif.Quad.Exists
import Verif.Gauss.Conditional
import Verif.Gauss.Independent

/-! # Property C80: the front ends of Bayesian quadrature return conditional distributions of integrals -/

namespace Probnum.Quad

open Probnum Probnum.Linops Probnum.Cov Finset MeasureTheory ProbabilityTheory Probnum.Gauss
open scoped Matrix

/-! ## Specification -/

/-- The pairs of kernels and measures for which the library knows kernel mean and variance. -/
def Compatible {D : ℕ} : AnyKernel → AnyMeasure D → Prop
  | .expQuad s (.inl _), .gaussian _ => s = [D]
  | .expQuad s (.inl _), .lebesgue _ _ _ => s = [D]
  | .matern dim (.product ms), .lebesgue _ _ _ => dim = D ∧ ∀ i, Supported (ms i)
  | .matern dim (.matern (.inl l) nu), .lebesgue _ _ _ => dim = D ∧ dim ≤ 1 ∧ (dim = 1 → Supported ⟨nu, l⟩)
  | _, _ => False

/-- The covariance matrix of noisy values at the nodes, with `v` the scale and `j` the jitter. -/
noncomputable def gramOf {D : ℕ} (k : AnyKernel) (j : ℝ) (xs : List (Fin D → ℝ)) : Matrix (Fin xs.length) (Fin xs.length) ℝ :=
  Matrix.of fun a b => kernelValue k xs[a] xs[b] + if a = b then j else 0

/-! ## The measure -/

/-- **C80.**  The measure is the given one, and else the Lebesgue measure on the given domain; the warning is given if there
are both.  Everything else is a ValueError. -/
theorem measure_choice (inputDim : ℤ) (domain : Option (List (Arr ℝ))) (measure : Option SomeMeasure) :
    (∀ r, checkCompat inputDim domain measure = .ok r ↔
      (∃ m, measure = some m ∧ r = (m, domain.isSome)) ∨
      (measure = none ∧ ∃ dom a b, domain = some dom ∧ IsDomain dom (some inputDim) a b inputDim ∧
        r = (⟨inputDim.toNat, .lebesgue (fun i => a.getD i 0) (fun i => b.getD i 0) 1⟩, false))) ∧
    (∀ e, checkCompat inputDim domain measure = .error e → e = .valueError) := by
  cases measure with
  | some m => cases domain <;> simp [checkCompat, eq_comm]
  | none =>
    cases domain with
    | none => simp [checkCompat]
    | some dom =>
      rw [checkCompat, lebesgueMeasure]
      cases hd : asDomain dom (some inputDim) with
      | error e =>
        refine ⟨fun r => ⟨fun h => (by cases h), ?_⟩, fun e' he => ?_⟩
        · rintro (⟨_, h, _⟩ | ⟨_, dom', a, b, h1, h2, _⟩)
          · cases h
          · cases h1
            have := (as_domain_iff dom (some inputDim) a b inputDim).2 h2
            rw [this] at hd; cases hd
        · by_cases hex : ∃ a b d, IsDomain dom (some inputDim) a b d
          · obtain ⟨a, b, d, h⟩ := hex
            rw [(as_domain_iff _ _ _ _ _).2 h] at hd; cases hd
          · have := as_domain_rejects (domain := dom) (inputDim := some inputDim) fun a b d h => hex ⟨a, b, d, h⟩
            rw [this] at hd
            cases hd; cases he; rfl
      | ok z =>
        obtain ⟨⟨a, b⟩, d⟩ := z
        have hl := as_domain_length hd
        have hdd : inputDim = d := by
          rcases hl.2.2 with h | h
          · cases h
          · exact Option.some.inj h
        subst hdd
        have hI := (as_domain_iff _ _ _ _ _).1 hd
        simp only [lebesgueConstant, Bool.false_eq_true, if_false]
        refine ⟨fun r => ⟨fun h => ?_, ?_⟩, fun e he => by cases he⟩
        · have h := Except.ok.inj h
          exact .inr ⟨trivial, dom, a, b, rfl, hI, h.symm⟩
        · rintro (⟨_, h, _⟩ | ⟨_, dom', a', b', h1, h2, rfl⟩)
          · cases h
          · cases h1
            have := ((as_domain_iff _ _ _ _ _).2 h2).symm.trans hd
            cases this
            rfl

/-- **C80.**  The measure for a domain is the Lebesgue measure on it. -/
theorem domain_measure {inputDim : ℤ} {dom : List (Arr ℝ)} {m : SomeMeasure} {w : Bool}
    (h : checkCompat inputDim (some dom) none = .ok (m, w)) :
    ∃ a b : Fin m.1 → ℝ, (∀ i, a i < b i) ∧ m.2 = .lebesgue a b 1 ∧ (m.1 : ℤ) = inputDim ∧
      IsMeasure m.2 (volume.restrict (Set.Icc a b)) := by
  rcases ((measure_choice inputDim (some dom) none).1 _).1 h with ⟨_, h, _⟩ | ⟨_, dom', a, b, h1, h2, h3⟩
  · cases h
  · cases h1
    cases h3
    have hl := as_domain_length ((as_domain_iff _ _ _ _ _).2 h2)
    have ha : a.length = inputDim.toNat := by omega
    have hb : b.length = inputDim.toNat := by omega
    have hlt : ∀ i : Fin inputDim.toNat, a.getD i 0 < b.getD i 0 := fun i => by
      rw [List.getD_eq_getElem _ _ (by omega), List.getD_eq_getElem _ _ (by omega)]
      exact h2.2 i (by omega) (by omega)
    refine ⟨_, _, hlt, rfl, by dsimp only; omega, fun i => (hlt i).le, zero_le_one, ?_⟩
    rw [ENNReal.ofReal_one, one_smul]

/-! ## The problem -/

theorem problem_iff {D : ℕ} {k : AnyKernel} {m : AnyMeasure D} :
    (∃ P : Problem (Fin D → ℝ), problemOf k ⟨D, m⟩ = .ok P) ↔ Compatible k m := by
  have key : (∃ P : Problem (Fin D → ℝ), problemOf k ⟨D, m⟩ = .ok P) ↔
      ∃ emb v, kernelEmbedding k m = .ok emb ∧ emb.variance = .ok v := by
    rw [problemOf]
    dsimp only
    cases kernelEmbedding k m with
    | error e => simp
    | ok emb =>
      dsimp only
      cases h : emb.variance with
      | error e => simp [h]
      | ok v => simp [h]
  rw [key, kernelEmbedding]
  cases k with
  | other s => cases m <;> simp only [getEmbedding, Compatible, iff_false] <;> rintro ⟨emb, v, h, hv⟩ <;> split at h <;> cases h
  | expQuad s ls =>
    cases ls with
    | inr l =>
      cases m <;> simp only [getEmbedding, Compatible, iff_false] <;> rintro ⟨emb, v, h, hv⟩ <;> split at h <;> cases h <;> cases hv
    | inl l =>
      cases m with
      | other => simp only [getEmbedding, Compatible, iff_false] <;> rintro ⟨emb, v, h, hv⟩ <;> split at h <;> cases h
      | gaussian g =>
        simp only [getEmbedding, Compatible, AnyKernel.shape]
        by_cases hs : s = [D]
        · simp [hs, expquadGaussVariance, lengthscale, Except.map]
        · simp [hs]
      | lebesgue a b c =>
        simp only [getEmbedding, Compatible, AnyKernel.shape]
        by_cases hs : s = [D]
        · simp [hs, expquadLebesgueVariance, lengthscale, Except.map]
        · simp [hs]
  | matern dim km =>
    have sup : ∀ ms : Fin dim → Matern1, ∀ (a b : Fin dim → ℝ) (c : ℝ),
        (∃ v, kernelVariance (.product ms) a b c = .ok v) ↔ ∀ i, Supported (ms i) := by
      intro ms a b c
      constructor
      · rintro ⟨v, hv⟩ i
        by_contra hcon
        rw [((matern_embedding_rejects c a b a b a).1 ms ⟨i, hcon⟩).2] at hv
        cases hv
      · intro hs
        rw [kernelVariance, dif_pos rfl, convertToProduct]
        dsimp only [Fin.cast_eq_self]
        have : ∀ i, ∃ w, kernelVariance1 (ms i) (a i) (b i) = .ok w := fun i => by
          rw [kernelVariance1]
          dsimp only
          split_ifs with h1 h2 h3 h4
          · exact ⟨_, rfl⟩
          · exact ⟨_, rfl⟩
          · exact ⟨_, rfl⟩
          · exact ⟨_, rfl⟩
          · rcases hs i with h | h | h | h
            · exact absurd h h1
            · exact absurd h h2
            · exact absurd h h3
            · exact absurd h h4
        choose w hw using this
        rw [kernelVarianceProduct, prodLoop_ok hw]
        exact ⟨_, rfl⟩
    cases m with
    | other => cases km <;> simp only [getEmbedding, Compatible, iff_false] <;> rintro ⟨emb, v, h, hv⟩ <;> split at h <;> cases h
    | gaussian g => cases km <;> simp only [getEmbedding, Compatible, iff_false] <;> rintro ⟨emb, v, h, hv⟩ <;> split at h <;> cases h
    | lebesgue a b c =>
      by_cases hd : dim = D
      · subst hd
        rw [if_neg (by simp [AnyKernel.shape]), getEmbedding, dif_pos rfl]
        have : (∃ emb v, (Except.ok ⟨fun x => kernelMean km a b c fun i => x (Fin.cast rfl i), kernelVariance km a b c⟩ : Res (Embedding dim)) = .ok emb ∧
            emb.variance = .ok v) ↔ ∃ v, kernelVariance km a b c = .ok v := by
          constructor
          · rintro ⟨emb, v, h, hv⟩
            cases h
            exact ⟨v, hv⟩
          · rintro ⟨v, hv⟩
            exact ⟨_, v, rfl, hv⟩
        rw [this]
        cases km with
        | product ms => rw [sup]; simp [Compatible]
        | matern ls nu =>
          cases ls with
          | inr ls =>
            simp only [Compatible, iff_false]
            rintro ⟨v, hv⟩
            rw [kernelVariance, dif_pos rfl, convertToProduct.eq_def] at hv
            dsimp only at hv
            split at hv
            · next h => split at h <;> cases h <;> cases hv
            · next h => split at h <;> cases h
          | inl l =>
            simp only [Compatible, true_and]
            by_cases h1 : dim > 1
            · rw [((matern_embedding_rejects c a b a b a).2.1 (.inl l) nu h1).2]
              simp [h1]
            · have e : kernelVariance (.matern (.inl l) nu : MKernel dim) a b c = kernelVariance (.product fun _ : Fin dim => ⟨nu, l⟩) a b c := by
                rw [kernelVariance, kernelVariance, dif_pos rfl, dif_pos rfl, convertToProduct.eq_def]
                dsimp only
                rw [if_neg h1, convertToProduct]
              rw [e, sup]
              constructor
              · intro h
                exact ⟨by omega, fun h1 => h ⟨0, by omega⟩⟩
              · rintro ⟨_, h⟩ i
                have := i.2
                exact h (by omega)
      · rw [if_pos (by simpa [AnyKernel.shape] using hd)]
        cases km with
        | product ms => simp [Compatible, hd]
        | matern ls nu => cases ls <;> simp [Compatible, hd]

/-- **C80.**  The kernel mean does not fail where the kernel variance does not, and the problem holds the values of both. -/
theorem problem_mean {D : ℕ} {k : AnyKernel} {m : AnyMeasure D} {P : Problem (Fin D → ℝ)} (h : problemOf k ⟨D, m⟩ = .ok P)
    (hk : k.Proper) {μ : Measure (Fin D → ℝ)} (hμ : IsMeasure m μ) :
    ∃ emb, kernelEmbedding k m = .ok emb ∧ emb.variance = .ok P.var ∧ ∀ x, emb.mean x = .ok (P.mean x) := by
  have hc := problem_iff.1 ⟨P, h⟩
  rw [problemOf] at h
  cases he : kernelEmbedding k m with
  | error e => dsimp only at h; rw [he] at h; cases h
  | ok emb =>
    dsimp only at h
    rw [he] at h
    dsimp only at h
    cases hv : emb.variance with
    | error e => rw [hv] at h; cases h
    | ok v =>
      rw [hv] at h
      dsimp only at h
      rw [dif_pos rfl] at h
      have h := Except.ok.inj h
      dsimp only [Fin.cast_eq_self] at h
      subst h
      suffices hs : ∀ x, ∃ z, emb.mean x = .ok z by
        refine ⟨emb, rfl, hv, fun x => ?_⟩
        obtain ⟨z, hz⟩ := hs x
        dsimp only
        rw [hz]
      intro x
      rw [kernelEmbedding] at he
      split at he
      · cases he
      cases k with
      | other s => cases m <;> cases he
      | expQuad s ls =>
        cases ls with
        | inr ls => cases m <;> cases hc
        | inl l =>
          cases m with
          | other => cases he
          | gaussian g => cases he; exact ⟨_, expquad_gauss_mean hk hμ.1 hμ.2 x⟩
          | lebesgue a b c => cases he; exact ⟨_, rfl⟩
      | matern dim km =>
        cases m with
        | other => cases he
        | gaussian g => cases he
        | lebesgue a b c =>
          have ok1 : ∀ (m : Matern1), Supported m → ∀ x a b, ∃ w, kernelMean1 x m a b = .ok w := by
            intro m hm x a b
            rw [kernelMean1]
            split_ifs with h1 h2 h3 h4
            · exact ⟨_, rfl⟩
            · exact ⟨_, rfl⟩
            · exact ⟨_, rfl⟩
            · exact ⟨_, rfl⟩
            · rcases hm with h | h | h | h
              · exact absurd h h1
              · exact absurd h h2
              · exact absurd h h3
              · exact absurd h h4
          have okp : ∀ ms : Fin dim → Matern1, (∀ i, Supported (ms i)) → ∀ (a b : Fin dim → ℝ) x, ∃ w, kernelMeanProduct ms a b c x = .ok w := by
            intro ms hs a b x
            choose w hw using fun i => ok1 (ms i) (hs i) (x i) (a i) (b i)
            rw [kernelMeanProduct, prodLoop_ok hw]
            exact ⟨_, rfl⟩
          rw [getEmbedding] at he
          split at he
          · next hd =>
            subst hd
            cases he
            dsimp only [Fin.cast_eq_self]
            rw [kernelMean, dif_pos rfl]
            cases km with
            | product ms => exact okp ms hc.2 _ _ _
            | matern ls nu =>
              cases ls with
              | inr _ => cases hc
              | inl l =>
                rw [convertToProduct.eq_def]
                dsimp only
                rw [if_neg (by have := hc.2.1; omega)]
                refine okp _ (fun i => hc.2.2 ?_) _ _ _
                have := i.2
                have := hc.2.1
                omega
          · cases he

/-! ## `bayesquad_from_data` -/

/-- What the call does, step by step. -/
theorem from_data_eq {D : ℕ} (nodes : Rows (Fin D → ℝ)) (evals : Rows ℝ) (kernel : Option AnyKernel)
    (measure : Option SomeMeasure) (domain : Option (List (Arr ℝ))) (o : Options) :
    bayesquadFromData nodes evals kernel measure domain o =
      if nodes.ndim ≠ 2 then .error .valueError
      else match checkCompat D domain measure with
      | .error e => .error e
      | .ok (m, _) =>
        if o.jitter.getD 1e-8 < 0 then .error .valueError
        else if evals.ndim ≠ 1 ∨ nodes.rows.length ≠ evals.rows.length then .error .valueError
        else match problemOf (kernel.getD (defaultKernel D)) m with
        | .error e => .error e
        | .ok P => match Update.call ⟨o.jitter.getD 1e-8, o.scale.getD .mle⟩ P (State.initial P) nodes.rows evals.rows with
          | .error e => .error e
          | .ok s => .ok (s.belief, ⟨0, s.evals.length, true⟩) := by
  rw [bayesquadFromData]
  by_cases h1 : nodes.ndim ≠ 2
  · rw [if_pos h1, if_pos h1]
  rw [if_neg h1, if_neg h1]
  by_cases h2 : o.jitter.getD 1e-8 < 0
  · simp only [if_pos h2]
    cases checkCompat D domain measure with
    | error e => rfl
    | ok z =>
      obtain ⟨m, w⟩ := z
      have hf : ∀ P : Problem (Fin D → ℝ), fromProblem (ρ := Unit) D (fun _ => .ok none) false (.ok none) o P = .error .valueError := by
        intro P
        rw [fromProblem, Update.mk?, if_pos h2]
      dsimp only
      rw [runSolver.eq_def]
      cases problemOf (kernel.getD (defaultKernel D)) m with
      | error e => dsimp only; rw [hf]
      | ok P => dsimp only; rw [hf]
  · simp only [if_neg h2]
    cases checkCompat D domain measure with
    | error e => rfl
    | ok z =>
      obtain ⟨m, w⟩ := z
      dsimp only
      have h1 := not_not.1 h1
      have hf : ∀ P : Problem (Fin D → ℝ), fromProblem (ρ := Unit) D (fun _ => .ok none) false (.ok none) o P =
          .ok ⟨P, none, ⟨o.jitter.getD 1e-8, o.scale.getD .mle⟩, .immediate, none⟩ := by
        intro P
        rw [fromProblem, Update.mk?, if_neg h2]
        rfl
      have hp : ∀ P : Problem (Fin D → ℝ), Solver.prepare (⟨P, none, ⟨o.jitter.getD 1e-8, o.scale.getD .mle⟩, .immediate, none⟩ : Solver (Fin D → ℝ) Unit)
          none (some nodes) (some evals) false =
          if evals.ndim ≠ 1 ∨ nodes.rows.length ≠ evals.rows.length then .error .valueError else .ok (some nodes.rows, evals.rows, []) := by
        intro P
        have hfe : fixedEvals (none : Option (List (Fin D → ℝ) → Rows ℝ)) (some nodes) (some evals) = .ok (some evals, []) := rfl
        rw [Solver.prepare, if_neg (by simp), hfe]
        dsimp only
        have : badPolicy (none : Option (Policy (Fin D → ℝ) Unit)) none (some nodes) false = false := rfl
        rw [this, badShapes]
        simp only [h1, ne_eq, not_true_eq_false, decide_false, Bool.or_false, Bool.or_eq_true, decide_eq_true_eq]
        rfl
      rw [runSolver.eq_def]
      split_ifs with h3
      · cases problemOf (kernel.getD (defaultKernel D)) m with
        | error e => dsimp only; rw [hf]; dsimp only; rw [hp, if_pos h3]
        | ok P => dsimp only; rw [hf]; dsimp only; rw [Solver.integrate, hp, if_pos h3]
      · cases problemOf (kernel.getD (defaultKernel D)) m with
        | error e => dsimp only; rw [hf]; dsimp only; rw [hp, if_neg h3]; rfl
        | ok P =>
          dsimp only; rw [hf]; dsimp only; rw [Solver.integrate, hp, if_neg h3]
          dsimp only [Solver.start]
          cases Update.call ⟨o.jitter.getD 1e-8, o.scale.getD .mle⟩ P (State.initial P) nodes.rows evals.rows with
          | error e => rfl
          | ok s =>
            dsimp only
            rw [if_neg (by simp)]
            rw [bqLoop_stop (c := ⟨s, ⟨0, s.evals.length, false⟩, (), []⟩) (crit := .immediate) 0 trivial]

theorem gramOf_eq {D : ℕ} {k : AnyKernel} {P : Problem (Fin D → ℝ)} (hP : P.k = kernelValue k) (j : ℝ) (xs : List (Fin D → ℝ)) :
    toM xs.length xs.length (kernelMatrix P.k xs xs + j • eye) = gramOf k j xs := by
  ext a b
  show kernelMatrix P.k xs xs a b + j * eye a b = kernelValue k xs[a] xs[b] + if a = b then j else 0
  rw [kernelMatrix_get _ _ _ a.2 b.2, hP, eye]
  by_cases hab : a = b
  · subst hab; simp
  · have : (a : ℕ) ≠ b := fun h => hab (Fin.ext h)
    simp [hab, this]

theorem gramOf_posDef {D : ℕ} {k : AnyKernel} (hk : IsPSD (kernelValue k : (Fin D → ℝ) → (Fin D → ℝ) → ℝ)) {j : ℝ} (hj : 0 < j)
    (xs : List (Fin D → ℝ)) : (gramOf k j xs).PosDef := by
  have e : gramOf k j xs = j • (1 : Matrix (Fin xs.length) (Fin xs.length) ℝ) +
      Matrix.of fun a b : Fin xs.length => kernelValue k xs[a] xs[b] := by
    ext a b
    rw [gramOf, Matrix.add_apply, Matrix.smul_apply, Matrix.one_apply, Matrix.of_apply, Matrix.of_apply, add_comm]
    simp
  rw [e]
  exact (Matrix.PosDef.one.smul hj).add_posSemidef (hk xs.length fun a => xs[a])

/-- Linear functions of a conditionally normal vector. -/
theorem conditional_map {Ω ι κ β : Type*} [MeasurableSpace Ω] [Fintype ι] [Fintype κ] [MeasurableSpace β] {Q : Measure Ω}
    {X : Ω → ι → ℝ} {Y : Ω → β} {f : β → ι → ℝ} {C : Matrix ι ι ℝ} (h : IsConditional Q X Y f C) (A : Matrix κ ι ℝ) :
    IsConditional Q (fun ω => A *ᵥ X ω) Y (fun y => A *ᵥ f y) (A * C * Aᵀ) := by
  have hA : Measurable fun v : ι → ℝ => A *ᵥ v := by
    refine measurable_pi_lambda _ fun i => ?_
    simp only [Matrix.mulVec, dotProduct]
    fun_prop
  have e : ∀ ω, A *ᵥ X ω - A *ᵥ f (Y ω) = A *ᵥ (X ω - f (Y ω)) := fun ω => (Matrix.mulVec_sub _ _ _).symm
  refine ⟨hA.comp h.measurable, ?_, ?_⟩
  · simp only [e]
    exact h.indep.comp hA measurable_id
  · simp only [e]
    have := h.residual.affine A 0
    simpa using this

/-- **C80.**  Whatever `bayesquad_from_data` returns is the conditional distribution of the integral: there is a scale `v`
such that for integrands that are Gaussian processes with covariance `v * kernel`, observed at the nodes with noise of
variance `v * jitter`, the conditional distribution of the integral given the data is normal with the returned mean and
variance.  (For Matérn kernels the nodes have to be in the domain.)  The scale is 1 if it is not estimated; else it is the
one that gives the data the largest density.  The run made no evaluation of its own. -/
theorem from_data_conditional {D : ℕ} {nodes : Rows (Fin D → ℝ)} {evals : Rows ℝ} {kernel : Option AnyKernel}
    {measure : Option SomeMeasure} {domain : Option (List (Arr ℝ))} {o : Options} {belief : ℝ × ℝ} {info : Info}
    (h : bayesquadFromData nodes evals kernel measure domain o = .ok (belief, info))
    (hk : (kernel.getD (defaultKernel D)).Proper) :
    ∃ (m : AnyMeasure D) (w : Bool) (v : ℝ), checkCompat D domain measure = .ok (⟨D, m⟩, w) ∧ 0 ≤ v ∧
      (o.scale = some .keep → v = 1) ∧
      (o.scale = none ∨ o.scale = some .mle → (∃ y ∈ evals.rows, y ≠ 0) → 0 < v ∧ ∀ v' : ℝ, 0 < v' → v' ≠ v →
        normalPdf 0 (v' • gramOf (kernel.getD (defaultKernel D)) (o.jitter.getD 1e-8) nodes.rows) (fun i => evals.rows.getD i 0) <
        normalPdf 0 (v • gramOf (kernel.getD (defaultKernel D)) (o.jitter.getD 1e-8) nodes.rows) (fun i => evals.rows.getD i 0)) ∧
      info = ⟨0, nodes.rows.length, true⟩ ∧
      ∀ (μ : Measure (Fin D → ℝ)) (Ω : Type) (_ : MeasurableSpace Ω) (Q : Measure Ω) (g : (Fin D → ℝ) → Ω → ℝ)
        (e : Fin nodes.rows.length → Ω → ℝ), IsMeasure m μ →
        (∀ x ∈ nodes.rows, x ∈ region (kernel.getD (defaultKernel D)) m) →
        IsPrior Q g e (fun x y => v * kernelValue (kernel.getD (defaultKernel D)) x y) (v * o.jitter.getD 1e-8) →
        ∃ f : (Fin nodes.rows.length → ℝ) → Fin 1 → ℝ,
          IsConditional Q (fun ω _ => ∫ x, g x ω ∂μ) (fun ω i => g nodes.rows[i] ω + e i ω) f !![belief.2] ∧
          f (fun i => evals.rows.getD i 0) = ![belief.1] := by
  generalize hK : kernel.getD (defaultKernel D) = k at *
  generalize hJ : o.jitter.getD 1e-8 = j at *
  rw [from_data_eq, hK, hJ] at h
  split at h
  · cases h
  cases hcc : checkCompat D domain measure with
  | error e => rw [hcc] at h; cases h
  | ok z =>
    obtain ⟨⟨D', m⟩, w⟩ := z
    rw [hcc] at h
    dsimp only at h
    split at h
    · cases h
    split at h
    · cases h
    next hsh =>
    have hlen : nodes.rows.length = evals.rows.length := by
      by_contra hne
      exact hsh (.inr hne)
    cases hp : problemOf (D := D) k ⟨D', m⟩ with
    | error e => rw [hp] at h; cases h
    | ok P =>
      have hD : D = D' := by
        rw [problemOf] at hp
        split at hp
        · cases hp
        · split at hp
          · cases hp
          · split at hp
            · next h => exact h
            · cases hp
      subst hD
      obtain ⟨e1, e2, e3, e4⟩ := problemOf_embeds hp hk
      rw [hp] at h
      dsimp only at h
      cases hu : Update.call ⟨j, o.scale.getD .mle⟩ P (State.initial P) nodes.rows evals.rows with
      | error e => rw [hu] at h; cases h
      | ok s =>
        rw [hu] at h
        have sym := (isPSD_iff.1 e2).1
        obtain ⟨hfit, hnodes, hevals, hcl, _, _⟩ := (fits_initial P).call sym hu
        have hnodes : s.nodes = nodes.rows := hnodes
        have hevals : s.evals = evals.rows := hevals
        have hreach : Reachable ⟨j, o.scale.getD .mle⟩ P s := ⟨[(nodes.rows, evals.rows)], by rw [updates, hu]; rfl⟩
        obtain ⟨h1, h2⟩ := Prod.mk.inj (Except.ok.inj h)
        refine ⟨m, w, s.scaleSq, rfl, (reach_unified sym hreach).2.2.1, ?_, ?_, ?_, ?_⟩
        · intro hs
          rw [hs, Option.getD_some] at hcl
          rw [closed] at hcl
          dsimp only at hcl
          split at hcl
          · rw [estimateScale] at hcl
            dsimp only at hcl
            split at hcl
            · cases hcl
            · exact (Prod.mk.inj (Except.ok.inj hcl)).1.symm
          · cases hcl
        · intro hs hne
          have hsc : o.scale.getD .mle = .mle := by rcases hs with h | h <;> rw [h] <;> rfl
          have hd : ∃ i < s.nodes.length, vec s.evals i ≠ 0 := by
            obtain ⟨y, hy, hy0⟩ := hne
            obtain ⟨i, hi, rfl⟩ := List.mem_iff_getElem.1 hy
            refine ⟨i, by rw [hnodes, hlen]; exact hi, ?_⟩
            rw [vec, hevals, List.getD_eq_getElem _ _ hi]
            exact hy0
          have key := bq_scale_mle sym hsc hreach hd
          rw [hevals] at key
          have hn' := hnodes
          revert key
          generalize s.scaleSq = v
          rw [hn']
          dsimp only
          rw [gramOf_eq e1]
          exact id
        · rw [← h2, hevals, hlen]
        · intro μ Ω _ Q g e hμ hn hg
          have hE := e4 μ hμ
          rw [← e1] at hg
          rw [← h1]
          have hx : ∃ x, x ∈ region k m := by
            cases m with
            | lebesgue a b c =>
              cases k with
              | matern _ _ => exact ⟨a, le_refl _, hμ.1⟩
              | expQuad _ _ => exact ⟨a, trivial⟩
              | other _ => exact ⟨a, trivial⟩
            | gaussian g => cases k <;> exact ⟨g.mean, trivial⟩
            | other => cases hμ
          obtain ⟨x, hx⟩ := hx
          rw [← hnodes] at hn
          have main : ∀ (xs : List (Fin D → ℝ)) (hxs : s.nodes = xs) (e : Fin xs.length → Ω → ℝ),
              IsPrior Q g e (fun x y => s.scaleSq * P.k x y) (s.scaleSq * j) →
              ∃ (f : (Fin xs.length → ℝ) → Fin 2 → ℝ) (c : ℝ),
                IsConditional Q (fun ω => ![∫ x, g x ω ∂μ, g x ω]) (fun ω (i : Fin xs.length) => g xs[i] ω + e i ω) f
                  !![s.belief.2, c; c, (predict P s x).2] ∧
                f (fun i => vec s.evals i) = ![s.belief.1, (predict P s x).1] := by
            intro xs hxs
            subst hxs
            intro e he
            obtain ⟨f, c, h1, h2, _⟩ := bq_conditional hE hreach hn he hx
            exact ⟨f, c, h1, h2⟩
          obtain ⟨f, c, hf1, hf2⟩ := main _ hnodes e hg
          have hm := conditional_map hf1 (!![1, 0] : Matrix (Fin 1) (Fin 2) ℝ)
          refine ⟨fun y => !![1, 0] *ᵥ f y, ?_, ?_⟩
          · convert hm using 1
            · funext ω i
              simp [Matrix.mulVec, dotProduct]
            · ext a b
              fin_cases a; fin_cases b
              simp [Matrix.mul_apply, Matrix.vecMul, dotProduct]
          · dsimp only
            rw [← hevals]
            have : f (fun i => s.evals.getD i 0) = ![s.belief.1, (predict P s x).1] := hf2
            rw [this]
            funext a
            fin_cases a
            simp [Matrix.mulVec, dotProduct]

/-- **C80.**  When `bayesquad_from_data` succeeds, for a positive jitter (the default is 1e-8) and at least one node: exactly
for two-dimensional nodes and one-dimensional values of the same length, a measure or a valid domain, a kernel with the
dimension of the nodes whose embedding is known, and a known way to estimate the scale.  A numerical failure is not
possible, whatever the nodes (also if they coincide). -/
theorem from_data_outcome {D : ℕ} (nodes : Rows (Fin D → ℝ)) (evals : Rows ℝ) (kernel : Option AnyKernel)
    (measure : Option SomeMeasure) (domain : Option (List (Arr ℝ))) (o : Options)
    (hk : (kernel.getD (defaultKernel D)).Proper) (hj : 0 < o.jitter.getD 1e-8) (hn : nodes.rows ≠ []) :
    (∃ r, bayesquadFromData nodes evals kernel measure domain o = .ok r) ↔
      nodes.ndim = 2 ∧ evals.ndim = 1 ∧ nodes.rows.length = evals.rows.length ∧ o.scale ≠ some .other ∧
      ∃ (m : AnyMeasure D) (w : Bool), checkCompat D domain measure = .ok (⟨D, m⟩, w) ∧
        Compatible (kernel.getD (defaultKernel D)) m := by
  rw [from_data_eq]
  generalize kernel.getD (defaultKernel D) = k at *
  generalize o.jitter.getD 1e-8 = j at *
  by_cases h1 : nodes.ndim ≠ 2
  · rw [if_pos h1]
    exact ⟨fun ⟨_, h⟩ => (by cases h), fun h => absurd h.1 h1⟩
  rw [if_neg h1]
  have h1 := not_not.1 h1
  cases hcc : checkCompat D domain measure with
  | error e =>
    exact ⟨fun ⟨_, h⟩ => (by cases h), fun ⟨_, _, _, _, _, _, h, _⟩ => (by cases h)⟩
  | ok z =>
    obtain ⟨⟨D', m⟩, w⟩ := z
    dsimp only
    rw [if_neg (not_lt.2 hj.le)]
    by_cases h2 : evals.ndim ≠ 1 ∨ nodes.rows.length ≠ evals.rows.length
    · rw [if_pos h2]
      refine ⟨fun ⟨_, h⟩ => (by cases h), fun ⟨_, h, h', _⟩ => ?_⟩
      rcases h2 with h2 | h2
      · exact absurd h h2
      · exact absurd h' h2
    rw [if_neg h2]
    obtain ⟨h2', h3'⟩ := not_or.1 h2
    have h4 := not_not.1 h2'
    have h3 := not_not.1 h3'
    by_cases hD : D' = D
    · subst hD
      have hmm : (∃ (m' : AnyMeasure D') (w' : Bool), (Except.ok (⟨D', m⟩, w) : Res (SomeMeasure × Bool)) = .ok (⟨D', m'⟩, w') ∧
          Compatible k m') ↔ Compatible k m := by
        constructor
        · rintro ⟨m', w', he, hc⟩
          cases he
          exact hc
        · exact fun hc => ⟨m, w, rfl, hc⟩
      rw [hmm]
      cases hp : problemOf (D := D') k ⟨D', m⟩ with
      | error e =>
        refine ⟨fun ⟨_, h⟩ => (by cases h), fun ⟨_, _, _, _, h⟩ => ?_⟩
        obtain ⟨P, hP⟩ := problem_iff.2 h
        rw [hP] at hp
        cases hp
      | ok P =>
        obtain ⟨e1, e2, _, _⟩ := problemOf_embeds hp hk
        obtain ⟨G, _, hcall⟩ := call_closed ⟨j, o.scale.getD .mle⟩ P (isPSD_iff.1 e2).1 (fits_initial P) nodes.rows evals.rows
        have hcall : Update.call ⟨j, o.scale.getD .mle⟩ P (State.initial P) nodes.rows evals.rows =
            match closed ⟨j, o.scale.getD .mle⟩ P 1 nodes.rows evals.rows with
            | .error e => .error e
            | .ok (scale, belief) => _ := hcall
        dsimp only
        rw [hcall, closed]
        dsimp only
        rw [gramOf_eq e1, if_pos (gramOf_posDef (by rw [← e1]; exact e2) hj _)]
        have hne : nodes.rows.length ≠ 0 := fun h => hn (List.length_eq_zero_iff.1 h)
        have hl : ¬ evals.rows.length ≠ nodes.rows.length := not_not.2 h3.symm
        have hC := problem_iff.1 ⟨P, hp⟩
        cases hsc : o.scale.getD .mle with
        | keep =>
          rw [estimateScale]
          dsimp only
          rw [if_neg hl]
          refine ⟨fun _ => ⟨h1, h4, h3, fun h => ?_, hC⟩, fun _ => ⟨_, rfl⟩⟩
          rw [h] at hsc; cases hsc
        | mle =>
          rw [estimateScale, if_neg hl, if_neg hne]
          dsimp only
          rw [if_neg hl]
          refine ⟨fun _ => ⟨h1, h4, h3, fun h => ?_, hC⟩, fun _ => ⟨_, rfl⟩⟩
          rw [h] at hsc; cases hsc
        | other =>
          rw [estimateScale]
          refine ⟨fun ⟨_, h⟩ => (by cases h), fun ⟨_, _, _, h, _⟩ => absurd ?_ h⟩
          cases hs : o.scale with
          | none => rw [hs] at hsc; cases hsc
          | some t => rw [hs] at hsc; rw [show t = .other from hsc]
    · have : ∀ P : Problem (Fin D → ℝ), problemOf k ⟨D', m⟩ ≠ .ok P := by
        intro P hp
        rw [problemOf] at hp
        split at hp
        · cases hp
        · split at hp
          · cases hp
          · split at hp
            · next h => exact hD h.symm
            · cases hp
      cases hp : problemOf (D := D) k ⟨D', m⟩ with
      | ok P => exact absurd hp (this P)
      | error e =>
        refine ⟨fun ⟨_, h⟩ => (by cases h), fun ⟨_, _, _, _, m', w', h, _⟩ => absurd ?_ hD⟩
        exact congrArg (fun z : Res (SomeMeasure × Bool) => match z with | .ok q => q.1.1 | .error _ => 0) h

/-- **C80.**  The errors that `bayesquad_from_data` raises: never another one than ValueError (arguments),
NotImplementedError (no embedding for kernel and measure) and LinAlgError (the jitter is zero and the kernel matrix is
singular). -/
theorem from_data_errors {D : ℕ} {nodes : Rows (Fin D → ℝ)} {evals : Rows ℝ} {kernel : Option AnyKernel}
    {measure : Option SomeMeasure} {domain : Option (List (Arr ℝ))} {o : Options} {err : PyErr}
    (hk : (kernel.getD (defaultKernel D)).Proper) (hn : nodes.rows ≠ [])
    (h : bayesquadFromData nodes evals kernel measure domain o = .error err) :
    err = .valueError ∨ err = .notImplementedError ∨
      (err = .linAlgError ∧ o.jitter.getD 1e-8 = 0 ∧ ¬(gramOf (kernel.getD (defaultKernel D)) 0 nodes.rows).PosDef) := by
  rw [from_data_eq] at h
  generalize kernel.getD (defaultKernel D) = k at *
  generalize o.jitter.getD 1e-8 = j at *
  split at h
  · cases h; exact .inl rfl
  cases hcc : checkCompat D domain measure with
  | error e =>
    rw [hcc] at h
    cases h
    exact .inl ((measure_choice _ _ _).2 _ hcc)
  | ok z =>
    obtain ⟨⟨D', m⟩, w⟩ := z
    rw [hcc] at h
    dsimp only at h
    split at h
    · cases h; exact .inl rfl
    next hj =>
    split at h
    · cases h; exact .inl rfl
    next h2 =>
    obtain ⟨_, h3⟩ := not_or.1 h2
    have h3 := not_not.1 h3
    cases hp : problemOf (D := D) k ⟨D', m⟩ with
    | error e =>
      rw [hp] at h
      cases h
      have hvv : ∀ (ms : Fin D' → Matern1) (a b : Fin D' → ℝ) (c : ℝ) e,
          kernelVarianceProduct ms a b c = .error e → e = .notImplementedError := by
        intro ms a b c e he
        have loop : ∀ (is : List (Fin D')) (acc : ℝ) e, prodLoop (fun i => kernelVariance1 (ms i) (a i) (b i)) is acc = .error e →
            e = .notImplementedError := by
          intro is
          induction is with
          | nil => intro acc e h; cases h
          | cons i is ih =>
            intro acc e h
            rw [prodLoop] at h
            rcases variance1_total (ms i) (a i) (b i) with ⟨v, hv⟩ | hv
            · rw [hv] at h; exact ih _ _ h
            · rw [hv] at h; cases h; rfl
        rw [kernelVarianceProduct] at he
        split at he
        · next h => cases he; exact loop _ _ _ h
        · cases he
      rw [problemOf] at hp
      split at hp
      · next he =>
        cases hp
        rw [kernelEmbedding] at he
        split at he
        · cases he; exact .inl rfl
        · dsimp only at he
          cases k with
          | other s => cases m <;> cases he <;> exact .inr (.inl rfl)
          | expQuad s ls => cases m <;> cases he <;> exact .inr (.inl rfl)
          | matern dim km =>
            cases m with
            | lebesgue a b c => rw [getEmbedding] at he; split at he <;> cases he; exact .inl rfl
            | _ => cases he; exact .inr (.inl rfl)
      · next emb he =>
        split at hp
        · next hv =>
          cases hp
          rw [kernelEmbedding] at he
          split at he
          · cases he
          · dsimp only at he
            cases k with
            | other s => cases m <;> cases he
            | expQuad s ls =>
              cases m with
              | other => cases he
              | _ => cases he; cases ls <;> cases hv; exact .inl rfl
            | matern dim km =>
              cases m with
              | lebesgue a b c =>
                rw [getEmbedding] at he
                split at he
                · next hd =>
                  subst hd
                  cases he
                  dsimp only at hv
                  rw [kernelVariance, dif_pos rfl] at hv
                  cases km with
                  | product ms =>
                    rw [convertToProduct] at hv
                    exact .inr (.inl (hvv _ _ _ _ _ hv))
                  | matern ls nu =>
                    rw [convertToProduct.eq_def] at hv
                    dsimp only at hv
                    by_cases h1 : dim > 1
                    · rw [if_pos h1] at hv; cases hv; exact .inr (.inl rfl)
                    · rw [if_neg h1] at hv
                      cases ls with
                      | inr _ => cases hv; exact .inl rfl
                      | inl l => exact .inr (.inl (hvv _ _ _ _ _ hv))
                · cases he
              | _ => cases he
        · split at hp <;> cases hp
          exact .inl rfl
    | ok P =>
      have hD : D = D' := by
        rw [problemOf] at hp
        split at hp
        · cases hp
        · split at hp
          · cases hp
          · split at hp
            · next h => exact h
            · cases hp
      subst hD
      obtain ⟨e1, e2, _, _⟩ := problemOf_embeds hp hk
      obtain ⟨G, _, hcall⟩ := call_closed ⟨j, o.scale.getD .mle⟩ P (isPSD_iff.1 e2).1 (fits_initial P) nodes.rows evals.rows
      have hcall : Update.call ⟨j, o.scale.getD .mle⟩ P (State.initial P) nodes.rows evals.rows =
          match closed ⟨j, o.scale.getD .mle⟩ P 1 nodes.rows evals.rows with
          | .error e => .error e
          | .ok (scale, belief) => _ := hcall
      rw [hp] at h
      dsimp only at h
      rw [hcall, closed] at h
      dsimp only at h
      rw [gramOf_eq e1] at h
      have hne : nodes.rows.length ≠ 0 := fun h => hn (List.length_eq_zero_iff.1 h)
      have hl : ¬ evals.rows.length ≠ nodes.rows.length := not_not.2 h3.symm
      by_cases hpd : (gramOf k j nodes.rows).PosDef
      · rw [if_pos hpd] at h
        cases hsc : o.scale.getD .mle with
        | keep =>
          rw [hsc, estimateScale] at h
          dsimp only at h
          rw [if_neg hl] at h
          cases h
        | mle =>
          rw [hsc, estimateScale, if_neg hl, if_neg hne] at h
          dsimp only at h
          rw [if_neg hl] at h
          cases h
        | other =>
          rw [hsc, estimateScale] at h
          cases h
          exact .inl rfl
      · rw [if_neg hpd] at h
        cases h
        have hj0 : j = 0 := by
          by_contra hne'
          exact hpd (gramOf_posDef (by rw [← e1]; exact e2) (lt_of_le_of_ne (not_lt.1 hj) (Ne.symm hne')) _)
        exact .inr (.inr ⟨rfl, hj0, by rw [← hj0]; exact hpd⟩)

end Probnum.Quad
