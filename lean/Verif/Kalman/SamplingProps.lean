import Mathlib.Analysis.Matrix.Order
import Verif.Kalman.SmoothExact
import Verif.Kalman.SamplingModel

/-!
# C16 and C17: joint samples
-/

namespace Probnum.Kalman

open MeasureTheory ProbabilityTheory Matrix Probnum.Gauss Probnum.LinGauss Probnum.Posterior

variable {n m : ℕ}

/-! ## C16: forward sampling -/

/-- Specification: a Gauss-Markov chain with `X 0 ~ N(init)`, `X (k+1) = A_k X_k + W_k`, noises independent of the
past. -/
structure MarkovChain {Ω : Type*} {mΩ : MeasurableSpace Ω} (P : Measure Ω) (N : ℕ) (init : Updated n)
    (A : ℕ → Transition n n) (X : ℕ → Ω → Fin n → ℝ) : Prop where
  init : IsNormal P (X 0) init.mean init.cov
  dyn : ∀ k, k < N → ∃ W, (∀ ω, X (k + 1) ω = (A k).mat *ᵥ X k ω + W ω) ∧
    IsNormal P W (A k).noise.mean (A k).noise.cov ∧ IndepFun W (upTo X (k + 1)) P

/-- What the forward transformation computes. -/
def fsamp (ch : CovCholesky n) (init : Updated n) (A : ℕ → Transition n n) (b : ℕ → Fin n → ℝ) : ℕ → Fin n → ℝ
  | 0 => init.mean + ch.factor init.cov *ᵥ b 0
  | k + 1 => (A k).mat *ᵥ fsamp ch init A b k + (A k).noise.mean + ch.factor (A k).noise.cov *ᵥ b k

theorem sampleForwFrom_eq (t0 : ℝ) (init : Updated n) (disc : ℝ → Transition n n) (ch : CovCholesky n)
    (b : ℕ → Fin n → ℝ) (t : ℕ → ℝ) (rv : Updated n) (j N : ℕ) :
    sampleForwFrom (classicPrior t0 init disc) ch
      (fsamp ch rv (fun k => disc (t (k + 1) - t k)) b j) (t j) ((List.range' j N).map fun i => (t (i + 1), b i))
      = .ok ((List.range' j N).map fun i => fsamp ch rv (fun k => disc (t (k + 1) - t k)) b (i + 1)) := by
  induction N generalizing j with
  | zero => rfl
  | succ N ih =>
    have hstep : transformBase ch ⟨(forwardClassic (disc (t (j + 1) - t j)) 1
        (toNormal ⟨fsamp ch rv (fun k => disc (t (k + 1) - t k)) b j, 0⟩)).mean,
        (forwardClassic (disc (t (j + 1) - t j)) 1
        (toNormal ⟨fsamp ch rv (fun k => disc (t (k + 1) - t k)) b j, 0⟩)).cov⟩ (b j)
        = fsamp ch rv (fun k => disc (t (k + 1) - t k)) b (j + 1) := by
      have hc : (forwardClassic (disc (t (j + 1) - t j)) 1
          (toNormal ⟨fsamp ch rv (fun k => disc (t (k + 1) - t k)) b j, 0⟩)).cov
          = (disc (t (j + 1) - t j)).noise.cov := by
        rw [show (forwardClassic (disc (t (j + 1) - t j)) 1
          (toNormal ⟨fsamp ch rv (fun k => disc (t (k + 1) - t k)) b j, 0⟩)).cov = _ from predCov_eq _ _ _]
        simp [toNormal]
      simp only [transformBase, hc]
      rfl
    rw [List.range'_succ, List.map_cons, List.map_cons, sampleForwFrom]
    simp only [classicPrior, bind, Except.bind]
    rw [hstep]
    have := ih (j + 1)
    simp only [classicPrior] at this
    rw [this]

/-- **C16, exact behaviour.**  The samples are `x_0 = m + L b_0` and `x_(k+1) = A_k x_k + c_k + L_k b_k`: the first two
samples share the base vector `b_0`. -/
theorem forward_samples_exact (t0 : ℝ) (init : Updated n) (disc : ℝ → Transition n n) (ch : CovCholesky n) (N : ℕ)
    (b : ℕ → Fin n → ℝ) (t : ℕ → ℝ) :
    sampleForward (classicPrior t0 init disc) ch N b t init
      = .ok ((List.range (N + 1)).map (fsamp ch init (fun k => disc (t (k + 1) - t k)) b)) := by
  have h := sampleForwFrom_eq t0 init disc ch b t init 0 N
  rw [← List.range_eq_range'] at h
  simp only [sampleForward, bind, Except.bind]
  rw [show transformBase ch init (b 0) = fsamp ch init (fun k => disc (t (k + 1) - t k)) b 0 from rfl, h]
  simp only
  rw [List.range_succ_eq_map, List.map_cons, List.map_map]
  rfl

/-- The base sample of `N + 1` standard normal vectors. -/
abbrev FBase (n N : ℕ) := Fin (N + 1) × Fin n

def fbase (N : ℕ) (x : FBase n N → ℝ) (k : ℕ) : Fin n → ℝ := fun i => x (Fin.ofNat (N + 1) k, i)

theorem fbase_val {N k : ℕ} (hk : k ≤ N) : (Fin.ofNat (N + 1) k).1 = k := by
  simp [Fin.ofNat, Nat.mod_eq_of_lt (by omega : k < N + 1)]

theorem measurable_fbase (N k : ℕ) : Measurable fun x : FBase n N → ℝ => fbase N x k :=
  measurable_pi_iff.2 fun _ => measurable_pi_apply _

theorem fbase_normal (N k : ℕ) (ch : CovCholesky n) (c : Fin n → ℝ) (C : Matrix (Fin n) (Fin n) ℝ) (hC : C.PosSemidef) :
    IsNormal (stdBase (FBase n N)) (fun x => c + ch.factor C *ᵥ fbase N x k) c C := by
  have := base_normal (fun i : Fin n => (Fin.ofNat (N + 1) k, i)) (fun a b h => by simpa using h) (ch.factor C) c
  rw [ch.gram C hC] at this
  simp only [add_comm c]
  exact this

theorem measurable_fsamp (N : ℕ) (ch : CovCholesky n) (init : Updated n) (A : ℕ → Transition n n) (k : ℕ) :
    Measurable fun x : FBase n N → ℝ => fsamp ch init A (fbase N x) k := by
  induction k with
  | zero => exact measurable_const.add ((measurable_mulVec _).comp (measurable_fbase N 0))
  | succ k ih =>
    exact (((measurable_mulVec _).comp ih).add measurable_const).add
      ((measurable_mulVec _).comp (measurable_fbase N k))

theorem reads_fsamp (N : ℕ) (ch : CovCholesky n) (init : Updated n) (A : ℕ → Transition n n)
    (h0 : ch.factor init.cov = 0) (k : ℕ) (hk : k ≤ N) :
    Reads (fun x : FBase n N → ℝ => fsamp ch init A (fbase N x) k) (Finset.univ.filter fun p => p.1.1 < k) := by
  induction k with
  | zero => intro x y _; simp [fsamp, h0]
  | succ k ih =>
    intro x y h
    have h1 : fsamp ch init A (fbase N x) k = fsamp ch init A (fbase N y) k :=
      ih (by omega) x y fun p hp => h p (by
        simp only [Finset.mem_filter, Finset.mem_univ, true_and] at hp ⊢; omega)
    have h2 : fbase N x k = fbase N y k := by
      funext i
      refine h _ ?_
      simp only [Finset.mem_filter, Finset.mem_univ, true_and, fbase_val (by omega : k ≤ N)]
      omega
    simp only [fsamp, h1, h2]

/-- **C16 (partial).**  If the initial random variable has covariance zero (with the exact factor 0), the samples at
`t 0, …, t N` are jointly distributed as the process: they form a Gauss-Markov chain with the transitions
`discretise(t (k+1) - t k)`.  Missing: initial random variables with nonzero covariance, for which the statement is
false (`forward_samples_wrong`). -/
theorem forward_samples_distribution_partial (init : Updated n) (disc : ℝ → Transition n n) (ch : CovCholesky n)
    (N : ℕ) (t : ℕ → ℝ) (hinit : init.cov = 0) (h0 : ch.factor 0 = 0)
    (hQ : ∀ k, k < N → (disc (t (k + 1) - t k)).noise.cov.PosSemidef) :
    ∃ X : ℕ → (FBase n N → ℝ) → Fin n → ℝ,
      MarkovChain (stdBase (FBase n N)) N init (fun k => disc (t (k + 1) - t k)) X ∧
      ∀ t0 x, sampleForward (classicPrior t0 init disc) ch N (fbase N x) t init
        = .ok ((List.range (N + 1)).map fun k => X k x) := by
  have hf0 : ch.factor init.cov = 0 := by rw [hinit, h0]
  refine ⟨fun k x => fsamp ch init (fun k => disc (t (k + 1) - t k)) (fbase N x) k, ⟨?_, ?_⟩, fun t0 x => ?_⟩
  · have := fbase_normal N 0 ch init.mean init.cov (by rw [hinit]; exact Matrix.PosSemidef.zero)
    exact this
  · intro k hk
    refine ⟨fun x => (disc (t (k + 1) - t k)).noise.mean + ch.factor (disc (t (k + 1) - t k)).noise.cov *ᵥ fbase N x k,
      fun x => by simp only [fsamp, add_assoc], fbase_normal N k ch _ _ (hQ k hk), ?_⟩
    refine base_indep (S := Finset.univ.filter fun p : FBase n N => p.1.1 = k)
      (T := Finset.univ.filter fun p : FBase n N => p.1.1 < k) ?_ ?_ ?_ ?_ ?_
    · rw [Finset.disjoint_filter]; intro p _ h1; omega
    · exact measurable_const.add ((measurable_mulVec _).comp (measurable_fbase N k))
    · exact measurable_pi_iff.2 fun i => measurable_fsamp N ch init _ i
    · intro x y h
      have : fbase N x k = fbase N y k := by
        funext i
        exact h _ (by simp only [Finset.mem_filter, Finset.mem_univ, true_and, fbase_val (by omega : k ≤ N)])
      simp only [this]
    · refine Reads.pi fun i => (reads_fsamp N ch init _ hf0 i (by omega)).mono ?_
      intro p
      simp only [Finset.mem_filter, Finset.mem_univ, true_and]
      omega
  · rw [forward_samples_exact]

/-- **C16 (partial).**  Sampling at a single location returns a sample of the initial random variable, whatever the
location. -/
theorem forward_single_sample_distribution_partial (init : Updated n) (disc : ℝ → Transition n n) (ch : CovCholesky n)
    (t : ℕ → ℝ) (hC : init.cov.PosSemidef) :
    ∃ X : (FBase n 0 → ℝ) → Fin n → ℝ, IsNormal (stdBase (FBase n 0)) X init.mean init.cov ∧
      ∀ t0 x, sampleForward (classicPrior t0 init disc) ch 0 (fbase 0 x) t init = .ok [X x] := by
  refine ⟨fun x => init.mean + ch.factor init.cov *ᵥ fbase 0 x 0, fbase_normal 0 0 ch _ _ hC, fun t0 x => ?_⟩
  rw [forward_samples_exact]
  rfl

/-- One-dimensional chain with unit transition and unit noise. -/
def unitStep : Transition 1 1 := ⟨1, ⟨0, 1, 1⟩⟩

/-- **C16: violated.**  For `X(t_0) ~ N(0, 1)` and a random walk with unit increments the second sample has a
distribution other than `N(0, 2)`, the distribution of the process there, for every square root used. -/
theorem forward_samples_wrong (ch : CovCholesky 1) :
    (∀ {Ω : Type} {mΩ : MeasurableSpace Ω} {P : Measure Ω} (X : ℕ → Ω → Fin 1 → ℝ),
      MarkovChain P 1 ⟨0, 1⟩ (fun _ => unitStep) X → IsNormal P (X 1) 0 ((2 : ℝ) • 1)) ∧
    ∃ X1 : (FBase 1 1 → ℝ) → Fin 1 → ℝ,
      (∀ t0 x, ∃ x0, sampleForward (classicPrior t0 ⟨0, 1⟩ fun _ => unitStep) ch 1 (fbase 1 x) (fun k => k) ⟨0, 1⟩
        = .ok [x0, X1 x]) ∧
      ¬ IsNormal (stdBase (FBase 1 1)) X1 0 ((2 : ℝ) • 1) := by
  constructor
  · intro Ω mΩ P X h
    obtain ⟨W, w1, w2, w3⟩ := h.dyn 0 (by norm_num)
    have hi : IndepFun (X 0) W P :=
      (w3.comp (φ := id) (ψ := fun p : Fin 1 → Fin 1 → ℝ => p 0) measurable_id (measurable_pi_apply _)).symm
    have := h.init.comb w2 hi (1 : Matrix (Fin 1) (Fin 1) ℝ) (1 : Matrix (Fin 1) (Fin 1) ℝ) 0
    have e : (fun ω => (1 : Matrix (Fin 1) (Fin 1) ℝ) *ᵥ X 0 ω + (1 : Matrix (Fin 1) (Fin 1) ℝ) *ᵥ W ω + 0) = X 1 := by
      funext ω; rw [w1]; simp [unitStep]
    rw [e] at this
    have e2 : (1 : Matrix (Fin 1) (Fin 1) ℝ) * (⟨0, 1⟩ : Updated 1).cov * (1 : Matrix (Fin 1) (Fin 1) ℝ)ᵀ
        + 1 * unitStep.noise.cov * (1 : Matrix (Fin 1) (Fin 1) ℝ)ᵀ = (2 : ℝ) • 1 := by
      simp [unitStep]
      rw [← one_add_one_eq_two, add_smul, one_smul]
    rw [e2] at this
    simpa [unitStep] using this
  · have hg := ch.gram 1 Matrix.PosSemidef.one
    have hl : ch.factor 1 0 0 * ch.factor 1 0 0 = 1 := by
      have := congrFun (congrFun hg 0) 0
      simpa [Matrix.mul_apply] using this
    have hn : IsNormal (stdBase (FBase 1 1)) (fun x => fsamp ch ⟨0, 1⟩ (fun _ => unitStep) (fbase 1 x) 1) 0
        ((4 : ℝ) • 1) := by
      have := base_normal (ι := FBase 1 1) (fun i : Fin 1 => (Fin.ofNat 2 0, i)) (fun a b h => by simpa using h)
        ((2 : ℝ) • ch.factor 1) 0
      have e : ((2 : ℝ) • ch.factor 1) * ((2 : ℝ) • ch.factor 1)ᵀ = (4 : ℝ) • 1 := by
        rw [Matrix.transpose_smul, Matrix.smul_mul, Matrix.mul_smul, smul_smul, hg]
        norm_num
      rw [e] at this
      convert this using 2 with x
      simp only [fsamp, unitStep, Matrix.one_mulVec, zero_add, add_zero, Matrix.smul_mulVec]
      rw [two_smul]
      rfl
    refine ⟨fun x => fsamp ch ⟨0, 1⟩ (fun _ => unitStep) (fbase 1 x) 1, fun t0 x => ?_, fun h => ?_⟩
    · refine ⟨fsamp ch ⟨0, 1⟩ (fun _ => unitStep) (fbase 1 x) 0, ?_⟩
      rw [forward_samples_exact]
      rfl
    · have h1 := h.cov 0 0
      have h2 := hn.cov 0 0
      rw [h1] at h2
      simp at h2

open scoped MatrixOrder in
/-- `CovCholesky` objects exist, and zero covariance can have factor zero: the hypotheses above are met. -/
theorem exists_covCholesky (n : ℕ) : ∃ ch : CovCholesky n, ch.factor 0 = 0 := by
  classical
  have key : ∀ C : Matrix (Fin n) (Fin n) ℝ, C.PosSemidef → ∃ L : Matrix (Fin n) (Fin n) ℝ, L * Lᵀ = C := by
    intro C hC
    refine ⟨CFC.sqrt C, ?_⟩
    rw [symm_of_psd (CFC.sqrt_nonneg C).posSemidef]
    exact CFC.sqrt_mul_sqrt_self C hC.nonneg
  refine ⟨⟨fun C => if C = 0 then 0 else if h : C.PosSemidef then (key C h).choose else 0, fun C hC => ?_⟩, by simp⟩
  by_cases h0 : C = 0
  · simp [h0]
  · simp only [h0, if_false, hC, dite_true]
    exact (key C hC).choose_spec

/-- A concrete instance: Brownian-type transitions started in a known state. -/
example : ∃ (ch : CovCholesky 2) (disc : ℝ → Transition 2 2), ch.factor 0 = 0 ∧
    (∀ dt, (disc dt).noise.cov.PosSemidef) ∧ (disc 1).noise.cov ≠ 0 := by
  obtain ⟨ch, h⟩ := exists_covCholesky 2
  refine ⟨ch, fun dt => ⟨1, ⟨0, |dt| • 1, 0⟩⟩, h, fun dt => Matrix.PosSemidef.one.smul (abs_nonneg dt), ?_⟩
  simp

/-! ## C17: backward sampling -/

/-- What the backward transformation computes for the filtered states: sample of state `N - j`. -/
noncomputable def bsamp (ch : CovCholesky n) (init : Updated n) (A : ℕ → Transition n n) (H : ℕ → Transition n m) (N : ℕ)
    (y : ℕ → Fin m → ℝ) (b : ℕ → Fin n → ℝ) : ℕ → Fin n → ℝ
  | 0 => transformBase ch (sseq init A H N fun i => y i) (b (N - 1))
  | j + 1 => transformBase ch
      (rts (A (N - (j + 1))) ⟨bsamp ch init A H N y b j, 0⟩ (sseq init A H (N - (j + 1)) fun i => y i))
      (b (N - (j + 1) - 1))

theorem sampleBackFrom_eq (t0 : ℝ) (init : Updated n) (disc : ℝ → Transition n n) (ch : CovCholesky n)
    (M : ℕ) (loc : ℕ → ℝ) (H : ℕ → Transition n m) (y : ℕ → Fin m → ℝ) (b : ℕ → Fin n → ℝ)
    (hpw : ∀ k, k < M → loc k < loc (k + 1))
    (hreg : ∀ k, 0 < k → k < M + 1 → SRegular init (transitions t0 loc disc) H k) (i : ℕ) (hi : i ≤ M) :
    sampleBackFrom (classicPrior t0 init disc) ch (bsamp ch init (transitions t0 loc disc) H (M + 1) y b (M - i)) (loc i)
        ((List.range i).reverse.map fun k =>
          (sseq init (transitions t0 loc disc) H (k + 1) (fun i => y i), loc k, 1, b k))
      = .ok ((List.range i).reverse.map fun k => bsamp ch init (transitions t0 loc disc) H (M + 1) y b (M - k)) := by
  induction i with
  | zero => rfl
  | succ i ih =>
    set A := transitions t0 loc disc with hA
    rw [List.range_succ, List.reverse_append, List.reverse_singleton, List.singleton_append, List.map_cons,
      List.map_cons, sampleBackFrom]
    have hg := gap_pos_transition t0 loc disc i (hpw i (by omega))
    have hb : (classicPrior t0 init disc).backward ⟨bsamp ch init A H (M + 1) y b (M - (i + 1)), 0⟩
        (sseq init A H (i + 1) fun i => y i) (loc i) (loc (i + 1) - loc i) 1 none
        = .ok (rts (A (i + 1)) ⟨bsamp ch init A H (M + 1) y b (M - (i + 1)), 0⟩
            (sseq init A H (i + 1) fun i => y i)) := by
      have h1 := (backward_iff (A (i + 1)) ⟨bsamp ch init A H (M + 1) y b (M - (i + 1)), 0⟩
        (sseq init A H (i + 1) fun i => y i) _).2
          ⟨(sregular_iff init A H (i + 1) _).2 (hreg (i + 1) (by omega) (by omega)), rfl⟩
      rw [← h1, hA, hg]
      rfl
    have hs : transformBase ch (rts (A (i + 1)) ⟨bsamp ch init A H (M + 1) y b (M - (i + 1)), 0⟩
        (sseq init A H (i + 1) fun i => y i)) (b i) = bsamp ch init A H (M + 1) y b (M - i) := by
      rw [show M - i = (M - (i + 1)) + 1 by omega, bsamp, show M + 1 - (M - (i + 1) + 1) = i + 1 by omega]
      rfl
    simp only [bind, Except.bind]
    rw [hb]
    simp only [hs]
    rw [ih (by omega)]

/-- **C17, exact behaviour** on the filtered states of a linear Gaussian model. -/
theorem backward_samples_exact (t0 : ℝ) (init : Updated n) (disc : ℝ → Transition n n) (ch : CovCholesky n)
    (M : ℕ) (loc : ℕ → ℝ) (H : ℕ → Transition n m) (y : ℕ → Fin m → ℝ) (b : ℕ → Fin n → ℝ)
    (hpw : ∀ k, k < M → loc k < loc (k + 1))
    (hreg : ∀ k, 0 < k → k < M + 1 → SRegular init (transitions t0 loc disc) H k) :
    sampleBackward (classicPrior t0 init disc) ch M b loc
        (fun k => sseq init (transitions t0 loc disc) H (k + 1) fun i => y i) (fun _ => 1)
      = .ok ((List.range (M + 1)).map fun k => bsamp ch init (transitions t0 loc disc) H (M + 1) y b (M - k)) := by
  have h := sampleBackFrom_eq t0 init disc ch M loc H y b hpw hreg M le_rfl
  simp only [Nat.sub_self] at h
  unfold sampleBackward
  rw [show transformBase ch (sseq init (transitions t0 loc disc) H (M + 1) fun i => y i) (b M)
    = bsamp ch init (transitions t0 loc disc) H (M + 1) y b 0 from rfl]
  simp only [bind, Except.bind, h]
  congr 1
  rw [List.range_succ, List.map_append, ← List.map_reverse, List.reverse_reverse]
  simp

section Law

variable {Ω Ω' : Type*} {mΩ : MeasurableSpace Ω} {mΩ' : MeasurableSpace Ω'} {P : Measure Ω} {P' : Measure Ω'}

theorem law_pair {α β : Type*} [MeasurableSpace α] [MeasurableSpace β] [IsProbabilityMeasure P] [IsProbabilityMeasure P']
    {Z : Ω → α} {Z' : Ω' → α} {U : Ω → β} {U' : Ω' → β} (aZ : AEMeasurable Z P) (aZ' : AEMeasurable Z' P')
    (aU : AEMeasurable U P) (aU' : AEMeasurable U' P') (hZ : P.map Z = P'.map Z') (hU : P.map U = P'.map U')
    (hi : IndepFun U Z P) (hi' : IndepFun U' Z' P') :
    P.map (fun ω => (U ω, Z ω)) = P'.map (fun ω => (U' ω, Z' ω)) := by
  rw [(indepFun_iff_map_prod_eq_prod_map_map aU aZ).1 hi, (indepFun_iff_map_prod_eq_prod_map_map aU' aZ').1 hi', hZ, hU]

theorem law_comp {α β : Type*} [MeasurableSpace α] [MeasurableSpace β] {Z : Ω → α} {Z' : Ω' → α}
    (aZ : AEMeasurable Z P) (aZ' : AEMeasurable Z' P') (h : P.map Z = P'.map Z') {F : α → β} (hF : Measurable F) :
    P.map (fun ω => F (Z ω)) = P'.map (fun ω => F (Z' ω)) := by
  have e1 : (fun ω => F (Z ω)) = F ∘ Z := rfl
  have e2 : (fun ω => F (Z' ω)) = F ∘ Z' := rfl
  rw [e1, e2, ← AEMeasurable.map_map_of_aemeasurable hF.aemeasurable aZ,
    ← AEMeasurable.map_map_of_aemeasurable hF.aemeasurable aZ', h]

end Law

/-! ### The distribution of the samples -/

theorem mask_le {V : Type*} [Zero V] {N k : ℕ} (x : Fin N → V) (i : Fin N) (h : k ≤ i.1) : mask k x i = x i := by
  simp [mask, h]

/-- The samples of states `N - j, …, N` do not depend on earlier base vectors. -/
theorem bsamp_mask (ch : CovCholesky n) (init : Updated n) (A : ℕ → Transition n n) (H : ℕ → Transition n m) (N : ℕ)
    (y : ℕ → Fin m → ℝ) (b : Fin N → Fin n → ℝ) (k : ℕ) : ∀ j, j < N → k ≤ N - j - 1 →
    bsamp ch init A H N y (extend (mask k b)) j = bsamp ch init A H N y (extend b) j := by
  have e : ∀ i, k ≤ i → i < N → extend (mask k b) i = extend b i := by
    intro i h1 h2
    simp [extend, h2, mask, h1]
  intro j
  induction j with
  | zero =>
    intro hj hk
    simp only [bsamp]
    rw [e _ (by omega) (by omega)]
  | succ j ih =>
    intro hj hk
    simp only [bsamp]
    rw [ih (by omega) (by omega), e _ (by omega) (by omega)]

/-- **C17.**  Let `X 0, …, X (M+1)` and `Y 0, …, Y M` be a linear Gaussian state-space model, and suppose the smoother
does not raise.  Take data `Y'` with the distribution of the observations and, independently, standard normal base
vectors `b 0, …, b M`.  Then the data together with the joint samples that the backward transformation computes from
the filtered states for that data have the same joint distribution as the observations together with the states:
conditionally on the data, the samples are jointly distributed as the smoothing posterior of the whole trajectory. -/
theorem backward_samples_distribution {Ω Ω' : Type*} {mΩ : MeasurableSpace Ω} {mΩ' : MeasurableSpace Ω'} {P : Measure Ω}
    {P' : Measure Ω'} [IsProbabilityMeasure P'] (t0 : ℝ) (init : Updated n) (disc : ℝ → Transition n n) (M : ℕ)
    (loc : ℕ → ℝ) (H : ℕ → Transition n m) (X : ℕ → Ω → Fin n → ℝ) (Y : ℕ → Ω → Fin m → ℝ) (ch : CovCholesky n)
    (hss : StateSpace P (M + 1) init (fun k => gapTransition disc (stateTime t0 loc (k + 1) - stateTime t0 loc k)) H X Y)
    (hok : ∃ y0 post, filtsmooth (classicPrior t0 init disc) (gaussProblem (M + 1) loc H y0) none = .ok post)
    (Y' : Ω' → Fin (M + 1) → Fin m → ℝ) (b : Fin (M + 1) → Ω' → Fin n → ℝ) (hY' : AEMeasurable Y' P')
    (hlaw : P'.map Y' = P.map fun ω (i : Fin (M + 1)) => Y i ω) (hb : ∀ k, IsNormal P' (b k) 0 1)
    (hbi : ∀ k, IndepFun (b k) (fun ω => (Y' ω, fun i => if k < i then b i ω else 0)) P') :
    ∃ S : (k : ℕ) → Ω' → Fin n → ℝ,
      (∀ ω, ∃ filtered, filter (classicPrior t0 init disc) (gaussProblem (M + 1) loc H (extend (Y' ω))) none
          = .ok ⟨(List.range (M + 1)).map loc, (List.range (M + 1)).map filtered, false⟩ ∧
        sampleBackward (classicPrior t0 init disc) ch M (extend fun i => b i ω) loc filtered (fun _ => 1)
          = .ok ((List.range (M + 1)).map fun k => S k ω)) ∧
      P'.map (fun ω => (Y' ω, fun k : Fin (M + 1) => S k ω))
        = P.map (fun ω => ((fun i : Fin (M + 1) => Y i ω), fun k : Fin (M + 1) => X (k + 1) ω)) := by
  have hP := hss.init.isProbabilityMeasure
  obtain ⟨hpw, hreg, hsreg⟩ : ((List.range (M + 1)).map loc).Pairwise (· < ·) ∧
      (∀ k, k < M + 1 → Regular init (transitions t0 loc disc) H k) ∧
      ∀ k, 0 < k → k < M + 1 → SRegular init (transitions t0 loc disc) H k := by
    obtain ⟨y0, post, h0⟩ := hok
    unfold filtsmooth at h0
    cases hf0 : filter (classicPrior t0 init disc) (gaussProblem (M + 1) loc H y0) none with
    | error e => rw [hf0] at h0; simp [bind, Except.bind] at h0
    | ok pf =>
      rw [hf0] at h0
      simp only [bind, Except.bind] at h0
      rw [filter_one_state_per_observation _ _ _ (by simp [gaussProblem]) (by simp [gaussProblem])] at hf0
      obtain ⟨hpw, hloc, hfro, hf⟩ := hf0
      obtain ⟨hreg, hst⟩ := (isFiltered_iff t0 init disc (M + 1) loc H y0 pf.states).1 hf
      rw [smooth_exact _ _ (by rw [hst]; intro h; have := congrArg List.length h; simp at this)
        (by rw [hloc, hst]; simp [gaussProblem])] at h0
      obtain ⟨-, -, hsm⟩ := h0
      rw [hst, hloc] at hsm
      have e1 : (gaussProblem (M + 1) loc H y0).locations = (List.range (M + 1)).map loc := rfl
      rw [e1] at hsm hpw
      rw [show ((List.range (M + 1)).map loc).length - 1 = M + 1 - 1 by simp] at hsm
      exact ⟨hpw, hreg, ((isSmoothed_iff t0 init disc (M + 1) loc H y0 hpw (by omega) _).1 hsm).1⟩
  set A := transitions t0 loc disc with hA
  have hss' : StateSpace P (M + 1) init A H X Y := hss
  set B : Ω' → Fin (M + 1) → Fin n → ℝ := fun ω i => b i ω with hB
  have aB : AEMeasurable B P' := aemeasurable_pi_iff.2 fun i => (hb i).gaussian.aemeasurable
  set T : ℕ → Ω' → Fin n → ℝ := fun j ω => bsamp ch init A H (M + 1) (extend (Y' ω)) (extend (B ω)) j with hT
  -- the samples as functions of data and base
  set F : ℕ → (Fin (M + 1) → Fin m → ℝ) × (Fin (M + 1) → Fin n → ℝ) → Fin n → ℝ :=
    fun j p => bsamp ch init A H (M + 1) (extend p.1) (extend p.2) j with hF
  have sym : ∀ k, k ≤ M + 1 → (sseq init A H k fun _ => 0).covᵀ = (sseq init A H k fun _ => 0).cov := fun k hk =>
    symm_of_psd (sseq_conditional hss' hreg k hk).residual.posSemidef
  have scovpsd : ∀ k, 0 < k → k < M + 1 → (scov init A H k).PosSemidef := fun k h0 h1 =>
    (smooth_step hss' hreg k h1 (hsreg k h0 h1)).2.1.posSemidef
  have Fsucc : ∀ j, j + 1 < M + 1 → ∀ p, F (j + 1) p = smean init A H (M + 1 - (j + 1)) p.1 (F j p)
      + ch.factor (scov init A H (M + 1 - (j + 1))) *ᵥ extend p.2 (M + 1 - (j + 1) - 1) := by
    intro j hj p
    simp only [hF, bsamp, transformBase]
    rw [rts_mean, rts_cov init A H _ _ _ (sym _ (by omega)) (hss'.symmA _ (by omega)) (hsreg _ (by omega) (by omega))]
    simp
  have Fzero : ∀ p, F 0 p = (sseq init A H (M + 1) fun i => extend p.1 i).mean
      + ch.factor (sseq init A H (M + 1) fun _ => 0).cov *ᵥ extend p.2 M := by
    intro p
    simp only [hF, bsamp, transformBase]
    rw [sseq_cov init A H (M + 1) (fun i => extend p.1 i) fun _ => 0]
    rfl
  have mext : ∀ i : ℕ, Measurable fun p : (Fin (M + 1) → Fin m → ℝ) × (Fin (M + 1) → Fin n → ℝ) => extend p.2 i := by
    intro i
    by_cases h : i < M + 1
    · simp only [extend, h, dite_true]
      exact (measurable_pi_apply _).comp measurable_snd
    · simp only [extend, h, dite_false]
      exact measurable_const
  have er : (fun y : Fin (M + 1) → Fin m → ℝ => (sseq init A H (M + 1) fun i => extend y i).mean)
      = fun y => (sseq init A H (M + 1) y).mean := by
    funext y
    rw [extend_restrict le_rfl]
    rfl
  have mmean0 : Measurable fun y : Fin (M + 1) → Fin m → ℝ => (sseq init A H (M + 1) fun i => extend y i).mean := by
    rw [er]
    exact (sseq_conditional hss' hreg (M + 1) le_rfl).measurable
  have msmean : ∀ k, 0 < k → k < M + 1 → Measurable fun p : (Fin (M + 1) → Fin m → ℝ) × (Fin n → ℝ) =>
      smean init A H k p.1 p.2 := by
    intro k h0 h1
    have hm : Measurable fun p : (Fin (M + 1) → Fin m → ℝ) × (Fin n → ℝ) =>
        (sseq init A H k fun i => extend p.1 i).mean :=
      (smooth_step hss' hreg k h1 (hsreg k h0 h1)).1.comp measurable_fst
    unfold smean
    exact (hm.sub ((measurable_mulVec _).comp (((measurable_mulVec _).comp hm).add measurable_const))).add
      ((measurable_mulVec _).comp measurable_snd)
  have mF : ∀ j, j < M + 1 → Measurable (F j) := by
    intro j
    induction j with
    | zero =>
      intro _
      rw [show F 0 = _ from funext Fzero]
      exact (mmean0.comp measurable_fst).add ((measurable_mulVec _).comp (mext _))
    | succ j ih =>
      intro hj
      rw [show F (j + 1) = _ from funext (Fsucc j hj)]
      exact ((msmean _ (by omega) (by omega)).comp (measurable_fst.prodMk (ih (by omega)))).add
        ((measurable_mulVec _).comp (mext _))
  have aY := hss'.aeYs (M + 1) le_rfl
  have aX := hss'.aeXs (M + 2) le_rfl
  have mmask : ∀ k, Measurable fun x : Fin (M + 2) → Fin n → ℝ => mask k x := by
    intro k
    refine measurable_pi_iff.2 fun i => ?_
    by_cases h : k ≤ i.1
    · simp only [mask, h, if_true]; exact measurable_pi_apply i
    · simp only [mask, h, if_false]; exact measurable_const
  -- the two sides
  set Z : ℕ → Ω → (Fin (M + 1) → Fin m → ℝ) × (Fin (M + 2) → Fin n → ℝ) :=
    fun k ω => (upTo Y (M + 1) ω, mask k (upTo X (M + 2) ω)) with hZ
  set R : ℕ → (Fin (M + 1) → Fin m → ℝ) × (Fin (M + 1) → Fin n → ℝ) → (Fin (M + 1) → Fin m → ℝ) × (Fin (M + 2) → Fin n → ℝ) :=
    fun k p => (p.1, mask k fun i => F (M + 1 - i) p) with hR
  have mR : ∀ k, 0 < k → Measurable (R k) := by
    intro k hk
    refine measurable_fst.prodMk (measurable_pi_iff.2 fun i => ?_)
    by_cases h : k ≤ i.1
    · simp only [mask, h, if_true]; exact mF _ (by omega)
    · simp only [mask, h, if_false]; exact measurable_const
  have aZ : ∀ k, AEMeasurable (Z k) P := fun k => aY.prodMk ((mmask k).comp_aemeasurable aX)
  have aYB : AEMeasurable (fun ω => (Y' ω, B ω)) P' := hY'.prodMk aB
  have key : ∀ j, j < M + 1 → P.map (Z (M + 1 - j)) = P'.map fun ω => R (M + 1 - j) (Y' ω, B ω) := by
    intro j
    induction j with
    | zero =>
      intro _
      have hC := sseq_conditional hss' hreg (M + 1) le_rfl
      set L := ch.factor (sseq init A H (M + 1) fun _ => 0).cov with hL
      have hn := (hb (Fin.last M)).affine L 0
      rw [Matrix.mulVec_zero, add_zero, Matrix.mul_one, ch.gram _ hC.residual.posSemidef] at hn
      have hi' : IndepFun (fun ω => L *ᵥ b (Fin.last M) ω + 0) Y' P' :=
        (hbi (Fin.last M)).comp (φ := fun x => L *ᵥ x + 0) 
          (ψ := fun p : (Fin (M + 1) → Fin m → ℝ) × (Fin (M + 1) → Fin n → ℝ) => p.1)
          ((measurable_mulVec L).add measurable_const) measurable_fst
      have hp := law_pair aY hY' hC.residual.gaussian.aemeasurable hn.gaussian.aemeasurable hlaw.symm
        (hC.residual.law_unique hn) hC.indep hi'
      have hG : Measurable fun q : (Fin n → ℝ) × (Fin (M + 1) → Fin m → ℝ) =>
          ((q.2, fun i : Fin (M + 2) => if M + 1 ≤ i.1 then (sseq init A H (M + 1) q.2).mean + q.1 else 0) :
            (Fin (M + 1) → Fin m → ℝ) × (Fin (M + 2) → Fin n → ℝ)) := by
        refine measurable_snd.prodMk (measurable_pi_iff.2 fun i => ?_)
        by_cases h : M + 1 ≤ i.1
        · simp only [h, if_true]; exact (hC.measurable.comp measurable_snd).add measurable_fst
        · simp only [h, if_false]; exact measurable_const
      have hc := law_comp (hC.residual.gaussian.aemeasurable.prodMk aY) (hn.gaussian.aemeasurable.prodMk hY') hp hG
      have e1 : (fun ω => R (M + 1 - 0) (Y' ω, B ω)) = fun ω => ((Y' ω, fun i : Fin (M + 2) =>
          if M + 1 ≤ i.1 then (sseq init A H (M + 1) (Y' ω)).mean + (L *ᵥ b (Fin.last M) ω + 0) else 0) :
            (Fin (M + 1) → Fin m → ℝ) × (Fin (M + 2) → Fin n → ℝ)) := by
        funext ω
        refine Prod.ext rfl (funext fun i => ?_)
        by_cases h : M + 1 ≤ i.1
        · simp only [hR, mask, h, Nat.sub_zero, if_true]
          rw [show M + 1 - i.1 = 0 by omega, Fzero, add_zero]
          have e3 := congrFun er (Y' ω)
          have e4 : extend (B ω) M = b (Fin.last M) ω := by
            simp only [extend, Nat.lt_succ_self, dite_true, hB]
            rfl
          rw [e3, e4]
        · simp only [hR, mask, h, Nat.sub_zero, if_false]
      have e2 : Z (M + 1 - 0) = fun ω => ((upTo Y (M + 1) ω, fun i : Fin (M + 2) => if M + 1 ≤ i.1 then
          (sseq init A H (M + 1) (upTo Y (M + 1) ω)).mean +
            (X (M + 1) ω - (sseq init A H (M + 1) (upTo Y (M + 1) ω)).mean) else 0) :
            (Fin (M + 1) → Fin m → ℝ) × (Fin (M + 2) → Fin n → ℝ)) := by
        funext ω
        refine Prod.ext rfl (funext fun i => ?_)
        by_cases h : M + 1 ≤ i.1
        · simp only [hZ, mask, h, Nat.sub_zero, if_true, add_sub_cancel, upTo]
          rw [show i.1 = M + 1 by omega]
        · simp only [hZ, mask, h, Nat.sub_zero, if_false]
      rw [e1, e2]
      exact hc
    | succ j ih =>
      intro hj
      have ihj := ih (by omega)
      obtain ⟨k, hk⟩ : ∃ k, k = M + 1 - (j + 1) := ⟨_, rfl⟩
      rw [← hk]
      rw [show M + 1 - j = k + 1 by omega] at ihj
      have hk0 : 0 < k := by omega
      have hkM : k < M + 1 := by omega
      obtain ⟨-, s1, s2⟩ := smooth_step hss' hreg k hkM (hsreg k hk0 hkM)
      set L := ch.factor (scov init A H k) with hL
      have hn := (hb ⟨k - 1, by omega⟩).affine L 0
      rw [Matrix.mulVec_zero, add_zero, Matrix.mul_one, ch.gram _ s1.posSemidef] at hn
      have e0 : (fun ω => R (k + 1) (Y' ω, B ω))
          = fun ω => R (k + 1) (Y' ω, fun i => if (⟨k - 1, by omega⟩ : Fin (M + 1)) < i then b i ω else 0) := by
        funext ω
        refine Prod.ext rfl (funext fun i => ?_)
        by_cases h : k + 1 ≤ i.1
        · simp only [hR, mask, h, if_true, hF]
          rw [← bsamp_mask ch init A H (M + 1) _ (B ω) k _ (by omega) (by omega)]
          congr 2
          funext i
          simp only [mask, hB, Fin.lt_def]
          congr 1
          simp only [eq_iff_iff]
          omega
        · simp only [hR, mask, h, if_false]
      have hi' : IndepFun (fun ω => L *ᵥ b ⟨k - 1, by omega⟩ ω + 0) (fun ω => R (k + 1) (Y' ω, B ω)) P' := by
        rw [e0]
        exact (hbi ⟨k - 1, by omega⟩).comp (φ := fun x => L *ᵥ x + 0) (ψ := R (k + 1))
          ((measurable_mulVec L).add measurable_const) (mR _ (by omega))
      have aR : AEMeasurable (fun ω => R (k + 1) (Y' ω, B ω)) P' := (mR _ (by omega)).comp_aemeasurable aYB
      have hp := law_pair (aZ (k + 1)) aR s1.gaussian.aemeasurable hn.gaussian.aemeasurable ihj
        (s1.law_unique hn) s2 hi'
      set G : (Fin n → ℝ) × ((Fin (M + 1) → Fin m → ℝ) × (Fin (M + 2) → Fin n → ℝ)) →
          (Fin (M + 1) → Fin m → ℝ) × (Fin (M + 2) → Fin n → ℝ) := fun q =>
          (q.2.1, fun i => if i.1 = k then smean init A H k q.2.1 (q.2.2 ⟨k + 1, by omega⟩) + q.1 else q.2.2 i) with hG
      have mG : Measurable G := by
        refine (measurable_fst.comp measurable_snd).prodMk (measurable_pi_iff.2 fun i => ?_)
        have m1 : Measurable fun q : (Fin n → ℝ) × ((Fin (M + 1) → Fin m → ℝ) × (Fin (M + 2) → Fin n → ℝ)) =>
            (q.2.1, q.2.2 ⟨k + 1, by omega⟩) :=
          (measurable_fst.comp measurable_snd).prodMk
            ((measurable_pi_apply _).comp (measurable_snd.comp measurable_snd))
        by_cases h : i.1 = k
        · simp only [h, if_true]
          exact ((msmean k hk0 hkM).comp m1).add measurable_fst
        · simp only [h, if_false]
          exact (measurable_pi_apply i).comp (measurable_snd.comp measurable_snd)
      have hc := law_comp (s1.gaussian.aemeasurable.prodMk (aZ (k + 1))) (hn.gaussian.aemeasurable.prodMk aR) hp mG
      have e1 : (fun ω => R k (Y' ω, B ω))
          = fun ω => G (L *ᵥ b ⟨k - 1, by omega⟩ ω + 0, R (k + 1) (Y' ω, B ω)) := by
        funext ω
        refine Prod.ext rfl (funext fun i => ?_)
        simp only [hG, hR, mask, le_refl, if_true]
        rcases lt_trichotomy i.1 k with h | h | h
        · simp only [show ¬ k ≤ i.1 by omega, show ¬ k + 1 ≤ i.1 by omega, show ¬ i.1 = k by omega, if_false]
        · simp only [h, le_refl, if_true, add_zero]
          rw [show M + 1 - k = j + 1 by omega, Fsucc j hj, show M + 1 - (k + 1) = j by omega, ← hk]
          simp only [extend, show k - 1 < M + 1 by omega, dite_true, hB, hL]
        · simp only [show k ≤ i.1 by omega, show k + 1 ≤ i.1 by omega, show ¬ i.1 = k by omega, if_false, if_true]
      have e2 : Z k = fun ω => G (X k ω - smean init A H k (upTo Y (M + 1) ω) (X (k + 1) ω), Z (k + 1) ω) := by
        funext ω
        refine Prod.ext rfl (funext fun i => ?_)
        simp only [hG, hZ, mask, le_refl, if_true, upTo]
        rcases lt_trichotomy i.1 k with h | h | h
        · simp only [show ¬ k ≤ i.1 by omega, show ¬ k + 1 ≤ i.1 by omega, show ¬ i.1 = k by omega, if_false]
        · simp only [h, le_refl, if_true]
          abel
        · simp only [show k ≤ i.1 by omega, show k + 1 ≤ i.1 by omega, show ¬ i.1 = k by omega, if_false, if_true]
      rw [e1, e2]
      exact hc
  refine ⟨fun k ω => T (M - k) ω, fun ω => ⟨fun k => sseq init A H (k + 1) fun i => extend (Y' ω) i, ?_, ?_⟩, ?_⟩
  · refine (filter_one_state_per_observation (classicPrior t0 init disc)
      (gaussProblem (M + 1) loc H (extend (Y' ω))) none (by simp [gaussProblem]) (by simp [gaussProblem]) _).2
      ⟨hpw, rfl, rfl, ?_⟩
    exact (isFiltered_iff t0 init disc (M + 1) loc H (extend (Y' ω)) _).2 ⟨hreg, rfl⟩
  · refine backward_samples_exact t0 init disc ch M loc H (extend (Y' ω)) (extend (B ω)) (fun k hk => ?_) hsreg
    have := List.pairwise_iff_getElem.1 hpw k (k + 1) (by simp; omega) (by simp; omega) (by omega)
    simpa using this
  · have h1 := key M (by omega)
    rw [show M + 1 - M = 1 by omega] at h1
    have mQ : Measurable fun q : (Fin (M + 1) → Fin m → ℝ) × (Fin (M + 2) → Fin n → ℝ) =>
        ((q.1, fun k : Fin (M + 1) => q.2 k.succ) : (Fin (M + 1) → Fin m → ℝ) × (Fin (M + 1) → Fin n → ℝ)) :=
      measurable_fst.prodMk (measurable_pi_iff.2 fun k => (measurable_pi_apply _).comp measurable_snd)
    have h2 := law_comp (aZ 1) ((mR 1 (by omega)).comp_aemeasurable aYB) h1 mQ
    have e1 : (fun ω => (Y' ω, fun k : Fin (M + 1) => T (M - k) ω))
        = fun ω => ((R 1 (Y' ω, B ω)).1, fun k : Fin (M + 1) => (R 1 (Y' ω, B ω)).2 k.succ) := by
      funext ω
      refine Prod.ext rfl (funext fun k => ?_)
      simp only [hR, mask, hF, hT, Fin.val_succ, show 1 ≤ k.1 + 1 by omega, if_true]
      rw [show M + 1 - (k.1 + 1) = M - k by omega]
    rw [e1]
    refine h2.symm.trans ?_
    congr 1

/-- Data and base vectors as required by `backward_samples_distribution` exist for every state-space model. -/
theorem exists_data_and_base {Ω : Type} {mΩ : MeasurableSpace Ω} {P : Measure Ω} [IsProbabilityMeasure P] {α : Type}
    [MeasurableSpace α] (U : Ω → α) (hU : AEMeasurable U P) (N n : ℕ) :
    ∃ (Ω' : Type) (_ : MeasurableSpace Ω') (P' : Measure Ω') (U' : Ω' → α) (b : Fin N → Ω' → Fin n → ℝ),
      IsProbabilityMeasure P' ∧ AEMeasurable U' P' ∧ P'.map U' = P.map U ∧ (∀ k, IsNormal P' (b k) 0 1) ∧
      ∀ k, IndepFun (b k) (fun ω => (U' ω, fun i => if k < i then b i ω else 0)) P' := by
  classical
  set Q := stdBase (Fin N × Fin n) with hQ
  have hQp : IsProbabilityMeasure Q := by rw [hQ]; unfold stdBase; infer_instance
  set b : Fin N → (Fin N × Fin n → ℝ) → Fin n → ℝ := fun k x i => x (k, i) with hb
  have mb : ∀ k, Measurable (b k) := fun k => measurable_pi_iff.2 fun i => measurable_pi_apply _
  have mk : ∀ k, Measurable fun x i => if k < i then b i x else 0 := fun k => measurable_pi_iff.2 fun i => by
    by_cases h : k < i
    · simp only [h, if_true]; exact mb i
    · simp only [h, if_false]; exact measurable_const
  have hs : MeasurePreserving (Prod.snd : Ω × (Fin N × Fin n → ℝ) → _) (P.prod Q) Q := measurePreserving_snd
  refine ⟨Ω × (Fin N × Fin n → ℝ), inferInstance, P.prod Q, fun p => U p.1, fun k p => b k p.2, inferInstance,
    hU.comp_fst, ?_, fun k => ?_, fun k => ?_⟩
  · have : (fun p : Ω × (Fin N × Fin n → ℝ) => U p.1) = U ∘ Prod.fst := rfl
    have hf : MeasurePreserving (Prod.fst : Ω × (Fin N × Fin n → ℝ) → _) (P.prod Q) P := measurePreserving_fst
    rw [this, ← AEMeasurable.map_map_of_aemeasurable (by rw [hf.map_eq]; exact hU) measurable_fst.aemeasurable, hf.map_eq]
  · have h0 := base_select (fun i : Fin n => (k, i)) (fun i j h => by simpa using h)
    have e : (fun p : Ω × (Fin N × Fin n → ℝ) => b k p.2) = b k ∘ Prod.snd := rfl
    have g : HasGaussianLaw (b k ∘ (Prod.snd : Ω × (Fin N × Fin n → ℝ) → _)) (P.prod Q) := by
      refine ⟨?_⟩
      rw [← Measure.map_map (mb k) measurable_snd, hs.map_eq]
      exact h0.gaussian.isGaussian_map
    refine ⟨g, fun i => ?_, fun i j => ?_⟩
    · have := h0.mean i
      rw [← this, ← hQ]
      conv_rhs => rw [← hs.map_eq]
      exact (integral_map (f := fun x : Fin N × Fin n → ℝ => x (k, i)) measurable_snd.aemeasurable
        ((measurable_pi_apply (k, i)).aestronglyMeasurable)).symm
    · have := h0.cov i j
      rw [← this, ← hQ]
      conv_rhs => rw [← hs.map_eq]
      rw [covariance_map_fun]
      · exact (measurable_pi_apply (k, i)).aestronglyMeasurable
      · exact (measurable_pi_apply (k, j)).aestronglyMeasurable
      · exact measurable_snd.aemeasurable
  · have h1 : IndepFun (b k) (fun x i => if k < i then b i x else 0) Q := by
      refine base_indep (S := Finset.univ.filter fun p => p.1 = k) (T := Finset.univ.filter fun p => k < p.1) ?_
        (mb k) (mk k) ?_ ?_
      · rw [Finset.disjoint_left]
        intro p hp hq
        simp only [Finset.mem_filter, Finset.mem_univ, true_and] at hp hq
        rw [hp] at hq
        exact lt_irrefl _ hq
      · intro x y h
        funext i
        exact h _ (by simp)
      · intro x y h
        funext i
        by_cases hk : k < i
        · simp only [hk, if_true]
          funext l
          exact h _ (by simp [hk])
        · simp only [hk, if_false]
    have h2 : IndepFun (fun p : Ω × (Fin N × Fin n → ℝ) => b k p.2) (fun p i => if k < i then b i p.2 else 0) (P.prod Q) := by
      refine (indepFun_iff_map_prod_eq_prod_map_map ((mb k).comp measurable_snd).aemeasurable
        ((mk k).comp measurable_snd).aemeasurable).2 ?_
      rw [indepFun_iff_map_prod_eq_prod_map_map (mb k).aemeasurable (mk k).aemeasurable] at h1
      rw [← hs.map_eq, Measure.map_map ((mb k).prodMk (mk k)) measurable_snd, Measure.map_map (mb k) measurable_snd,
        Measure.map_map (mk k) measurable_snd] at h1
      exact h1
    have h3 : IndepFun (fun p : Ω × (Fin N × Fin n → ℝ) => (b k p.2, fun i => if k < i then b i p.2 else 0))
        (fun p => U p.1) (P.prod Q) :=
      (indepFun_prod₀ (μ := P) (ν := Q) (X := U) (Y := fun x => (b k x, fun i => if k < i then b i x else 0)) hU
        ((mb k).prodMk (mk k)).aemeasurable).symm
    have h4 := indep_triple ((mb k).comp measurable_snd).aemeasurable ((mk k).comp measurable_snd).aemeasurable
      (hU.comp_fst (ν := Q)) h2 h3
    exact h4.comp (φ := id) (ψ := Prod.swap) measurable_id measurable_swap

/-- The hypotheses of `backward_samples_distribution` are met by every prior with positive definite process noise and
every observation model with positive definite noise, for instance a Brownian motion observed at times 1, 2, …. -/
example (M : ℕ) : ∃ (Ω Ω' : Type) (_ : MeasurableSpace Ω) (_ : MeasurableSpace Ω') (P : Measure Ω) (P' : Measure Ω')
    (disc : ℝ → Transition 2 2) (H : ℕ → Transition 2 1) (X : ℕ → Ω → Fin 2 → ℝ) (Y : ℕ → Ω → Fin 1 → ℝ)
    (Y' : Ω' → Fin (M + 1) → Fin 1 → ℝ) (b : Fin (M + 1) → Ω' → Fin 2 → ℝ),
    IsProbabilityMeasure P' ∧
    StateSpace P (M + 1) ⟨0, 1⟩ (fun k => gapTransition disc
      (stateTime 0 (fun k => (k : ℝ) + 1) (k + 1) - stateTime 0 (fun k => (k : ℝ) + 1) k)) H X Y ∧
    (∃ y0 post, filtsmooth (classicPrior 0 ⟨0, 1⟩ disc) (gaussProblem (M + 1) (fun k => (k : ℝ) + 1) H y0) none = .ok post) ∧
    AEMeasurable Y' P' ∧ P'.map Y' = P.map (fun ω (i : Fin (M + 1)) => Y i ω) ∧ (∀ k, IsNormal P' (b k) 0 1) ∧
    ∀ k, IndepFun (b k) (fun ω => (Y' ω, fun i => if k < i then b i ω else 0)) P' := by
  set disc : ℝ → Transition 2 2 := fun dt => ⟨1, ⟨0, |dt| • 1, Real.sqrt |dt| • 1⟩⟩ with hdisc
  set H : ℕ → Transition 2 1 := fun _ => ⟨!![1, 0], ⟨0, 1, 1⟩⟩ with hH
  set A : ℕ → Transition 2 2 := fun k => gapTransition disc
      (stateTime 0 (fun k => (k : ℝ) + 1) (k + 1) - stateTime 0 (fun k => (k : ℝ) + 1) k) with hA
  have vd : ∀ dt, (disc dt).noise.Valid := by
    intro dt
    simp only [hdisc, Normal.Valid]
    simp [Matrix.transpose_smul, smul_smul, Real.mul_self_sqrt (abs_nonneg dt)]
  have vA : ∀ k, (A k).noise.Valid := by
    intro k
    simp only [hA, gapTransition]
    split
    · exact vd _
    · simp [Normal.Valid]
  have hss := exists_stateSpace (m := 1) (M + 1) (0 : Fin 2 → ℝ) (1 : Matrix (Fin 2) (Fin 2) ℝ) A H vA
    (fun k => by simp [hH, Normal.Valid])
  rw [Matrix.transpose_one, Matrix.mul_one] at hss
  have hP := hss.init.isProbabilityMeasure
  obtain ⟨Ω', _, P', Y', b, h1, h2, h3, h4, h5⟩ := exists_data_and_base _ (hss.aeYs (M + 1) le_rfl) (M + 1) 2
  refine ⟨_, Ω', _, _, _, P', disc, H, _, _, Y', b, h1, hss, ⟨fun _ => 0, _, filtsmooth_succeeds_of_posDef 0 ⟨0, 1⟩ disc
    (M + 1) _ H (by omega) ?_ Matrix.PosSemidef.one (fun dt h => ?_) (fun k _ => Matrix.PosDef.one) _⟩, h2, h3, h4, h5⟩
  · rw [List.pairwise_map]
    exact List.pairwise_lt_range.imp fun h => by simpa using h
  · exact Matrix.PosDef.one.smul (abs_pos.2 h.ne')

end Probnum.Kalman
