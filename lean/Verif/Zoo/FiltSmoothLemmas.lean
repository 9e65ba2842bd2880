import Verif.Zoo.FiltSmooth
import Verif.Kalman.SamplingProps
import Mathlib.Tactic.FieldSimp

/-!
# Helper lemmas and specification for the filtering and smoothing problems of the zoo
-/

namespace Probnum.FiltZoo

open MeasureTheory ProbabilityTheory Matrix LinGauss Kalman Gauss

variable {n m : ℕ}

/-! ## Specification -/

/-- `g` is the grid `t0, t0 + step, …` of all such points before `t1`, in this order. -/
def IsGrid (t0 t1 step : ℝ) (g : List ℝ) : Prop :=
  (∀ k (hk : k < g.length), g[k] = t0 + k * step) ∧ ∀ t, t ∈ g ↔ ∃ k : ℕ, t = t0 + k * step ∧ t < t1

/-- `Y k` is `h k (X k)` plus noise `N(c, R)` which is independent of all states and of the observations before. -/
def Observes {Ω : Type*} {mΩ : MeasurableSpace Ω} (P : Measure Ω) (N : ℕ) (X : ℕ → Ω → Fin n → ℝ) (Y : ℕ → Ω → Fin m → ℝ)
    (h : ℕ → (Fin n → ℝ) → Fin m → ℝ) (c : Fin m → ℝ) (R : Matrix (Fin m) (Fin m) ℝ) : Prop :=
  ∀ k, k < N → ∃ V, (∀ ω, Y k ω = h k (X k ω) + V ω) ∧ IsNormal P V c R ∧
    IndepFun V (fun ω => (upTo X N ω, upTo Y k ω)) P

/-- `X 0` has the initial distribution, and `X (k+1)` is `g k (X k)` plus noise `N(0, Q k)`, which is independent of
`X 0, …, X k` for the steps `k` with `good k`. -/
def Evolves {Ω : Type*} {mΩ : MeasurableSpace Ω} (P : Measure Ω) (N : ℕ) (init : Updated n)
    (g : ℕ → (Fin n → ℝ) → Fin n → ℝ) (Q : ℕ → Matrix (Fin n) (Fin n) ℝ) (X : ℕ → Ω → Fin n → ℝ) (good : ℕ → Prop) : Prop :=
  IsNormal P (X 0) init.mean init.cov ∧ ∀ k, k + 1 < N → ∃ W, (∀ ω, X (k + 1) ω = g k (X k ω) + W ω) ∧
    IsNormal P W 0 (Q k) ∧ (good k → IndepFun W (upTo X (k + 1)) P)

/-! ## The time grid -/

theorem arange_spec {t0 t1 step : ℝ} (hs : 0 < step) : ∃ g, arange t0 t1 step = .ok g ∧ IsGrid t0 t1 step g := by
  refine ⟨_, by rw [arange, if_neg hs.ne'], ?_, fun t => ?_⟩
  · intro k hk; simp
  · simp only [List.mem_map, List.mem_range]
    constructor
    · rintro ⟨k, hk, rfl⟩
      refine ⟨k, rfl, ?_⟩
      rw [Int.lt_toNat, Int.lt_ceil, lt_div_iff₀ hs] at hk
      push_cast at hk; linarith
    · rintro ⟨k, rfl, hk⟩
      refine ⟨k, ?_, rfl⟩
      rw [Int.lt_toNat, Int.lt_ceil, lt_div_iff₀ hs]
      push_cast; linarith

theorem IsGrid.ne_nil {t0 t1 step : ℝ} {g : List ℝ} (h : IsGrid t0 t1 step g) (ht : t0 < t1) : g ≠ [] := by
  intro e
  have := (h.2 t0).2 ⟨0, by simp, ht⟩
  rw [e] at this; cases this

theorem IsGrid.nil {t0 t1 step : ℝ} {g : List ℝ} (h : IsGrid t0 t1 step g) (ht : t1 ≤ t0) : g = [] := by
  cases g with
  | nil => rfl
  | cons a g =>
    have h0 := h.1 0 (by simp)
    obtain ⟨k, h1, h2⟩ := (h.2 a).1 (by simp)
    simp at h0
    linarith

theorem IsGrid.first {t0 t1 step : ℝ} {g : List ℝ} (h : IsGrid t0 t1 step g) (ht : t0 < t1) : firstTime g = .ok t0 := by
  cases g with
  | nil => exact absurd rfl (h.ne_nil ht)
  | cons a g =>
    have h0 := h.1 0 (by simp)
    simp at h0
    rw [firstTime, h0]

theorem IsGrid.getD {t0 t1 step : ℝ} {g : List ℝ} (h : IsGrid t0 t1 step g) {k : ℕ} (hk : k < g.length) :
    g.getD k 0 = t0 + k * step := by
  rw [List.getD_eq_getElem?_getD, List.getElem?_eq_getElem hk, Option.getD_some, h.1 k hk]

/-! ## Sampling -/

/-- What the forward transformation computes for a transition with mean `g t dt x` and covariance `Q t dt`. -/
noncomputable def chain (ch : CovCholesky n) (init : Updated n) (g : ℝ → ℝ → (Fin n → ℝ) → Fin n → ℝ)
    (Q : ℝ → ℝ → Matrix (Fin n) (Fin n) ℝ) (t : ℕ → ℝ) (b : ℕ → Fin n → ℝ) : ℕ → Fin n → ℝ
  | 0 => init.mean + ch.factor init.cov *ᵥ b 0
  | k + 1 => g (t k) (t (k + 1) - t k) (chain ch init g Q t b k) + ch.factor (Q (t k) (t (k + 1) - t k)) *ᵥ b k

theorem sampleForwFrom_chain {prior : Prior ℝ (Updated n) ℝ} {g : ℝ → ℝ → (Fin n → ℝ) → Fin n → ℝ}
    {Q : ℝ → ℝ → Matrix (Fin n) (Fin n) ℝ} (hf : ∀ x t dt, prior.forward ⟨x, 0⟩ t dt none = .ok ⟨g t dt x, Q t dt⟩)
    (ch : CovCholesky n) (init : Updated n) (b : ℕ → Fin n → ℝ) (t : ℕ → ℝ) (j N : ℕ) :
    sampleForwFrom prior ch (chain ch init g Q t b j) (t j) ((List.range' j N).map fun i => (t (i + 1), b i))
      = .ok ((List.range' j N).map fun i => chain ch init g Q t b (i + 1)) := by
  induction N generalizing j with
  | zero => rfl
  | succ N ih =>
    rw [List.range'_succ, List.map_cons, List.map_cons, sampleForwFrom, hf]
    have := ih (j + 1)
    simp only [bind, Except.bind]
    rw [show transformBase ch ⟨g (t j) (t (j + 1) - t j) (chain ch init g Q t b j), Q (t j) (t (j + 1) - t j)⟩ (b j)
      = chain ch init g Q t b (j + 1) from rfl, this]

theorem sampleAt_chain {prior : Prior ℝ (Updated n) ℝ} {g : ℝ → ℝ → (Fin n → ℝ) → Fin n → ℝ}
    {Q : ℝ → ℝ → Matrix (Fin n) (Fin n) ℝ} (hf : ∀ x t dt, prior.forward ⟨x, 0⟩ t dt none = .ok ⟨g t dt x, Q t dt⟩)
    (ch : CovCholesky n) (b : ℕ → Fin n → ℝ) {times : List ℝ} (ht : times ≠ []) :
    sampleAt prior ch b times
      = .ok ((List.range times.length).map (chain ch prior.initrv g Q (fun k => times.getD k 0) b)) := by
  have h := sampleForwFrom_chain hf ch prior.initrv b (fun k => times.getD k 0) 0 (times.length - 1)
  have hl : times.length = times.length - 1 + 1 := by
    have := List.length_pos_of_ne_nil ht; omega
  rw [← List.range_eq_range'] at h
  rw [sampleAt, if_neg ht]
  simp only [sampleForward, bind, Except.bind]
  rw [show transformBase ch prior.initrv (b 0) = chain ch prior.initrv g Q (fun k => times.getD k 0) b 0 from rfl, h]
  conv_rhs => rw [hl, List.range_succ_eq_map, List.map_cons, List.map_map]
  rfl

theorem observeLoop_eq (ch : CovCholesky m) (fwd : (Fin n → ℝ) → ℝ → Updated m) (noise : ℕ → Fin m → ℝ) (X : ℕ → Fin n → ℝ)
    (t : ℕ → ℝ) (j N : ℕ) (pre : List (Fin m → ℝ)) (hp : pre.length = j) :
    observeLoop ch fwd noise j ((List.range' j N).map fun k => (X k, t k)) (pre ++ List.replicate N 0)
      = pre ++ (List.range' j N).map fun k => transformBase ch (fwd (X k) (t k)) (noise k) := by
  induction N generalizing j pre with
  | zero => simp [observeLoop]
  | succ N ih =>
    rw [List.range'_succ, List.map_cons, List.map_cons, observeLoop]
    have h1 : (pre ++ List.replicate (N + 1) 0).set j (transformBase ch (fwd (X j) (t j)) (noise j))
        = (pre ++ [transformBase ch (fwd (X j) (t j)) (noise j)]) ++ List.replicate N 0 := by
      rw [List.set_append_right _ _ (by omega), hp, Nat.sub_self, List.replicate_succ, List.set_cons_zero]
      simp
    rw [h1, ih (j + 1) _ (by simp [hp])]
    simp

theorem generate_eq {ch : CovCholesky m} {sample : List ℝ → Res (List (Fin n → ℝ))} {fwd : (Fin n → ℝ) → ℝ → Updated m}
    {noise : ℕ → Fin m → ℝ} {times : List ℝ} {X : ℕ → Fin n → ℝ}
    (hs : sample times = .ok ((List.range times.length).map X)) :
    generate ch sample fwd noise times = .ok ((List.range times.length).map X,
      (List.range times.length).map fun k => transformBase ch (fwd (X k) (times.getD k 0)) (noise k)) := by
  have hz : ((List.range times.length).map X).zip times
      = (List.range' 0 times.length).map fun k => (X k, times.getD k 0) := by
    rw [← List.range_eq_range']
    apply List.ext_getElem
    · simp
    · intro i h1 h2
      simp at h1
      simp [h1]
  have h := observeLoop_eq ch fwd noise X (fun k => times.getD k 0) 0 times.length [] rfl
  simp only [List.nil_append] at h
  simp only [generate, hs, bind, Except.bind]
  rw [hz, h, ← List.range_eq_range']

/-! ## Laws -/

/-- Indices of the base sample: `N` vectors for the states and `N` for the observations. -/
abbrev Idx (n m N : ℕ) := (Fin (N + 1) × Fin n) ⊕ (Fin (N + 1) × Fin m)

/-- The vectors drawn for the states. -/
def stateBase (N : ℕ) (x : Idx n m N → ℝ) (k : ℕ) : Fin n → ℝ := fun i => x (.inl (Fin.ofNat (N + 1) k, i))

/-- The vectors drawn for the observations. -/
def obsBase (N : ℕ) (x : Idx n m N → ℝ) (k : ℕ) : Fin m → ℝ := fun i => x (.inr (Fin.ofNat (N + 1) k, i))

theorem measurable_stateBase (N k : ℕ) : Measurable fun x : Idx n m N → ℝ => stateBase N x k :=
  measurable_pi_iff.2 fun _ => measurable_pi_apply _

theorem measurable_obsBase (N k : ℕ) : Measurable fun x : Idx n m N → ℝ => obsBase N x k :=
  measurable_pi_iff.2 fun _ => measurable_pi_apply _

theorem stateBase_normal (N k : ℕ) (ch : CovCholesky n) (c : Fin n → ℝ) (C : Matrix (Fin n) (Fin n) ℝ) (hC : C.PosSemidef) :
    IsNormal (stdBase (Idx n m N)) (fun x => c + ch.factor C *ᵥ stateBase N x k) c C := by
  have := base_normal (ι := Idx n m N) (fun i : Fin n => Sum.inl (Fin.ofNat (N + 1) k, i)) (fun a b h => by simpa using h)
    (ch.factor C) c
  rw [ch.gram C hC] at this
  simp only [add_comm c]
  exact this

theorem obsBase_normal (N k : ℕ) (ch : CovCholesky m) (c : Fin m → ℝ) (C : Matrix (Fin m) (Fin m) ℝ) (hC : C.PosSemidef) :
    IsNormal (stdBase (Idx n m N)) (fun x => c + ch.factor C *ᵥ obsBase N x k) c C := by
  have := base_normal (ι := Idx n m N) (fun i : Fin m => Sum.inr (Fin.ofNat (N + 1) k, i)) (fun a b h => by simpa using h)
    (ch.factor C) c
  rw [ch.gram C hC] at this
  simp only [add_comm c]
  exact this

variable {ch : CovCholesky n} {init : Updated n} {g : ℝ → ℝ → (Fin n → ℝ) → Fin n → ℝ}
  {Q : ℝ → ℝ → Matrix (Fin n) (Fin n) ℝ} {t : ℕ → ℝ}

theorem measurable_chain (hg : ∀ s dt, Measurable (g s dt)) (N k : ℕ) :
    Measurable fun x : Idx n m N → ℝ => chain ch init g Q t (stateBase N x) k := by
  induction k with
  | zero => exact measurable_const.add ((measurable_mulVec _).comp (measurable_stateBase N 0))
  | succ k ih => exact ((hg _ _).comp ih).add ((measurable_mulVec _).comp (measurable_stateBase N k))

theorem stateBase_congr {N k : ℕ} (hk : k ≤ N) {x y : Idx n m N → ℝ}
    (h : ∀ i ∈ Finset.univ.filter (fun p : Idx n m N => ∃ q, p = Sum.inl q ∧ q.1.1 = k), x i = y i) :
    stateBase N x k = stateBase N y k := by
  funext i
  exact h _ (by simp; omega)

/-- The states after the first one read the vectors of the steps before; the first one reads the vector of the first step,
unless the initial covariance has factor zero. -/
theorem reads_chain (N k : ℕ) (hk : k ≤ N) (S : ℕ → Prop) [DecidablePred S] (h0 : ch.factor init.cov = 0 ∨ S 0)
    (hS : ∀ j, j < k → S j) :
    Reads (fun x : Idx n m N → ℝ => chain ch init g Q t (stateBase N x) k)
      (Finset.univ.filter fun p => ∃ q, p = Sum.inl q ∧ S q.1.1) := by
  induction k with
  | zero =>
    intro x y h
    rcases h0 with h0 | h0
    · simp [chain, h0]
    · have : stateBase N x 0 = stateBase N y 0 := stateBase_congr (by omega) fun i hi => h i (by
        simp only [Finset.mem_filter, Finset.mem_univ, true_and] at hi ⊢
        obtain ⟨q, e, hq⟩ := hi
        exact ⟨q, e, by rw [hq]; exact h0⟩)
      simp only [chain, this]
  | succ k ih =>
    intro x y h
    have h1 : chain ch init g Q t (stateBase N x) k = chain ch init g Q t (stateBase N y) k :=
      ih (by omega) (fun j hj => hS j (by omega)) x y h
    have h2 : stateBase N x k = stateBase N y k := stateBase_congr (by omega) fun i hi => h i (by
        simp only [Finset.mem_filter, Finset.mem_univ, true_and] at hi ⊢
        obtain ⟨q, e, hq⟩ := hi
        exact ⟨q, e, by rw [hq]; exact hS k (by omega)⟩)
    simp only [chain, h1, h2]

theorem chain_evolves (N : ℕ) (hg : ∀ s dt, Measurable (g s dt)) (hi : init.cov.PosSemidef)
    (hQ : ∀ k, (Q (t k) (t (k + 1) - t k)).PosSemidef ∨ ¬ k + 1 < N + 1) :
    Evolves (stdBase (Idx n m N)) (N + 1) init (fun k => g (t k) (t (k + 1) - t k)) (fun k => Q (t k) (t (k + 1) - t k))
      (fun k x => chain ch init g Q t (stateBase N x) k) (fun k => 0 < k ∨ ch.factor init.cov = 0) := by
  refine ⟨stateBase_normal N 0 ch init.mean init.cov hi, fun k hk => ?_⟩
  refine ⟨fun x => ch.factor (Q (t k) (t (k + 1) - t k)) *ᵥ stateBase N x k, fun x => rfl, ?_, fun hgood => ?_⟩
  · have := stateBase_normal (m := m) N k ch 0 (Q (t k) (t (k + 1) - t k)) ((hQ k).resolve_right (by omega))
    simpa using this
  · refine base_indep (S := Finset.univ.filter fun p : Idx n m N => ∃ q, p = Sum.inl q ∧ q.1.1 = k)
      (T := Finset.univ.filter fun p : Idx n m N => ∃ q, p = Sum.inl q ∧ q.1.1 < k) ?_ ?_ ?_ ?_ ?_
    · rw [Finset.disjoint_filter]
      rintro p _ ⟨q, e, h1⟩ ⟨q', e', h2⟩
      rw [e] at e'
      cases e'
      omega
    · exact (measurable_mulVec _).comp (measurable_stateBase N k)
    · exact measurable_pi_iff.2 fun i => measurable_chain hg N i
    · intro x y h
      simp only [stateBase_congr (by omega : k ≤ N) h]
    · refine Reads.pi fun i => reads_chain N i (by omega) (fun j => j < k) ?_ fun j hj => by omega
      rcases hgood with h | h
      · exact .inr h
      · exact .inl h

theorem chain_observes (N : ℕ) (hg : ∀ s dt, Measurable (g s dt)) (h : ℕ → (Fin n → ℝ) → Fin m → ℝ)
    (hh : ∀ k, Measurable (h k)) (chm : CovCholesky m) (c : Fin m → ℝ) {R : Matrix (Fin m) (Fin m) ℝ} (hR : R.PosSemidef) :
    Observes (stdBase (Idx n m N)) (N + 1) (fun k x => chain ch init g Q t (stateBase N x) k)
      (fun k x => h k (chain ch init g Q t (stateBase N x) k) + c + chm.factor R *ᵥ obsBase N x k) h c R := by
  intro k hk
  refine ⟨fun x => c + chm.factor R *ᵥ obsBase N x k, fun x => add_assoc _ _ _, obsBase_normal N k chm c R hR, ?_⟩
  refine base_indep (S := Finset.univ.filter fun p : Idx n m N => ∃ q, p = Sum.inr q ∧ q.1.1 = k)
    (T := Finset.univ.filter fun p : Idx n m N => ∀ q, p = Sum.inr q → q.1.1 < k) ?_ ?_ ?_ ?_ ?_
  · rw [Finset.disjoint_filter]
    rintro p _ ⟨q, e, h1⟩ h2
    have := h2 q e
    omega
  · exact measurable_const.add ((measurable_mulVec _).comp (measurable_obsBase N k))
  · refine Measurable.prodMk (measurable_pi_iff.2 fun i => measurable_chain hg N i) (measurable_pi_iff.2 fun i => ?_)
    exact (((hh _).comp (measurable_chain hg N i)).add measurable_const).add
      ((measurable_mulVec _).comp (measurable_obsBase N i))
  · intro x y h
    have : obsBase N x k = obsBase N y k := by
      funext i
      exact h _ (by simp; omega)
    simp only [this]
  · have hX : ∀ i, i ≤ N → Reads (fun x : Idx n m N → ℝ => chain ch init g Q t (stateBase N x) i)
        (Finset.univ.filter fun p : Idx n m N => ∀ q, p = Sum.inr q → q.1.1 < k) := by
      intro i hi
      refine (reads_chain N i hi (fun _ => True) (.inr trivial) fun _ _ => trivial).mono fun p hp => ?_
      simp only [Finset.mem_filter, Finset.mem_univ, true_and] at hp ⊢
      obtain ⟨q, e, -⟩ := hp
      intro q' e'
      rw [e] at e'; cases e'
    refine Reads.prod (Reads.pi fun i => hX i (by omega)) (Reads.pi fun i => ?_)
    intro x y hxy
    have h1 := hX i (by omega) x y hxy
    have h2 : obsBase N x i = obsBase N y i := by
      funext j
      refine hxy _ ?_
      simp only [Finset.mem_filter, Finset.mem_univ, true_and]
      intro q e
      cases e
      rw [fbase_val (by omega)]
      exact i.2
    simp only at h1
    simp only [upTo, h1, h2]

end Probnum.FiltZoo
