import Verif.Markov.Lemmas
import Verif.GP.Props
import Verif.RandVars.PropsDist

/-!
# C105: Markov processes as random processes; sampling with a requested size

`sample … args size` is `process.sample(rng, args, size)`, where the generator returns `z 0, z 1, …`.  The documented result
has the shape `size + (number of locations, length of the state)` and consists of independent sample paths.
-/

namespace Probnum.Markov

open MeasureTheory ProbabilityTheory RandVars Kalman LinGauss Gauss

variable {n : ℕ}

/-! ## Construction and evaluation -/

theorem mkBase_ok {i o : List ℕ} (h : o.length ≤ 1) :
    mkBase i o = .ok ⟨i, o, some (Functions.mkLambda (fun x => (evaluate x).map (·.mean)) i o).core, some (kernel i o)⟩ := by
  rw [mkBase, GP.mkProcess, if_neg (by omega)]
  simp [GP.checkMean, GP.checkCov, Functions.mkLambda, kernel, Cov.Core.inputShape, Except.bind, Except.map]

/-- **C105.**  `MarkovProcess` takes SDEs only, `MarkovSequence` discrete Gaussian transitions only (TypeError), and the state
has at most one axis (ValueError); the input shape is that of the initial location, the output shape that of the initial
random variable. -/
theorem constructors (k : Kind) (i o : List ℕ) :
    (k ≠ .sde → mkMarkovProcess k i o = .error .typeError) ∧
    (k ≠ .nonlinearGaussian → mkMarkovSequence k i o = .error .typeError) ∧
    (1 < o.length → mkMarkovProcess .sde i o = .error .valueError ∧
      mkMarkovSequence .nonlinearGaussian i o = .error .valueError) ∧
    (o.length ≤ 1 → ∃ P, mkMarkovProcess .sde i o = .ok P ∧ mkMarkovSequence .nonlinearGaussian i o = .ok P ∧
      P.inS = i ∧ P.outS = o) := by
  refine ⟨fun h => if_pos h, fun h => if_pos h, fun h => ?_, fun h => ?_⟩
  · have : mkBase i o = .error .valueError := by rw [mkBase, GP.mkProcess, if_pos h]
    exact ⟨(if_neg (not_not.2 rfl)).trans this, (if_neg (not_not.2 rfl)).trans this⟩
  · have := mkBase_ok (i := i) h
    exact ⟨_, (if_neg (not_not.2 rfl)).trans this, (if_neg (not_not.2 rfl)).trans this, rfl, rfl⟩

/-- **C105: violated.**  A Markov process can be constructed, but neither it nor its mean, covariance, variance and standard
deviation can be evaluated anywhere: NotImplementedError at all inputs of the right shape. -/
theorem evaluation_unavailable {i o : List ℕ} {P : GP.Process}
    (h : mkMarkovProcess .sde i o = .ok P ∨ mkMarkovSequence .nonlinearGaussian i o = .ok P) (x : Cov.Inp) {b : List ℕ}
    (hx : x.arr.shape = b ++ i) :
    evaluate x.arr = .error .notImplementedError ∧
    P.getMean.bind (fun f => f.call x.arr) = .error .notImplementedError ∧
    P.getCov.bind (fun k => k.call x none) = .error .notImplementedError ∧
    P.getCov.bind (fun k => k.call x (some x)) = .error .notImplementedError ∧
    P.var x = .error .notImplementedError ∧ P.std x = .error .notImplementedError := by
  have hb : mkBase i o = .ok P := by
    rcases h with h | h
    · exact ((if_neg (not_not.2 rfl)).symm.trans h : _)
    · exact ((if_neg (not_not.2 rfl)).symm.trans h : _)
  by_cases ho : 1 < o.length
  · rw [mkBase, GP.mkProcess, if_pos ho] at hb; cases hb
  rw [mkBase_ok (by omega)] at hb
  injection hb with hb
  subst hb
  have hs : Functions.sliceFrom x.arr.shape ((x.arr.shape.length : ℤ) - i.length) = i := by
    rw [hx, Functions.sliceFrom, if_neg (by simp)]
    have : (((b ++ i).length : ℤ) - i.length).toNat = b.length := by simp
    rw [this, List.drop_left]
  have hcov : ∀ x1, x1 = none ∨ x1 = some x → Cov.covCall i i o o kernelEval x x1 = .error .notImplementedError := by
    rintro x1 (rfl | rfl)
    · simp only [Cov.covCall, Cov.checkShapes, Option.map_none]
      rw [if_neg (by rw [hs]; exact not_not.2 rfl)]
      rfl
    · simp only [Cov.covCall, Cov.checkShapes, Option.map_some]
      rw [if_neg (by rw [hs]; exact not_not.2 rfl), if_neg (by rw [hs]; exact not_not.2 rfl), bshape_self]
      rfl
  have hvar : GP.Process.var ⟨i, o, some (Functions.mkLambda (fun x => (evaluate x).map (·.mean)) i o).core,
      some (kernel i o)⟩ x = .error .notImplementedError := by
    simp only [GP.Process.var, GP.Process.getCov, Except.bind, kernel]
    rw [hcov none (Or.inl rfl)]
  refine ⟨rfl, ?_, hcov none (Or.inl rfl), hcov (some x) (Or.inr rfl), hvar, ?_⟩
  · show Functions.checkedCall i o (fun x => (evaluate x).map (·.mean)) x.arr = .error .notImplementedError
    rw [Functions.checkedCall, if_neg (by rw [hs]; exact not_not.2 rfl)]
    rfl
  · rw [GP.Process.std, hvar]
    rfl

example : ∃ P, mkMarkovProcess .sde [] [2] = .ok P ∧ P.inS = [] ∧ P.outS = [2] := by
  obtain ⟨P, h, -, h1, h2⟩ := (constructors .sde [] [2]).2.2.2 (by simp)
  exact ⟨P, h, h1, h2⟩

/-! ## Sampling: which numbers are used -/

/-- **C105.**  Sample paths as callables are not available. -/
theorem paths_unavailable (prior : Prior ℝ (Updated n) ℝ) (ch : CovCholesky n) (z : ℕ → ℝ) (size : List ℕ) (P : GP.Process)
    (d : Dtype) (raw : ℕ → ℝ) :
    sample prior ch z none size = .error .notImplementedError ∧ gpSample P d none size raw = .error .notImplementedError :=
  ⟨rfl, rfl⟩

/-- **C105.**  Requesting `k` sample paths returns what `k` calls for one sample path return one after the other, stacked
along a new first axis. -/
theorem successive_paths (prior : Prior ℝ (Updated n) ℝ) (ch : CovCholesky n) (z : ℕ → ℝ) {args : Arr} {N : ℕ}
    (ha : args.shape = [N + 1]) {k : ℕ} (hk : 0 < k) (A : ℕ → Arr)
    (h : ∀ c < k, sample prior ch (fun m => z (c * ((N + 1) * n) + m)) (some args) [] = .ok (A c)) :
    ∃ B, sample prior ch z (some args) [k] = .ok B ∧ B.shape = [k, N + 1, n] ∧
      ∀ c < k, (A c).shape = [N + 1, n] ∧ ∀ i ≤ N, ∀ j : Fin n, B.get [c, i, j] = (A c).get [i, j] := by
  have hs : args.size = N + 1 := by simp [Arr.size, ha]
  have hl : ((List.range args.size).map args.flat).length = N + 1 := by simp [hs]
  -- the paths
  have hp : ∀ c < k, ∃ l : List (Fin n → ℝ), l.length = N + 1 ∧ A c = rows l ∧
      ((entry (rvs z ([k] ++ args.shape ++ [n])) c).bind fun b =>
        path prior ch b ((List.range args.size).map args.flat)) = .ok l := by
    intro c hc
    have h1 := h c hc
    rw [sample, sampleAtInput, atleast1d_one ha] at h1
    simp only [Arr.ndim, ha, List.length_singleton, Nat.lt_irrefl, if_false, if_true, List.nil_append] at h1
    rw [path_eq prior ch (by rfl) hl] at h1
    have e : entry (rvs z ([k] ++ args.shape ++ [n])) c = .ok ⟨[N + 1, n], fun idx => z (ravel [k, N + 1, n] (c :: idx))⟩ := by
      rw [ha]
      simp only [entry, rvs, List.singleton_append, List.cons_append, if_pos hc, List.nil_append]
    rw [e]
    simp only [Except.bind]
    rw [path_eq prior ch (by rfl) hl]
    have e2 : (fun (i : ℕ) (j : Fin n) => (⟨[N + 1, n], fun idx => z (ravel [k, N + 1, n] (c :: idx))⟩ : Arr).get [i, ↑j])
        = fun (i : ℕ) (j : Fin n) => (rvs (fun m => z (c * ((N + 1) * n) + m)) ([N + 1] ++ [n])).get [i, ↑j] := by
      funext i j
      simp only [rvs, List.singleton_append, ravel_three, ravel_two]
      congr 1
      ring
    rw [e2]
    cases hq : sampleForward prior ch N (fun (i : ℕ) (j : Fin n) =>
        (rvs (fun m => z (c * ((N + 1) * n) + m)) ([N + 1] ++ [n])).get [i, ↑j])
        (fun k => ((List.range args.size).map args.flat).getD k 0) prior.initrv with
    | error e => rw [hq] at h1; cases h1
    | ok l =>
      rw [hq] at h1
      injection h1 with h1
      exact ⟨l, sampleForward_length hq, h1.symm, rfl⟩
  choose! l hl1 hl2 hl3 using hp
  obtain ⟨B, hB, hs1, hs2⟩ := stack_map hk l hl1
  refine ⟨B, ?_, hs1, fun c hc => ⟨?_, fun i _ j => ?_⟩⟩
  · rw [sample, sampleAtInput, atleast1d_one ha]
    simp only [Arr.ndim, ha, List.length_singleton, Nat.lt_irrefl, if_false]
    rw [if_neg (by simp)]
    simp only [List.getD_cons_zero, bind]
    rw [← ha, mapM_eq (g := l) fun c hc => hl3 c (List.mem_range.1 hc)]
    exact hB
  · rw [hl2 c hc]; simp [rows, hl1 c hc]
  · rw [hs2 c hc i j, hl2 c hc]

/-- **C105.**  For independent standard normal numbers and a linear Gaussian process: the `k` requested sample paths are
independent and have the same distribution, that of a single sample path; the returned array has the documented shape. -/
theorem paths_independent (t0 : ℝ) (init : Updated n) (disc : ℝ → Transition n n) (ch : CovCholesky n) {args : Arr} {N : ℕ}
    (ha : args.shape = [N + 1]) {k : ℕ} (hk : 0 < k) {Ω : Type*} {mΩ : MeasurableSpace Ω} {P : Measure Ω} {z : ℕ → Ω → ℝ}
    (hz : StdNormals P z) :
    ∃ X : ℕ → ℕ → Ω → Fin n → ℝ,
      (∀ ω, ∃ B, sample (classicPrior t0 init disc) ch (fun m => z m ω) (some args) [k] = .ok B ∧ B.shape = [k, N + 1, n] ∧
        ∀ c < k, ∀ i ≤ N, ∀ j : Fin n, B.get [c, i, j] = X c i ω j) ∧
      (∀ ω, ∃ B, sample (classicPrior t0 init disc) ch (fun m => z m ω) (some args) [] = .ok B ∧ B.shape = [N + 1, n] ∧
        ∀ i ≤ N, ∀ j : Fin n, B.get [i, j] = X 0 i ω j) ∧
      iIndepFun (fun c ω (i : Fin (N + 1)) => X c i ω) P ∧
      (∀ c, P.map (fun ω (i : Fin (N + 1)) => X c i ω) = P.map fun ω (i : Fin (N + 1)) => X 0 i ω) ∧
      (init.cov.PosSemidef → ∀ c, IsNormal P (X c 0) init.mean init.cov) ∧
      (init.cov = 0 → ch.factor 0 = 0 → (∀ i < N, (disc (args.get [i + 1] - args.get [i])).noise.cov.PosSemidef) →
        ∀ c, MarkovChain P N init (fun i => disc (args.get [i + 1] - args.get [i])) (X c)) := by
  have := hz.indep.isProbabilityMeasure
  obtain ⟨hind, hlaw⟩ := blocks hz (place_injective N n)
  have hZ : ∀ c, Measurable fun ω (p : FBase n N) => z (place N n (c, p)) ω := fun c => measurable_pi_iff.2 fun p => hz.meas _
  have hG : Measurable fun (x : FBase n N → ℝ) (i : Fin (N + 1)) => fsamp ch init (steps disc args) (fbase N x) i :=
    measurable_pi_iff.2 fun i => measurable_fsamp N ch init _ i
  have hnum : ∀ (c : ℕ) (ω : Ω) (b : ℕ → Fin n → ℝ), (∀ i (j : Fin n), b i j = z (j + n * (i + (N + 1) * c)) ω) → ∀ i ≤ N,
      fsamp ch init (steps disc args) b i
        = fsamp ch init (steps disc args) (fbase N fun p => z (place N n (c, p)) ω) i := by
    intro c ω b hb i hi
    refine fsamp_congr ch init _ (N := N) (fun i hi => ?_) i hi
    funext j
    rw [hb]
    simp only [fbase, place]
    rw [fbase_val hi]
  have hone : ∀ (c : ℕ) (ω : Ω), ∃ B, sample (classicPrior t0 init disc) ch (fun m => z (c * ((N + 1) * n) + m) ω) (some args) []
      = .ok B ∧ B.shape = [N + 1, n] ∧ ∀ i ≤ N, ∀ j : Fin n,
        B.get [i, j] = fsamp ch init (steps disc args) (fbase N fun p => z (place N n (c, p)) ω) i j := by
    intro c ω
    refine ⟨rows ((List.range (N + 1)).map (fsamp ch init (steps disc args) fun i j =>
      (rvs (fun m => z (c * ((N + 1) * n) + m) ω) [N + 1, n]).get [i, j])), ?_, by simp [rows], fun i hi j => ?_⟩
    · rw [sample, sampleAtInput, atleast1d_one ha]
      simp only [Arr.ndim, ha, List.length_singleton, Nat.lt_irrefl, if_false, if_true, List.nil_append]
      rw [path_args t0 init disc ch (N := N) rfl ha]
      rfl
    · rw [rows_get (by simp; omega)]
      simp only [List.getElem_map, List.getElem_range]
      rw [hnum c ω _ (fun i j => ?_) i hi]
      simp only [rvs, ravel_two]
      congr 1
      ring
  refine ⟨fun c i ω => fsamp ch init (steps disc args) (fbase N fun p => z (place N n (c, p)) ω) i, fun ω => ?_, fun ω => ?_,
    ?_, fun c => ?_, fun hC c => ?_, fun hinit h0 hQ c => ?_⟩
  · choose A hA1 hA2 hA3 using fun c => hone c ω
    obtain ⟨B, h1, h2, h3⟩ := successive_paths (classicPrior t0 init disc) ch (fun m => z m ω) ha hk A fun c _ => hA1 c
    exact ⟨B, h1, h2, fun c hc i hi j => ((h3 c hc).2 i hi j).trans (hA3 c i hi j)⟩
  · obtain ⟨B, h1, h2, h3⟩ := hone 0 ω
    refine ⟨B, ?_, h2, h3⟩
    simpa only [zero_mul, zero_add] using h1
  · exact hind.comp (fun _ x (i : Fin (N + 1)) => fsamp ch init (steps disc args) (fbase N x) i) fun _ => hG
  · exact law_comp (hZ c).aemeasurable (hZ 0).aemeasurable ((hlaw c).trans (hlaw 0).symm) hG
  · have := fbase_normal N 0 ch init.mean init.cov hC
    rw [← hlaw c] at this
    exact isNormal_comp (X := fun x : FBase n N → ℝ => fsamp ch init (steps disc args) (fbase N x) 0) (hZ c)
      (measurable_fsamp N ch init _ 0) this
  · exact chain_comp (hZ c) (hlaw c) init (steps disc args) ch hinit h0 hQ

/-- There are independent standard normal numbers. -/
theorem exists_stdNormals : ∃ (P : Measure (ℕ → ℝ)) (z : ℕ → (ℕ → ℝ) → ℝ), StdNormals P z :=
  ⟨Measure.infinitePi fun _ => gaussianReal 0 1, fun m ω => ω m, fun m => measurable_pi_apply m,
    iIndepFun_infinitePi (X := fun _ x => x) fun _ => measurable_id, fun m => Measure.infinitePi_map_eval _ m⟩

/-! ## Sampling: sizes with several axes, locations -/

/-- **C105: violated.**  A size with two or more axes: with a single location all axes but the first are ignored, with several
locations the call raises ValueError. -/
theorem nested_sizes (prior : Prior ℝ (Updated n) ℝ) (ch : CovCholesky n) (z : ℕ → ℝ) {args : Arr} {N : ℕ}
    (ha : args.shape = [N + 1]) (hn : 0 < n) {a b : ℕ} (h0 : 0 < a) (h1 : 0 < b) :
    (N = 0 → ∃ B, sample prior ch z (some args) [a, b] = .ok B ∧ B.shape = [a, 1, n]) ∧
    (N ≠ 0 → sample prior ch z (some args) [a, b] = .error .valueError) := by
  have hs : args.size = N + 1 := by simp [Arr.size, ha]
  have he : ∀ c < a, entry (rvs z ([a, b] ++ args.shape ++ [n])) c
      = .ok ⟨[b, N + 1, n], fun idx => z (ravel [a, b, N + 1, n] (c :: idx))⟩ := by
    intro c hc
    rw [ha]
    simp only [entry, rvs, List.cons_append, List.nil_append, if_pos hc]
  have he2 : ∀ c, entry (⟨[b, N + 1, n], fun idx => z (ravel [a, b, N + 1, n] (c :: idx))⟩ : Arr) 0
      = .ok ⟨[N + 1, n], fun idx => z (ravel [a, b, N + 1, n] (c :: 0 :: idx))⟩ := by
    intro c
    simp only [entry, if_pos h1]
  constructor
  · intro hN
    subst hN
    have hp : ∀ c ∈ List.range a, ((entry (rvs z ([a, b] ++ args.shape ++ [n])) c).bind fun b =>
        path prior ch b ((List.range args.size).map args.flat))
        = .ok [transformBase ch prior.initrv fun j => (⟨[0 + 1, n], fun idx => z (ravel [a, b, 0 + 1, n] (c :: 0 :: idx))⟩ : Arr).flat j] := by
      intro c hc
      rw [he c (List.mem_range.1 hc)]
      simp only [Except.bind, path, drawFrom, he2 c, bind]
      rw [if_pos (by simp [Arr.size]), hs]
      rfl
    obtain ⟨B, hB, hB2, -⟩ := stack_map h0 (fun c => [transformBase ch prior.initrv fun j : Fin n =>
      (⟨[0 + 1, n], fun idx => z (ravel [a, b, 0 + 1, n] (c :: 0 :: idx))⟩ : Arr).flat j]) (M := 1) fun c _ => rfl
    refine ⟨B, ?_, hB2⟩
    rw [sample, sampleAtInput, atleast1d_one ha]
    simp only [Arr.ndim, ha, List.length_singleton, Nat.lt_irrefl, if_false]
    rw [if_neg (by simp)]
    simp only [List.getD_cons_zero, bind]
    rw [← ha, mapM_eq hp]
    exact hB
  · intro hN
    rw [sample, sampleAtInput, atleast1d_one ha]
    simp only [Arr.ndim, ha, List.length_singleton, Nat.lt_irrefl, if_false]
    rw [if_neg (by simp)]
    simp only [List.getD_cons_zero, bind]
    obtain ⟨a', rfl⟩ : ∃ m, a = m + 1 := ⟨a - 1, by omega⟩
    rw [List.range_succ_eq_map, ← ha, mapM_head_error (e := .valueError)]
    · rfl
    · rw [he 0 (by omega)]
      simp only [Except.bind, path, drawFrom, he2 0, bind]
      rw [if_neg]
      simp only [Arr.size, List.prod_cons, List.prod_nil, mul_one]
      intro h
      have : (N + 1) * n = 1 * n := by rw [one_mul]; exact h
      have := Nat.eq_of_mul_eq_mul_right hn this
      omega

/-- **C105: violated.**  A single location gives arrays with an axis for the locations too. -/
theorem scalar_location (prior : Prior ℝ (Updated n) ℝ) (ch : CovCholesky n) (z : ℕ → ℝ) (args : Arr) (h : args.shape = [])
    (size : List ℕ) :
    sample prior ch z (some args) size = sample prior ch z (some ⟨[1], fun _ => args.get []⟩) size := by
  have e : atleast1d args = ⟨[1], fun _ => args.get []⟩ := by rw [atleast1d, if_pos h]
  rw [sample, sample, sampleAtInput, sampleAtInput, e, atleast1d_one (N := 1) rfl]

/-- **C105.**  What is rejected: locations with more than one axis (ValueError), no location (IndexError), zero sample paths
(ValueError). -/
theorem sample_rejects (prior : Prior ℝ (Updated n) ℝ) (ch : CovCholesky n) (z : ℕ → ℝ) (args : Arr) :
    (∀ size, 1 < args.ndim → sample prior ch z (some args) size = .error .valueError) ∧
    (args.shape = [0] → sample prior ch z (some args) [] = .error .indexError ∧
      ∀ k, 0 < k → sample prior ch z (some args) [k] = .error .indexError) ∧
    (args.ndim ≤ 1 → sample prior ch z (some args) [0] = .error .valueError) := by
  refine ⟨fun size h => ?_, fun h => ⟨?_, fun k hk => ?_⟩, fun h => ?_⟩
  · have : args.shape ≠ [] := by intro e; rw [Arr.ndim, e] at h; simp at h
    rw [sample, sampleAtInput, atleast1d, if_neg this]
    exact if_pos h
  · rw [sample, sampleAtInput, atleast1d_one h]
    simp only [Arr.ndim, h, List.length_singleton, Nat.lt_irrefl, if_false, if_true]
    rfl
  · rw [sample, sampleAtInput, atleast1d_one h]
    simp only [Arr.ndim, h, List.length_singleton, Nat.lt_irrefl, if_false]
    rw [if_neg (by simp)]
    obtain ⟨k, rfl⟩ : ∃ m, k = m + 1 := ⟨k - 1, by omega⟩
    simp only [List.getD_cons_zero, bind]
    rw [List.range_succ_eq_map, mapM_head_error (e := .indexError)]
    · rfl
    · have he : entry (rvs z ([k + 1] ++ [0] ++ [n])) 0 = .ok ⟨[0, n], fun idx => z (ravel [k + 1, 0, n] (0 :: idx))⟩ := by
        simp only [entry, rvs, List.cons_append, List.nil_append, if_pos (Nat.succ_pos k)]
      rw [he]
      rfl
  · have : ¬ 1 < (atleast1d args).ndim := by
      rw [atleast1d]
      split
      · simp [Arr.ndim]
      · omega
    rw [sample, sampleAtInput]
    simp only [if_neg this]
    rfl

/-- Moving all locations by `s`. -/
def shift (s : ℝ) (a : Arr) : Arr := a.map fun t => t + s

theorem pathFrom_shift (t0 t1 : ℝ) (init : Updated n) (disc : ℝ → Transition n n) (ch : CovCholesky n) (base : Arr) (s : ℝ) :
    ∀ (ts : List ℝ) (i : ℕ) (x : Fin n → ℝ) (t : ℝ),
      pathFrom (classicPrior t1 init disc) ch base i x (t + s) (ts.map (· + s)) = pathFrom (classicPrior t0 init disc) ch base i x t ts
  | [], _, _, _ => rfl
  | t' :: ts, i, x, t => by
    simp only [List.map_cons, pathFrom, add_sub_add_right_eq_sub]
    simp only [pathFrom_shift t0 t1 init disc ch base s ts]
    rfl

/-- **C105: violated.**  The samples depend neither on the initial location of the process nor on where the locations begin:
the first state is always drawn from the initial random variable. -/
theorem start_ignored (t0 t1 : ℝ) (init : Updated n) (disc : ℝ → Transition n n) (ch : CovCholesky n) (z : ℕ → ℝ) (args : Arr)
    (s : ℝ) (size : List ℕ) :
    sample (classicPrior t1 init disc) ch z (some (shift s args)) size
      = sample (classicPrior t0 init disc) ch z (some args) size := by
  have e : atleast1d (shift s args) = shift s (atleast1d args) := by
    by_cases h : args.shape = []
    · rw [atleast1d, atleast1d, if_pos h, if_pos (show (shift s args).shape = [] from h)]
      rfl
    · rw [atleast1d, atleast1d, if_neg h, if_neg (show (shift s args).shape ≠ [] from h)]
  have hp : ∀ (base a : Arr), path (classicPrior t1 init disc) ch base ((List.range (shift s a).size).map (shift s a).flat)
      = path (classicPrior t0 init disc) ch base ((List.range a.size).map a.flat) := by
    intro base a
    have hl : (List.range (shift s a).size).map (shift s a).flat = ((List.range a.size).map a.flat).map (· + s) := by
      rw [List.map_map]
      rfl
    rw [hl]
    simp only [path]
    cases h : (List.range a.size).map a.flat with
    | nil => rfl
    | cons t ts =>
      simp only [List.map_cons, List.getD_cons_zero, List.tail_cons, pathFrom_shift t0 t1 init disc ch base s]
      rfl
  simp only [sample, sampleAtInput, e, hp]
  rfl

/-- A random walk in continuous time: increments over `dt` have variance `dt`. -/
noncomputable def walk (dt : ℝ) : Transition 1 1 := ⟨1, ⟨0, dt • 1, √dt • 1⟩⟩

/-- One location, at time 1. -/
def atOne : Arr := ⟨[1], fun _ => 1⟩

/-- **C105: violated.**  For a random walk that starts at time 0 with variance 1, the state at time 1 has variance 2, but the
sample of it has variance 1. -/
theorem late_start_wrong (ch : CovCholesky 1) {Ω : Type*} {mΩ : MeasurableSpace Ω} {P : Measure Ω} {z : ℕ → Ω → ℝ}
    (hz : StdNormals P z) :
    (∀ {Ω' : Type} {mΩ' : MeasurableSpace Ω'} {P' : Measure Ω'} (X : ℕ → Ω' → Fin 1 → ℝ),
      MarkovChain P' 1 ⟨0, 1⟩ (fun _ => walk (1 - 0)) X → IsNormal P' (X 1) 0 ((2 : ℝ) • 1)) ∧
    ∃ X : Ω → Fin 1 → ℝ, IsNormal P X 0 1 ∧
      (∀ ω, ∃ B, sample (classicPrior 0 ⟨0, 1⟩ walk) ch (fun m => z m ω) (some atOne) [] = .ok B ∧ B.shape = [1, 1] ∧
        B.get [0, 0] = X ω 0) ∧ ¬ IsNormal P X 0 ((2 : ℝ) • 1) := by
  have hw : walk (1 - 0) = unitStep := by simp [walk, unitStep]
  constructor
  · intro Ω' mΩ' P' X h
    rw [hw] at h
    exact (forward_samples_wrong ch).1 X h
  · obtain ⟨X, -, h1, -, -, h2, -⟩ := paths_independent 0 ⟨0, 1⟩ walk ch (args := atOne) (N := 0) rfl (k := 1) one_pos hz
    have h3 := h2 Matrix.PosSemidef.one 0
    refine ⟨X 0 0, h3, fun ω => ?_, fun h => ?_⟩
    · obtain ⟨B, hB, hs, hv⟩ := h1 ω
      exact ⟨B, hB, hs, hv 0 le_rfl 0⟩
    · have e1 := h.cov 0 0
      have e2 := h3.cov 0 0
      rw [e1] at e2
      simp at e2

/-- Three sample paths of the random walk from 0 at the locations 0, 1, 2. -/
example : ∃ (P : Measure (ℕ → ℝ)) (z : ℕ → (ℕ → ℝ) → ℝ) (ch : CovCholesky 1) (X : ℕ → ℕ → (ℕ → ℝ) → Fin 1 → ℝ),
    (∀ ω, ∃ B, sample (classicPrior 0 ⟨0, 0⟩ walk) ch (fun m => z m ω) (some ⟨[3], fun idx => (idx.getD 0 0 : ℕ)⟩) [3] = .ok B ∧
      B.shape = [3, 3, 1] ∧ ∀ c < 3, ∀ i ≤ 2, ∀ j : Fin 1, B.get [c, i, j] = X c i ω j) ∧
    iIndepFun (fun c ω (i : Fin 3) => X c i ω) P ∧ ∀ c, MarkovChain P 2 ⟨0, 0⟩ (fun _ => unitStep) (X c) := by
  obtain ⟨P, z, hz⟩ := exists_stdNormals
  obtain ⟨ch, h0⟩ := exists_covCholesky 1
  have hw : ∀ i : ℕ, walk (((i + 1 : ℕ) : ℝ) - (i : ℕ)) = unitStep := by
    intro i
    have : (((i + 1 : ℕ) : ℝ) - (i : ℕ)) = 1 := by push_cast; ring
    rw [this]
    simp [walk, unitStep]
  obtain ⟨X, h1, -, h2, -, -, h3⟩ := paths_independent 0 ⟨0, 0⟩ walk ch (args := ⟨[3], fun idx => (idx.getD 0 0 : ℕ)⟩) (N := 2) rfl
    (k := 3) (by norm_num) hz
  refine ⟨P, z, ch, X, h1, h2, fun c => ?_⟩
  have h4 := h3 rfl h0 (fun i _ => by
    simp only [List.getD_cons_zero]
    rw [hw i]
    exact Matrix.PosSemidef.one) c
  have e : (fun i : ℕ => walk ((([i + 1] : List ℕ).getD 0 0 : ℕ) - (([i] : List ℕ).getD 0 0 : ℕ))) = fun _ => unitStep := by
    funext i
    exact hw i
  simpa only [e] using h4

/-! ## Gaussian processes -/

/-- **C105.**  Samples of a Gaussian process at points of shape `b` with `size`: the draws in order, with shape
`size + b + output shape`, except that axes of length one of `size` are lost. -/
theorem gp_sample {f : Functions.Core} {k : Cov.Core} {i o : List ℕ} {μ : Cov.Point → List ℕ → ℝ}
    {κ : Cov.Point → Cov.Point → List ℕ → List ℕ → ℝ}
    (hm : GP.IsMean f i o μ) (hk : GP.IsCov k i o κ) (ho : o.length ≤ 1) (hi : i.prod ≠ 0) {x : Cov.Inp} {b : List ℕ}
    (hx : x.arr.shape = b ++ i) (hf : x.int = false) (h1 : 0 < (b ++ o).length) (h2 : (b ++ o).length ≤ 2)
    (h3 : (b ++ o).prod ≠ 1) (size : List ℕ) (raw : ℕ → ℝ) :
    ∃ P, GP.mkGP (.given f) (.given k) = .ok P ∧
      gpSample P .f64 (some x) size raw = .ok ⟨size.filter (· ≠ 1) ++ (b ++ o), fun k => some (raw k)⟩ ∧
      (size.filter (· ≠ 1) ++ (b ++ o) = size ++ (b ++ o) ↔ 1 ∉ size) := by
  obtain ⟨P, hP, -, h⟩ := GP.call_outcome hm hk ho hi hx hf
  obtain ⟨N, hN, hs, -⟩ := h h1 h2
  have hwf : N.WF := by
    have hN' := hN
    simp only [GP.Process.call] at hN'
    cases e1 : P.getMean with
    | error e => rw [e1] at hN'; cases hN'
    | ok g =>
      rw [e1] at hN'
      simp only [Except.bind] at hN'
      cases e2 : g.call x.arr with
      | error e => rw [e2] at hN'; cases hN'
      | ok m =>
        rw [e2] at hN'
        simp only at hN'
        cases e3 : P.getCov with
        | error e => rw [e3] at hN'; cases hN'
        | ok c =>
          rw [e3] at hN'
          simp only at hN'
          cases e4 : Cov.matrix c x none with
          | error e => rw [e4] at hN'; cases hN'
          | ok C =>
            rw [e4] at hN'
            exact (mkNormal_ok hN').2.1
  have hne : N.mean.shape ≠ [] := by rw [hs]; intro e; rw [e] at h1; simp at h1
  have := dense_sample hwf hne (by rw [Arr.size, hs]; exact h3) (Or.inl rfl) size raw
  rw [hs] at this
  refine ⟨P, hP, ?_, this.2⟩
  simp only [gpSample, hN, Except.bind]
  exact this.1

example (raw : ℕ → ℝ) : ∃ P, GP.mkGP (.given (Functions.mkZero [] [2]).core) (.given (GP.firstCov [] 2).core) = .ok P ∧
    gpSample P .f64 (some ⟨⟨[3], fun _ => 0⟩, false⟩) [1, 5] raw = .ok ⟨[5, 3, 2], fun k => some (raw k)⟩ := by
  obtain ⟨P, h1, h2, -⟩ := gp_sample (GP.zero_isMean [] [2]) (GP.firstCov_isCov [] 2) (by simp) (by simp)
    (x := ⟨⟨[3], fun _ => 0⟩, false⟩) (b := [3]) rfl rfl (by simp) (by simp) (by simp) [1, 5] raw
  exact ⟨P, h1, h2⟩

end Probnum.Markov
