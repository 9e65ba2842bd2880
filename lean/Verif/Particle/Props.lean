import Mathlib.Algebra.Order.Chebyshev
import Mathlib.Tactic.FieldSimp
import Mathlib.Tactic.Positivity
import Verif.Particle.Model
import Verif.RandVars.PropsCategorical

/-!
# C50: weights, particle numbers and resampling of the particle filter
-/

namespace Probnum.Particle

open RandVars

variable {ν D M : Type} {f : PF ν D M} {R : Oracle ν}

/-! ### Lemmas -/

theorem advanceAll_length (f : PF ν D M) (R : Oracle ν) (k : ℕ) (o : Obs D M) (tOld : ℝ) :
    ∀ (i : ℕ) (l : List (Pt × ℝ)), (f.advanceAll R k o tOld i l).length = l.length
  | _, [] => rfl
  | i, (x, w) :: l => by rw [PF.advanceAll, List.length_cons, advanceAll_length f R k o tOld (i + 1) l, List.length_cons]

theorem advanceAll_pos (f : PF ν D M) (R : Oracle ν) (k : ℕ) (o : Obs D M) (tOld : ℝ) :
    ∀ (i : ℕ) (l : List (Pt × ℝ)), ∀ e ∈ f.advanceAll R k o tOld i l, 0 < e.2
  | _, [], e, h => by simp [PF.advanceAll] at h
  | i, (x, w) :: l, e, h => by
    rw [PF.advanceAll, List.mem_cons] at h
    rcases h with rfl | h
    · exact Real.exp_pos _
    · exact advanceAll_pos f R k o tOld (i + 1) l e h

theorem update_length (f : PF ν D M) (R : Oracle ν) (k : ℕ) (o : Obs D M) (tOld : ℝ) (l : List (Pt × ℝ)) :
    (f.update R k o tOld l).length = l.length := by
  rw [PF.update, normalise, List.length_map, advanceAll_length]

theorem sum_pos {l : List (Pt × ℝ)} (hne : l ≠ []) (h : ∀ e ∈ l, 0 < e.2) : 0 < (l.map (·.2)).sum := by
  refine List.sum_pos _ (fun x hx => ?_) (by simpa using hne)
  obtain ⟨e, he, rfl⟩ := List.mem_map.1 hx
  exact h e he

theorem normalise_pos {l : List (Pt × ℝ)} (h : ∀ e ∈ l, 0 < e.2) : ∀ e ∈ normalise l, 0 < e.2 := by
  intro e he
  obtain ⟨e', he', rfl⟩ := List.mem_map.1 he
  exact div_pos (h e' he') (sum_pos (List.ne_nil_of_mem he') h)

theorem normalise_sum {l : List (Pt × ℝ)} (hne : l ≠ []) (h : ∀ e ∈ l, 0 < e.2) : ((normalise l).map (·.2)).sum = 1 := by
  have hs := sum_pos hne h
  have : (normalise l).map (·.2) = (l.map (·.2)).map fun w => w * ((l.map (·.2)).sum)⁻¹ := by
    rw [normalise, List.map_map, List.map_map]; rfl
  rw [this, List.sum_map_mul_right, List.map_id', mul_inv_cancel₀ hs.ne']

/-- Weights that are positive and sum to one. -/
def Weights (n : ℕ) (p : List ℝ) : Prop := p.length = n ∧ (∀ w ∈ p, 0 < w) ∧ p.sum = 1

theorem update_weights (f : PF ν D M) (R : Oracle ν) (k : ℕ) (o : Obs D M) (tOld : ℝ) {l : List (Pt × ℝ)} (hne : l ≠ []) :
    Weights l.length ((f.update R k o tOld l).map (·.2)) := by
  have hne' : f.advanceAll R k o tOld 0 l ≠ [] := fun h => hne (List.length_eq_zero_iff.1 (by
    rw [← advanceAll_length f R k o tOld 0 l, h]; rfl))
  refine ⟨by rw [List.length_map, update_length], ?_, normalise_sum hne' (advanceAll_pos f R k o tOld 0 l)⟩
  intro w hw
  obtain ⟨e, he, rfl⟩ := List.mem_map.1 hw
  exact normalise_pos (advanceAll_pos f R k o tOld 0 l) e he

/-! ### The effective number of particles -/

/-- The effective number of events lies between 1 and the number of events. -/
theorem effective_bounds {p : List ℝ} {n : ℕ} (h : Weights n p) : 1 ≤ effective p ∧ effective p ≤ n := by
  obtain ⟨h1, h2, h3⟩ := h
  have hq : (p.map fun w => w ^ 2).sum ≤ 1 := by
    have : (p.map fun w => w ^ 2).sum ≤ p.sum := by
      have hle : ∀ w ∈ p, w ^ 2 ≤ id w := by
        intro w hw
        have : w ≤ 1 := by rw [← h3]; exact List.single_le_sum (fun x hx => (h2 x hx).le) w hw
        have := h2 w hw
        simp only [id]; nlinarith
      have := List.sum_le_sum hle
      rwa [List.map_id] at this
    rwa [h3] at this
  have hne : p ≠ [] := fun h => by rw [h] at h3; simp at h3
  have hpos : 0 < (p.map fun w => w ^ 2).sum := by
    refine List.sum_pos _ (fun x hx => ?_) (by simpa using hne)
    obtain ⟨w, hw, rfl⟩ := List.mem_map.1 hx
    have := h2 w hw
    positivity
  refine ⟨by rw [effective, le_div_iff₀ hpos, one_mul]; exact hq, ?_⟩
  rw [effective, div_le_iff₀ hpos]
  have hcs : p.sum ^ 2 ≤ p.length * (p.map fun w => w ^ 2).sum := by
    have e1 : p.sum = ∑ i : Fin p.length, p[i] := by
      rw [← List.sum_ofFn]; congr 1; simp
    have e2 : (p.map fun w => w ^ 2).sum = ∑ i : Fin p.length, p[i] ^ 2 := by
      rw [← List.sum_ofFn]
      congr 1
      refine List.ext_getElem (by simp) fun i h1 h2 => by simp
    rw [e1, e2]
    have := sq_sum_le_card_mul_sum_sq (s := (Finset.univ : Finset (Fin p.length))) (f := fun i => p[i])
    simpa using this
  rw [h3, h1, one_pow] at hcs
  exact hcs

/-! ### What is yielded at every step -/

/-- Weighted particles after the first `k + 1` observations (ignoring resampling), as the loop carries them. -/
noncomputable def carried (f : PF ν D M) (R : Oracle ν) : ℕ → ℝ → List (Pt × ℝ) → List (Obs D M) → ℕ → List (Pt × ℝ)
  | _, _, l, [], _ => l
  | k, tOld, l, o :: _, 0 => f.update R k o tOld l
  | k, tOld, l, o :: r, j + 1 => carried f R (k + 1) o.t (f.update R k o tOld l) r j

theorem carried_length (f : PF ν D M) (R : Oracle ν) : ∀ (r : List (Obs D M)) (k : ℕ) (tOld : ℝ) (l : List (Pt × ℝ)) (j : ℕ),
    (carried f R k tOld l r j).length = l.length
  | [], _, _, _, j => by cases j <;> rfl
  | o :: r, k, tOld, l, 0 => update_length f R k o tOld l
  | o :: r, k, tOld, l, j + 1 => by
    rw [carried, carried_length f R r (k + 1) o.t _ j, update_length]

theorem carried_weights (f : PF ν D M) (R : Oracle ν) : ∀ (r : List (Obs D M)) (k : ℕ) (tOld : ℝ) (l : List (Pt × ℝ)) (j : ℕ),
    l ≠ [] → j < r.length → Weights l.length ((carried f R k tOld l r j).map (·.2))
  | [], _, _, _, j, _, h => by simp at h
  | o :: r, k, tOld, l, 0, hne, _ => update_weights f R k o tOld hne
  | o :: r, k, tOld, l, j + 1, hne, h => by
    have hl := update_length f R k o tOld l
    have := carried_weights f R r (k + 1) o.t (f.update R k o tOld l) j (by
      intro h0; rw [h0] at hl; exact hne (List.length_eq_zero_iff.1 hl.symm)) (by simpa using h)
    rw [hl] at this
    exact this

/-- The loop yields one random variable per observation: the output for the particles carried on. -/
theorem loop_get (f : PF ν D M) (R : Oracle ν) : ∀ (r : List (Obs D M)) (k : ℕ) (tOld : ℝ) (l : List (Pt × ℝ))
    (out : List (Categorical ℝ Unit)), f.loop R k tOld l r = .ok out → out.length = r.length ∧
      ∀ j (h : j < out.length), f.output R (k + j) (carried f R k tOld l r j) = .ok out[j]
  | [], _, _, _, out, h => by cases h; exact ⟨rfl, by simp⟩
  | o :: r, k, tOld, l, out, h => by
    rw [PF.loop] at h
    rcases h1 : f.output R k (f.update R k o tOld l) with e | rv
    · rw [h1] at h; cases h
    · rw [h1] at h
      rcases h2 : f.loop R (k + 1) o.t (f.update R k o tOld l) r with e | rest
      · simp only [Except.bind, h2] at h; cases h
      · simp only [Except.bind, h2] at h
        obtain rfl := Except.ok.inj h
        have ih := loop_get f R r (k + 1) o.t _ rest h2
        refine ⟨by simp [ih.1], fun j hj => ?_⟩
        rcases j with _ | j
        · exact h1
        · have := ih.2 j (by simpa using hj)
          rw [show k + 1 + j = k + (j + 1) by omega] at this
          exact this

theorem loop_ok (f : PF ν D M) (R : Oracle ν) (hd : ∀ k, (R.draws k).length = f.num ∧ ∀ i ∈ R.draws k, i < f.num)
    (hn : 0 < f.num) : ∀ (r : List (Obs D M)) (k : ℕ) (tOld : ℝ) (l : List (Pt × ℝ)), l.length = f.num →
      ∃ out, f.loop R k tOld l r = .ok out
  | [], _, _, _, _ => ⟨_, rfl⟩
  | o :: r, k, tOld, l, hl => by
    have hl' := (update_length f R k o tOld l).trans hl
    obtain ⟨rest, h2⟩ := loop_ok f R hd hn r (k + 1) o.t _ hl'
    have hmk : Categorical.make ((f.update R k o tOld l).map (·.2)) ((f.update R k o tOld l).map (·.1)) () =
        .ok ⟨(f.update R k o tOld l).map (·.2), (f.update R k o tOld l).map (·.1), ()⟩ := by
      rw [Categorical.make, if_neg]
      intro h
      rw [List.map_eq_nil_iff] at h
      rw [h] at hl'
      simp at hl'; omega
    have h1 : ∃ rv, f.output R k (f.update R k o tOld l) = .ok rv := by
      rw [PF.output, hmk]
      simp only [Except.bind]
      split
      · obtain ⟨c', hc', _⟩ := resample_correct (c := ⟨(f.update R k o tOld l).map (·.2), (f.update R k o tOld l).map (·.1), ()⟩)
          (by simp) (by
            simp only [ne_eq, List.map_eq_nil_iff]
            intro h; rw [h] at hl'; simp at hl'; omega)
          (draws := R.draws k) (by intro i hi; simp only [List.length_map, hl']; exact (hd k).2 i hi)
          (by simp [hl', (hd k).1])
        exact ⟨c', hc'⟩
      · exact ⟨_, rfl⟩
    obtain ⟨rv, h1⟩ := h1
    refine ⟨rv :: rest, ?_⟩
    rw [PF.loop]
    simp only [h1, Except.bind, h2]
    rfl

/-- The draws of the resampling indices are what `rng.choice` returns: as many indices as particles. -/
def Fits (f : PF ν D M) (R : Oracle ν) : Prop := ∀ k, (R.draws k).length = f.num ∧ ∀ i ∈ R.draws k, i < f.num

/-- Data with increasing locations are filtered; the result has one state per observation. -/
theorem filter_ok (hR : Fits f R) (hn : 0 < f.num) {particles : List Pt} (hp : particles.length = f.num) {data : List (Obs D M)}
    (hne : data ≠ []) (hinc : Increasing (data.map (·.t))) :
    ∃ out, f.filter R particles data = .ok out ∧ out.length = data.length := by
  obtain ⟨out, h⟩ := loop_ok f R hR hn data 0 f.initarg (f.start particles) (by rw [PF.start, List.length_map, hp])
  refine ⟨out, ?_, (loop_get f R data 0 f.initarg _ out h).1⟩
  rw [PF.filter, if_neg (by simpa using hinc), if_neg hne]
  exact h

/-- Repeated or unordered locations raise `ValueError`. -/
theorem filter_rejects (f : PF ν D M) (R : Oracle ν) (particles : List Pt) {data : List (Obs D M)}
    (h : ¬ Increasing (data.map (·.t))) : f.filter R particles data = .error .valueError := by
  rw [PF.filter, if_pos h]

/-- What each yielded state is: the weighted particles, resampled exactly if resampling is switched on and the effective
number of particles is below the threshold. -/
theorem filter_states (hR : Fits f R) (hn : 0 < f.num) {particles : List Pt} (hp : particles.length = f.num)
    {data : List (Obs D M)} {out : List (Categorical ℝ Unit)} (h : f.filter R particles data = .ok out) (j : ℕ) (hj : j < out.length) :
    ∃ l : List (Pt × ℝ), l = carried f R 0 f.initarg (f.start particles) data j ∧ Weights f.num (l.map (·.2)) ∧
      (¬ (f.withResampling = true ∧ effective (l.map (·.2)) < f.minEffective) →
        out[j] = ⟨l.map (·.2), l.map (·.1), ()⟩) ∧
      (f.withResampling = true ∧ effective (l.map (·.2)) < f.minEffective →
        out[j] = ⟨(l.map (·.2)).map fun _ => 1 / (f.num : ℝ), (R.draws j).map fun i => (l.map (·.1)).getD i [], ()⟩) := by
  unfold PF.filter at h
  split at h
  · cases h
  · split at h
    · cases h
    · have hg := loop_get f R data 0 f.initarg _ out h
      have hl0 : (f.start particles).length = f.num := by rw [PF.start, List.length_map, hp]
      have hne : f.start particles ≠ [] := fun h0 => by rw [h0] at hl0; simp at hl0; omega
      have hw := carried_weights f R data 0 f.initarg (f.start particles) j hne (by rw [← hg.1]; exact hj)
      rw [hl0] at hw
      have ho := hg.2 j hj
      rw [Nat.zero_add] at ho
      generalize carried f R 0 f.initarg (f.start particles) data j = l at hw ho
      refine ⟨l, rfl, hw, ?_⟩
      have hll : l.length = f.num := by have := hw.1; rwa [List.length_map] at this
      have hmk : Categorical.make (l.map (·.2)) (l.map (·.1)) () = .ok ⟨l.map (·.2), l.map (·.1), ()⟩ := by
        rw [Categorical.make, if_neg]
        intro h
        rw [List.map_eq_nil_iff] at h
        rw [h] at hll
        simp at hll; omega
      rw [PF.output, hmk] at ho
      simp only [Except.bind] at ho
      constructor
      · intro hno
        rw [if_neg hno] at ho
        exact (Except.ok.inj ho).symm
      · intro hyes
        rw [if_pos hyes, Categorical.resample, Categorical.sample, if_neg (by simp)] at ho
        simp only [Except.bind] at ho
        rw [Categorical.make, if_neg] at ho
        · rw [← Except.ok.inj ho]
          simp [hll]
        · intro h0
          rw [List.map_eq_nil_iff] at h0
          have := (hR j).1
          rw [h0] at this
          simp at this; omega

/-- At every step there are as many particles as requested, and the probabilities are positive and sum to one. -/
theorem filter_weights (hR : Fits f R) (hn : 0 < f.num) {particles : List Pt} (hp : particles.length = f.num)
    {data : List (Obs D M)} {out : List (Categorical ℝ Unit)} (h : f.filter R particles data = .ok out) :
    ∀ rv ∈ out, rv.support.length = f.num ∧ Weights f.num rv.probs := by
  intro rv hrv
  obtain ⟨j, hj, rfl⟩ := List.getElem_of_mem hrv
  obtain ⟨l, _, hw, h1, h2⟩ := filter_states hR hn hp h j hj
  have hll : l.length = f.num := by have := hw.1; rwa [List.length_map] at this
  by_cases hc : f.withResampling = true ∧ effective (l.map (·.2)) < f.minEffective
  · rw [h2 hc]
    refine ⟨by simp [(hR j).1], by simp [hll], ?_, ?_⟩
    · intro w hw
      obtain ⟨_, _, rfl⟩ := List.mem_map.1 hw
      have : (0 : ℝ) < f.num := by exact_mod_cast hn
      positivity
    · simp only [List.map_map]
      rw [show ((fun _ => 1 / (f.num : ℝ)) ∘ fun x : Pt × ℝ => x.2) = fun _ => 1 / (f.num : ℝ) from rfl, List.map_const',
        List.sum_replicate, hll, nsmul_eq_mul, mul_one_div_cancel]
      exact_mod_cast hn.ne'
  · rw [h1 hc]
    exact ⟨by simp [hll], hw⟩

/-- Non-positive thresholds switch resampling off, thresholds above one resample after every step (as documented). -/
theorem threshold_documented (hn : 0 < f.num) {p : List ℝ} (hp : Weights f.num p) :
    (f.threshold ≤ 0 → ¬ effective p < f.minEffective) ∧ (1 < f.threshold → effective p < f.minEffective) := by
  have hb := effective_bounds hp
  have hn' : (0 : ℝ) < f.num := by exact_mod_cast hn
  constructor
  · intro h
    have : f.threshold * f.num ≤ 0 := mul_nonpos_of_nonpos_of_nonneg h hn'.le
    rw [PF.minEffective]
    linarith
  · intro h
    rw [PF.minEffective]
    nlinarith

/-! ### How the weights depend on the observations -/

theorem advanceAll_get (f : PF ν D M) (R : Oracle ν) (k : ℕ) (o : Obs D M) (tOld : ℝ) : ∀ (i : ℕ) (l : List (Pt × ℝ)) (m : ℕ)
    (h : m < l.length) (h' : m < (f.advanceAll R k o tOld i l).length),
    (f.advanceAll R k o tOld i l)[m] = f.advance R k o tOld (i + m) l[m].1 l[m].2
  | _, [], _, h, _ => by simp at h
  | i, (x, w) :: l, 0, _, _ => rfl
  | i, (x, w) :: l, m + 1, h, h' => by
    have := advanceAll_get f R k o tOld (i + 1) l m (by simpa using h) (by
      rw [advanceAll_length]; simpa using h)
    rw [show i + 1 + m = i + (m + 1) by omega] at this
    simpa [PF.advanceAll] using this

/-- Specification of sequential importance sampling: likelihood of the new observation times the ratio of dynamics and
importance density times the old weight. -/
noncomputable def sisWeight (f : PF ν D M) (o : Obs D M) (q : Proposal ν) (y : Pt) (w : ℝ) : ℝ :=
  Real.exp (f.loglik o.model o.t y o.data) * (Real.exp (q.logDyn y) / Real.exp (q.logImp y)) * w

/-- One step of sequential importance sampling, before normalisation. -/
noncomputable def sisAll (f : PF ν D M) (R : Oracle ν) (k : ℕ) (o : Obs D M) (tOld : ℝ) : ℕ → List (Pt × ℝ) → List (Pt × ℝ)
  | _, [] => []
  | i, (x, w) :: l =>
    ((f.proposal o tOld x).draw (R.noise k i),
      sisWeight f o (f.proposal o tOld x) ((f.proposal o tOld x).draw (R.noise k i)) w) :: sisAll f R k o tOld (i + 1) l

/-- Sequential importance sampling: the weights after the first `j + 1` observations account for all of them. -/
noncomputable def sis (f : PF ν D M) (R : Oracle ν) : ℕ → ℝ → List (Pt × ℝ) → List (Obs D M) → ℕ → List (Pt × ℝ)
  | _, _, l, [], _ => l
  | k, tOld, l, o :: _, 0 => normalise (sisAll f R k o tOld 0 l)
  | k, tOld, l, o :: r, j + 1 => sis f R (k + 1) o.t (normalise (sisAll f R k o tOld 0 l)) r j

theorem base_advanceAll (hk : f.imp.kind = .base) (k : ℕ) (o : Obs D M) (tOld : ℝ) : ∀ (i : ℕ) (l : List (Pt × ℝ)),
    (∀ e ∈ l, 0 < e.2) → f.advanceAll R k o tOld i l = sisAll f R k o tOld i (l.map fun e => (e.1, e.2 + 1e-14))
  | _, [], _ => rfl
  | i, (x, w) :: l, h => by
    rw [PF.advanceAll, List.map_cons, sisAll, base_advanceAll hk k o tOld (i + 1) l fun e he => h e (by simp [he])]
    congr 1
    have hw : 0 < w := h (x, w) (by simp)
    have hw' : (0 : ℝ) < w + 1e-14 := by positivity
    simp only [PF.advance, logCorrection, hk, sisWeight]
    rw [Real.exp_add, Real.exp_add, Real.exp_sub, Real.exp_log hw']
    congr 1
    ring

/-- With the correction factor of `ImportanceDistribution` (used by the linearisation importance distributions) a step is
a step of sequential importance sampling in which `1e-14` was added to the old weights. -/
theorem base_weights_partial (hk : f.imp.kind = .base) (k : ℕ) (o : Obs D M) (tOld : ℝ) (l : List (Pt × ℝ))
    (hl : ∀ e ∈ l, 0 < e.2) :
    f.update R k o tOld l = normalise (sisAll f R k o tOld 0 (l.map fun e => (e.1, e.2 + 1e-14))) := by
  rw [PF.update, base_advanceAll hk k o tOld 0 l hl]

/-- For equal old weights a bootstrap step is a step of sequential importance sampling, up to a factor. -/
theorem bootstrap_step (initDraw : ν → Pt) (initLog : Pt → ℝ) (draw : Pt → ℝ → ℝ → ν → Pt) (log : Pt → ℝ → ℝ → Pt → ℝ)
    (hf : f.imp = bootstrap initDraw initLog draw log) (k : ℕ) (o : Obs D M) (tOld w : ℝ) : ∀ (i : ℕ) (l : List (Pt × ℝ)),
    (∀ e ∈ l, e.2 = w) →
    sisAll f R k o tOld i l = (f.advanceAll R k o tOld i l).map fun e => (e.1, e.2 * w)
  | _, [], _ => rfl
  | i, (x, v) :: l, h => by
    rw [PF.advanceAll, List.map_cons, sisAll, bootstrap_step initDraw initLog draw log hf k o tOld w (i + 1) l
      fun e he => h e (by simp [he])]
    congr 1
    have hv : v = w := h (x, v) (by simp)
    subst hv
    have hq : (f.proposal o tOld x).logDyn = (f.proposal o tOld x).logImp := by
      rw [PF.proposal, hf]; split <;> rfl
    have hkd : f.imp.kind = .bootstrap := by rw [hf]; rfl
    simp only [PF.advance, logCorrection, hkd, sisWeight, hq, div_self (Real.exp_ne_zero _), mul_one, add_zero]

theorem normalise_scale {l : List (Pt × ℝ)} {w : ℝ} (hw : w ≠ 0) : normalise (l.map fun e => (e.1, e.2 * w)) = normalise l := by
  unfold normalise
  rw [List.map_map, List.map_map]
  have : ((fun x : Pt × ℝ => x.2) ∘ fun e => (e.1, e.2 * w)) = fun e : Pt × ℝ => e.2 * w := rfl
  rw [this, List.sum_map_mul_right]
  refine List.map_congr_left fun e _ => ?_
  simp only [Function.comp]
  rw [mul_div_mul_right _ _ hw]

/-- The bootstrap filter accounts for the first observation. -/
theorem bootstrap_first_partial {initDraw : ν → Pt} {initLog : Pt → ℝ} {draw : Pt → ℝ → ℝ → ν → Pt} {log : Pt → ℝ → ℝ → Pt → ℝ}
    (hf : f.imp = bootstrap initDraw initLog draw log) (hn : 0 < f.num) (particles : List Pt) (o : Obs D M) (r : List (Obs D M)) :
    carried f R 0 f.initarg (f.start particles) (o :: r) 0 = sis f R 0 f.initarg (f.start particles) (o :: r) 0 := by
  have hw : (1 / (f.num : ℝ)) ≠ 0 := by
    have : (f.num : ℝ) ≠ 0 := by exact_mod_cast hn.ne'
    positivity
  rw [carried, sis, PF.update, bootstrap_step initDraw initLog draw log hf 0 o f.initarg (1 / (f.num : ℝ)) 0 (f.start particles) (by
    intro e he
    obtain ⟨x, _, rfl⟩ := List.mem_map.1 he
    rfl), normalise_scale hw]

theorem bootstrap_particles {initDraw : ν → Pt} {initLog : Pt → ℝ} {draw : Pt → ℝ → ℝ → ν → Pt} {log : Pt → ℝ → ℝ → Pt → ℝ}
    (hf : f.imp = bootstrap initDraw initLog draw log) (k : ℕ) {o o' : Obs D M} (ho : o.t = o'.t) (tOld : ℝ) :
    ∀ (i : ℕ) (l l' : List (Pt × ℝ)), l.map (·.1) = l'.map (·.1) →
      (f.advanceAll R k o tOld i l).map (·.1) = (f.advanceAll R k o' tOld i l').map (·.1)
  | _, [], [], _ => rfl
  | _, [], _ :: _, h => by simp at h
  | _, _ :: _, [], h => by simp at h
  | i, (x, v) :: l, (x', v') :: l', h => by
    simp only [List.map_cons, List.cons.injEq] at h
    obtain ⟨rfl, h⟩ := h
    rw [PF.advanceAll, PF.advanceAll, List.map_cons, List.map_cons, bootstrap_particles hf k ho tOld (i + 1) l l' h]
    congr 1
    simp only [PF.advance, PF.proposal, hf, ho]
    split <;> rfl

theorem bootstrap_weights {initDraw : ν → Pt} {initLog : Pt → ℝ} {draw : Pt → ℝ → ℝ → ν → Pt} {log : Pt → ℝ → ℝ → Pt → ℝ}
    (hf : f.imp = bootstrap initDraw initLog draw log) (k : ℕ) (o : Obs D M) (tOld : ℝ) :
    ∀ (i : ℕ) (l l' : List (Pt × ℝ)), l.map (·.1) = l'.map (·.1) → f.advanceAll R k o tOld i l = f.advanceAll R k o tOld i l'
  | _, [], [], _ => rfl
  | _, [], _ :: _, h => by simp at h
  | _, _ :: _, [], h => by simp at h
  | i, (x, v) :: l, (x', v') :: l', h => by
    simp only [List.map_cons, List.cons.injEq] at h
    obtain ⟨rfl, h⟩ := h
    have hkd : f.imp.kind = .bootstrap := by rw [hf]; rfl
    rw [PF.advanceAll, PF.advanceAll, bootstrap_weights hf k o tOld (i + 1) l l' h]
    congr 1
    simp only [PF.advance, logCorrection, hkd]

theorem normalise_fst (l : List (Pt × ℝ)) : (normalise l).map (·.1) = l.map (·.1) := by
  rw [normalise, List.map_map]; rfl

/-- **C50, the first observation of the bootstrap filter**, in terms of the prior alone: at the initial time the particles
are drawn from the initial distribution (the given ones are not read), at a later time they are moved by the dynamics
over the time elapsed; each weight is the normalised likelihood of the observation. -/
theorem bootstrap_first_state {initDraw : ν → Pt} {initLog : Pt → ℝ} {draw : Pt → ℝ → ℝ → ν → Pt} {log : Pt → ℝ → ℝ → Pt → ℝ}
    (hf : f.imp = bootstrap initDraw initLog draw log) (hR : Fits f R) (hn : 0 < f.num) {particles : List Pt}
    (hp : particles.length = f.num) {o : Obs D M} {r : List (Obs D M)} {out : List (Categorical ℝ Unit)}
    (hw : f.withResampling = false) (h : f.filter R particles (o :: r) = .ok out) :
    ∃ first, out.head? = some first ∧ first.support.length = f.num ∧
      (∀ i (hi : i < f.num) (hs : i < first.support.length), first.support[i] =
        if o.t = f.initarg then initDraw (R.noise 0 i)
        else draw (particles[i]'(hp ▸ hi)) f.initarg (o.t - f.initarg) (R.noise 0 i)) ∧
      first.probs = first.support.map fun y => Real.exp (f.loglik o.model o.t y o.data) /
        (first.support.map fun y => Real.exp (f.loglik o.model o.t y o.data)).sum := by
  have hout : 0 < out.length := by
    unfold PF.filter at h
    split at h
    · cases h
    · split at h
      · cases h
      · rw [(loop_get f R _ 0 f.initarg _ out h).1]; simp
  obtain ⟨l, hl, hwt, h1, -⟩ := filter_states hR hn hp h 0 hout
  have e := h1 (by rw [hw]; simp)
  have hkd : f.imp.kind = .bootstrap := by rw [hf]; rfl
  have hcar : l = normalise (f.advanceAll R 0 o f.initarg 0 (f.start particles)) := hl
  have hall : (f.advanceAll R 0 o f.initarg 0 (f.start particles)).map (·.2)
      = ((f.advanceAll R 0 o f.initarg 0 (f.start particles)).map (·.1)).map
        fun y => Real.exp (f.loglik o.model o.t y o.data) := by
    have : ∀ (l : List (Pt × ℝ)) (i : ℕ), (f.advanceAll R 0 o f.initarg i l).map (·.2)
        = ((f.advanceAll R 0 o f.initarg i l).map (·.1)).map fun y => Real.exp (f.loglik o.model o.t y o.data) := by
      intro l
      induction l with
      | nil => intro i; rfl
      | cons a l ih =>
        intro i
        obtain ⟨x, v⟩ := a
        rw [PF.advanceAll, List.map_cons, List.map_cons, List.map_cons, ih (i + 1)]
        simp only [PF.advance, logCorrection, hkd, add_zero]
    exact this _ 0
  have hsup : l.map (·.1) = (f.advanceAll R 0 o f.initarg 0 (f.start particles)).map (·.1) := by
    rw [hcar, normalise_fst]
  refine ⟨out[0], by rw [List.head?_eq_getElem?, List.getElem?_eq_getElem hout], ?_, ?_, ?_⟩
  · rw [e]; simp only [hsup, List.length_map, advanceAll_length, PF.start, hp]
  · intro i hi hs
    have hlen : i < (f.advanceAll R 0 o f.initarg 0 (f.start particles)).length := by
      rw [advanceAll_length, PF.start, List.length_map, hp]; exact hi
    have hi' : i < (f.start particles).length := by rw [PF.start, List.length_map, hp]; exact hi
    have e1 : out[0].support = (f.advanceAll R 0 o f.initarg 0 (f.start particles)).map (·.1) := by rw [e]; exact hsup
    have e2 : out[0].support[i] = ((f.advanceAll R 0 o f.initarg 0 (f.start particles)).map (·.1))[i]'(by
        rw [List.length_map]; exact hlen) := by congr 1
    rw [e2, List.getElem_map, advanceAll_get f R 0 o f.initarg 0 (f.start particles) i hi' hlen]
    have e3 : ((f.start particles)[i]).1 = particles[i]'(hp ▸ hi) := by simp [PF.start]
    simp only [PF.advance, PF.proposal, hf, Nat.zero_add, e3]
    split <;> rfl
  · rw [e]
    simp only [hsup]
    rw [hcar, normalise, List.map_map, hall]
    have : ((fun x : Pt × ℝ => x.2) ∘ fun e : Pt × ℝ => (e.1, e.2 / (((f.advanceAll R 0 o f.initarg 0
        (f.start particles)).map (·.1)).map fun y => Real.exp (f.loglik o.model o.t y o.data)).sum))
        = (fun w => w / (((f.advanceAll R 0 o f.initarg 0
        (f.start particles)).map (·.1)).map fun y => Real.exp (f.loglik o.model o.t y o.data)).sum) ∘ (·.2) := rfl
    rw [this, ← List.map_map, hall, List.map_map]
    rfl

/-- Violation: in the bootstrap filter the state after an observation does not depend on any earlier observation – not
even through resampling: only the last datum matters. -/
theorem bootstrap_ignores_past {initDraw : ν → Pt} {initLog : Pt → ℝ} {draw : Pt → ℝ → ℝ → ν → Pt} {log : Pt → ℝ → ℝ → Pt → ℝ}
    (hf : f.imp = bootstrap initDraw initLog draw log) : ∀ (data data' : List (Obs D M)) (k : ℕ) (tOld : ℝ) (l l' : List (Pt × ℝ))
    (j : ℕ), data.map (·.t) = data'.map (·.t) → l.map (·.1) = l'.map (·.1) → (hj : j < data.length) → (hj' : j < data'.length) →
    data[j] = data'[j] → carried f R k tOld l data j = carried f R k tOld l' data' j
  | [], _, _, _, _, _, _, _, _, hj, _, _ => by simp at hj
  | _ :: _, [], _, _, _, _, _, _, _, _, hj', _ => by simp at hj'
  | o :: r, o' :: r', k, tOld, l, l', 0, ht, hl, _, _, he => by
    obtain rfl : o = o' := he
    rw [carried, carried, PF.update, PF.update, bootstrap_weights hf k o tOld 0 l l' hl]
  | o :: r, o' :: r', k, tOld, l, l', j + 1, ht, hl, hj, hj', he => by
    simp only [List.map_cons, List.cons.injEq] at ht
    rw [carried, carried, ← ht.1]
    refine bootstrap_ignores_past hf r r' (k + 1) o.t _ _ j ht.2 ?_ (by simpa using hj) (by simpa using hj') (by simpa using he)
    rw [PF.update, PF.update, normalise_fst, normalise_fst]
    exact bootstrap_particles hf k ht.1 tOld 0 l l' hl

/-- The same for the states returned by `filter`, where the last step did not resample. -/
theorem bootstrap_filter_ignores_past {initDraw : ν → Pt} {initLog : Pt → ℝ} {draw : Pt → ℝ → ℝ → ν → Pt} {log : Pt → ℝ → ℝ → Pt → ℝ}
    (hf : f.imp = bootstrap initDraw initLog draw log) (hR : Fits f R) (hn : 0 < f.num) {particles : List Pt}
    (hp : particles.length = f.num) {data data' : List (Obs D M)} {out out' : List (Categorical ℝ Unit)}
    (h : f.filter R particles data = .ok out) (h' : f.filter R particles data' = .ok out')
    (ht : data.map (·.t) = data'.map (·.t)) {j : ℕ} (hj : j < data.length) (hj' : j < data'.length) (he : data[j] = data'[j])
    (ho : j < out.length) (ho' : j < out'.length) : out[j] = out'[j] := by
  obtain ⟨l, hl, _, h1, h2⟩ := filter_states hR hn hp h j ho
  obtain ⟨l', hl', _, h1', h2'⟩ := filter_states hR hn hp h' j ho'
  have : l = l' := by
    rw [hl, hl']
    exact bootstrap_ignores_past hf data data' 0 f.initarg _ _ j ht rfl hj hj' he
  subst this
  by_cases hc : f.withResampling = true ∧ effective (l.map (·.2)) < f.minEffective
  · rw [h2 hc, h2' hc]
  · rw [h1 hc, h1' hc]

/-- A bootstrap filter with two particles that stay where they are, observed through the likelihood `exp (d x)`. -/
noncomputable def still : PF Pt ℝ Unit :=
  ⟨bootstrap id (fun _ => 0) (fun x _ _ _ => x) (fun _ _ _ _ => 0), fun _ _ x d => d * x.headD 0, 0, 2, false, 0.1⟩

/-- Violation, concretely: two particles at 0 and 1; the first observation favours the particle at 1 by the factor `e`,
the second favours neither.  The weights that account for both observations differ by the factor `e`; those of the code
are equal. -/
theorem bootstrap_wrong (R : Oracle Pt) :
    (carried still R 0 0 (still.start [[0], [1]]) [⟨1, 1, ()⟩, ⟨2, 0, ()⟩] 1).map (·.2) = [1 / 2, 1 / 2] ∧
    (sis still R 0 0 (still.start [[0], [1]]) [⟨1, 1, ()⟩, ⟨2, 0, ()⟩] 1).map (·.2) =
      [1 / (1 + Real.exp 1), Real.exp 1 / (1 + Real.exp 1)] := by
  have hpos := Real.exp_pos 1
  constructor
  · simp only [carried, PF.update, PF.start, PF.advanceAll, PF.advance, PF.proposal, normalise, logCorrection, still, bootstrap,
      List.map_cons, List.map_nil]
    norm_num
  · simp only [sis, sisAll, sisWeight, PF.start, PF.proposal, normalise, still, bootstrap, List.map_cons, List.map_nil]
    norm_num
    constructor <;> field_simp

/-- Violation: resampling has no effect on later states.  Switching it off changes nothing but the states that were
resampled themselves. -/
theorem resampling_forgotten (hR : Fits f R) (hn : 0 < f.num) {particles : List Pt} (hp : particles.length = f.num)
    {data : List (Obs D M)} {out out' : List (Categorical ℝ Unit)} (h : f.filter R particles data = .ok out)
    (h' : PF.filter { f with withResampling := false } R particles data = .ok out') (j : ℕ) (hj : j < out.length)
    (hj' : j < out'.length) :
    out'[j].probs = (carried f R 0 f.initarg (f.start particles) data j).map (·.2) ∧
    (¬ effective out'[j].probs < f.minEffective → out[j] = out'[j]) := by
  obtain ⟨l, hl, _, h1, _⟩ := filter_states hR hn hp h j hj
  obtain ⟨l', hl', _, h1', _⟩ := filter_states (f := { f with withResampling := false }) hR hn hp h' j hj'
  have key : ∀ (r : List (Obs D M)) (k : ℕ) (tOld : ℝ) (l : List (Pt × ℝ)) (j : ℕ),
      carried { f with withResampling := false } R k tOld l r j = carried f R k tOld l r j := by
    have hadv : ∀ (k : ℕ) (o : Obs D M) (tOld : ℝ) (i : ℕ) (l : List (Pt × ℝ)),
        PF.advanceAll { f with withResampling := false } R k o tOld i l = f.advanceAll R k o tOld i l := by
      intro k o tOld i l
      induction l generalizing i with
      | nil => rfl
      | cons e l ih => rw [PF.advanceAll, PF.advanceAll, ih]; rfl
    have hupd : ∀ (k : ℕ) (o : Obs D M) (tOld : ℝ) (l : List (Pt × ℝ)),
        PF.update { f with withResampling := false } R k o tOld l = f.update R k o tOld l := by
      intro k o tOld l; rw [PF.update, PF.update, hadv]
    intro r
    induction r with
    | nil => intro k tOld l j; cases j <;> rfl
    | cons o r ih =>
      intro k tOld l j
      cases j with
      | zero => rw [carried, carried, hupd]
      | succ j => rw [carried, carried, hupd, ih]
  have hll : l' = l := by rw [hl, hl']; exact key data 0 f.initarg _ j
  subst hll
  have e := h1' (by simp)
  rw [e]
  refine ⟨by rw [hl], fun hno => ?_⟩
  rw [h1 fun hc => hno hc.2]

/-- The hypotheses are met, for example, by three observations and two particles. -/
example : ∃ out, still.filter ⟨fun _ _ => [0], fun _ => [0, 1]⟩ [[0], [1]] [⟨1, 1, ()⟩, ⟨2, 0, ()⟩, ⟨3, -1, ()⟩] = .ok out ∧
    out.length = 3 := by
  refine filter_ok (f := still) ?_ (by simp [still]) (by simp [still]) (by simp) ?_
  · intro k
    simp [still]
  · simp only [List.map_cons, List.map_nil, Increasing]
    norm_num

end Probnum.Particle
