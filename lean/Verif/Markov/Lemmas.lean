import Mathlib.Data.List.GetD
import Mathlib.Probability.Independence.InfinitePi
import Verif.Markov.Model
import Verif.Markov.Spec
import Verif.Kalman.SamplingProps
import Verif.RandVars.ArrLemmas

/-!
# Helper lemmas on sampling from Markov processes
-/

namespace Probnum.Markov

open MeasureTheory ProbabilityTheory RandVars Kalman LinGauss Gauss

variable {n : ℕ}

/-! ## The computed numbers -/

theorem drawFrom_ok (ch : CovCholesky n) (rv : Updated n) {base : Arr} {N i : ℕ} (hb : base.shape = [N, n]) (hi : i < N) :
    drawFrom ch rv base i = .ok (transformBase ch rv fun j => base.get [i, j]) := by
  have e : entry base i = .ok ⟨[n], fun idx => base.get (i :: idx)⟩ := by simp only [entry, hb, if_pos hi]
  simp only [drawFrom, e, bind, Except.bind]
  rw [if_pos (by simp [Arr.size])]
  congr 2
  funext j
  rw [Arr.flat_one (n := n) rfl j.2]

theorem pathFrom_eq (prior : Prior ℝ (Updated n) ℝ) (ch : CovCholesky n) {base : Arr} {N : ℕ} (hb : base.shape = [N, n]) :
    ∀ (ts : List ℝ) (i : ℕ) (x : Fin n → ℝ) (t : ℝ), i + ts.length ≤ N →
      pathFrom prior ch base i x t ts
        = sampleForwFrom prior ch x t (ts.mapIdx fun k t' => (t', fun j : Fin n => base.get [i + k, j]))
  | [], _, _, _, _ => rfl
  | t' :: ts, i, x, t, h => by
    rw [List.length_cons] at h
    rw [List.mapIdx_cons, pathFrom, sampleForwFrom]
    cases hc : prior.forward ⟨x, 0⟩ t (t' - t) none with
    | error e => rfl
    | ok c =>
      simp only [bind, Except.bind]
      rw [drawFrom_ok ch c hb (by omega)]
      simp only [Nat.add_zero]
      rw [pathFrom_eq prior ch hb ts (i + 1) _ t' (by omega)]
      simp only [Nat.add_assoc, Nat.add_comm 1]

theorem path_eq (prior : Prior ℝ (Updated n) ℝ) (ch : CovCholesky n) {base : Arr} {N : ℕ} (hb : base.shape = [N + 1, n])
    {t : List ℝ} (ht : t.length = N + 1) :
    path prior ch base t = sampleForward prior ch N (fun i j => base.get [i, j]) (fun k => t.getD k 0) prior.initrv := by
  obtain ⟨s, ts, rfl⟩ : ∃ s ts, t = s :: ts := by
    cases t with
    | nil => simp at ht
    | cons s ts => exact ⟨s, ts, rfl⟩
  simp only [path, sampleForward]
  rw [drawFrom_ok ch _ hb (by omega)]
  simp only [bind, Except.bind, List.getD_cons_zero, List.tail_cons]
  rw [pathFrom_eq prior ch hb ts 0 _ s (by simp at ht; omega)]
  have e : (ts.mapIdx fun k t' => (t', fun j : Fin n => base.get [0 + k, j]))
      = (List.range N).map fun i => ((s :: ts).getD (i + 1) 0, fun j : Fin n => base.get [i, j]) := by
    have hl : ts.length = N := by simpa using ht
    refine List.ext_getElem (by simp [hl]) fun i h1 h2 => ?_
    have hi : i < ts.length := by simpa using h1
    simp [List.getElem?_eq_getElem hi]
  rw [e]

theorem path_classic (t0 : ℝ) (init : Updated n) (disc : ℝ → Transition n n) (ch : CovCholesky n) {base : Arr} {N : ℕ}
    (hb : base.shape = [N + 1, n]) {t : List ℝ} (ht : t.length = N + 1) :
    path (classicPrior t0 init disc) ch base t
      = .ok ((List.range (N + 1)).map
          (fsamp ch init (fun k => disc (t.getD (k + 1) 0 - t.getD k 0)) fun i j => base.get [i, j])) := by
  rw [path_eq _ ch hb ht]
  exact forward_samples_exact t0 init disc ch N _ _

theorem fsamp_congr (ch : CovCholesky n) (init : Updated n) (A : ℕ → Transition n n) {b b' : ℕ → Fin n → ℝ} {N : ℕ}
    (h : ∀ i ≤ N, b i = b' i) : ∀ i ≤ N, fsamp ch init A b i = fsamp ch init A b' i
  | 0, _ => by simp only [fsamp, h 0 (Nat.zero_le _)]
  | i + 1, hi => by
    simp only [fsamp, fsamp_congr ch init A h i (by omega), h i (by omega)]

theorem rows_get {l : List (Fin n → ℝ)} {i : ℕ} (hi : i < l.length) (j : Fin n) : (rows l).get [i, j] = l[i] j := by
  simp only [rows, List.getD_cons_zero, List.getD_cons_succ]
  rw [dif_pos j.2, List.getD_eq_getElem _ _ hi]

theorem sampleForwFrom_length {prior : Prior ℝ (Updated n) ℝ} {ch : CovCholesky n} :
    ∀ {l : List (ℝ × (Fin n → ℝ))} {x : Fin n → ℝ} {t : ℝ} {out : List (Fin n → ℝ)},
      sampleForwFrom prior ch x t l = .ok out → out.length = l.length
  | [], _, _, _, h => by injection h with h; subst h; rfl
  | (t', b) :: l, x, t, out, h => by
    simp only [sampleForwFrom, bind, Except.bind] at h
    cases hc : prior.forward ⟨x, 0⟩ t (t' - t) none with
    | error e => rw [hc] at h; cases h
    | ok c =>
      rw [hc] at h
      simp only at h
      cases hm : sampleForwFrom prior ch (transformBase ch c b) t' l with
      | error e => rw [hm] at h; cases h
      | ok more =>
        rw [hm] at h
        injection h with h
        rw [← h, List.length_cons, sampleForwFrom_length hm, List.length_cons]

theorem sampleForward_length {prior : Prior ℝ (Updated n) ℝ} {ch : CovCholesky n} {N : ℕ} {b : ℕ → Fin n → ℝ} {t : ℕ → ℝ}
    {init : Updated n} {out : List (Fin n → ℝ)} (h : sampleForward prior ch N b t init = .ok out) : out.length = N + 1 := by
  simp only [sampleForward, bind, Except.bind] at h
  cases hm : sampleForwFrom prior ch (transformBase ch init (b 0)) (t 0) ((List.range N).map fun i => (t (i + 1), b i)) with
  | error e => rw [hm] at h; cases h
  | ok more =>
    rw [hm] at h
    injection h with h
    rw [← h, List.length_cons, sampleForwFrom_length hm, List.length_map, List.length_range]

theorem mapM_eq {α β : Type} {f : α → Res β} {g : α → β} : ∀ {l : List α}, (∀ a ∈ l, f a = .ok (g a)) →
    l.mapM f = .ok (l.map g)
  | [], _ => rfl
  | a :: l, h => by
    rw [List.mapM_cons, h a (by simp), mapM_eq fun b hb => h b (by simp [hb])]
    rfl

theorem mapM_head_error {α β : Type} {f : α → Res β} {a : α} {l : List α} {e : PyErr} (h : f a = .error e) :
    (a :: l).mapM f = .error e := by
  rw [List.mapM_cons, h]
  rfl

theorem stack_map {k M : ℕ} (hk : 0 < k) (l : ℕ → List (Fin n → ℝ)) (h : ∀ c < k, (l c).length = M) :
    ∃ B, stack ((List.range k).map l) = .ok B ∧ B.shape = [k, M, n] ∧
      ∀ c < k, ∀ i (j : Fin n), B.get [c, i, j] = (rows (l c)).get [i, j] := by
  obtain ⟨k, rfl⟩ : ∃ m, k = m + 1 := ⟨k - 1, by omega⟩
  have e : (List.range (k + 1)).map l = l 0 :: (List.range k).map fun c => l (c + 1) := by
    rw [List.range_succ_eq_map, List.map_cons, List.map_map]
    rfl
  have hall : ((List.range k).map fun c => l (c + 1)).all (fun q => q.length = (l 0).length) = true := by
    rw [List.all_eq_true]
    intro q hq
    obtain ⟨c, hc, rfl⟩ := List.mem_map.1 hq
    rw [List.mem_range] at hc
    simp [h 0 (by omega), h (c + 1) (by omega)]
  have hs : stack ((List.range (k + 1)).map l) = .ok ⟨[((List.range (k + 1)).map l).length, (l 0).length, n],
      fun idx => (rows (((List.range (k + 1)).map l).getD (idx.getD 0 0) [])).get idx.tail⟩ := by
    rw [e]
    simp only [stack]
    rw [if_pos hall]
  refine ⟨_, hs, by simp [h 0 (by omega)], fun c hc i j => ?_⟩
  simp only [List.getD_cons_zero, List.tail_cons]
  rw [List.getD_eq_getElem _ _ (by simpa using hc)]
  simp

theorem ravel_three (a b c i j k : ℕ) : ravel [a, b, c] [i, j, k] = k + c * (j + b * i) := by simp [ravel, rav]

/-! ## Blocks of independent numbers -/

section Blocks

variable {Ω : Type*} {mΩ : MeasurableSpace Ω} {P : Measure Ω}

theorem blocks {ι : Type*} [Fintype ι] {z : ℕ → Ω → ℝ} (hz : StdNormals P z) {e : ℕ × ι → ℕ} (he : Function.Injective e) :
    iIndepFun (fun c ω (i : ι) => z (e (c, i)) ω) P ∧ ∀ c, P.map (fun ω (i : ι) => z (e (c, i)) ω) = stdBase ι := by
  have := hz.indep.isProbabilityMeasure
  have h1 : P.map (fun ω (p : ℕ × ι) => z (e p) ω) = Measure.infinitePi fun _ : ℕ × ι => gaussianReal 0 1 := by
    have := (hz.indep.precomp he).map_fun_eq_infinitePi_map (fun p => hz.meas (e p))
    simpa only [hz.law] using this
  have h2 : P.map (fun ω c (i : ι) => z (e (c, i)) ω)
      = Measure.infinitePi fun _ : ℕ => Measure.infinitePi fun _ : ι => gaussianReal 0 1 := by
    have := Measure.infinitePi_map_curry (fun (_ : ℕ) (_ : ι) => gaussianReal 0 1)
    rw [← this, ← h1, Measure.map_map (MeasurableEquiv.measurable _) (measurable_pi_iff.2 fun p => hz.meas _)]
    rfl
  have hm : ∀ c, Measurable fun ω (i : ι) => z (e (c, i)) ω := fun c => measurable_pi_iff.2 fun i => hz.meas _
  have h3 : ∀ c, P.map (fun ω (i : ι) => z (e (c, i)) ω) = Measure.infinitePi fun _ : ι => gaussianReal 0 1 := by
    intro c
    rw [← Measure.infinitePi_map_eval (fun _ : ℕ => Measure.infinitePi fun _ : ι => gaussianReal 0 1) c, ← h2,
      Measure.map_map (measurable_pi_apply c) (measurable_pi_iff.2 hm)]
    rfl
  refine ⟨?_, fun c => by rw [h3, Measure.infinitePi_eq_pi]⟩
  rw [iIndepFun_iff_map_fun_eq_infinitePi_map hm, h2]
  simp only [h3]

/-- Where the number for path `c`, location `i`, coordinate `j` is in the stream. -/
def place (N n : ℕ) (p : ℕ × FBase n N) : ℕ := p.2.2.1 + n * (p.2.1.1 + (N + 1) * p.1)

theorem place_injective (N n : ℕ) : Function.Injective (place N n) := by
  rintro ⟨c, i, j⟩ ⟨c', i', j'⟩ h
  simp only [place] at h
  have hn : 0 < n := lt_of_le_of_lt (Nat.zero_le _) j.2
  have h1 : j.1 = j'.1 := by
    have := congrArg (· % n) h
    simpa [Nat.add_mul_mod_self_left, Nat.mod_eq_of_lt j.2, Nat.mod_eq_of_lt j'.2] using this
  have h2 : i.1 + (N + 1) * c = i'.1 + (N + 1) * c' := by
    rw [h1] at h
    exact Nat.eq_of_mul_eq_mul_left hn (Nat.add_left_cancel h)
  have h3 : i.1 = i'.1 := by
    have := congrArg (· % (N + 1)) h2
    simpa [Nat.add_mul_mod_self_left, Nat.mod_eq_of_lt i.2, Nat.mod_eq_of_lt i'.2] using this
  have h4 : c = c' := by
    rw [h3] at h2
    exact Nat.eq_of_mul_eq_mul_left (Nat.succ_pos N) (Nat.add_left_cancel h2)
  rw [h4, Fin.ext h3, Fin.ext h1]

end Blocks

/-! ## Transport along measure preserving maps -/

section Transport

variable {Ω Ω' : Type*} {mΩ : MeasurableSpace Ω} {mΩ' : MeasurableSpace Ω'} {P : Measure Ω} {φ : Ω → Ω'}

theorem isNormal_comp {ι : Type*} [Fintype ι] {X : Ω' → ι → ℝ} {m : ι → ℝ} {C : Matrix ι ι ℝ} (hφ : Measurable φ)
    (hX : Measurable X) (h : IsNormal (P.map φ) X m C) : IsNormal P (fun ω => X (φ ω)) m C := by
  have hx : ∀ i, AEStronglyMeasurable (fun ω => X ω i) (P.map φ) := fun i =>
    ((measurable_pi_apply i).comp hX).aestronglyMeasurable
  refine ⟨⟨?_⟩, fun i => ?_, fun i j => ?_⟩
  · have := h.gaussian.isGaussian_map
    rwa [Measure.map_map hX hφ] at this
  · rw [← h.mean i, integral_map hφ.aemeasurable (hx i)]
  · rw [← h.cov i j, covariance_map_fun (hx i) (hx j) hφ.aemeasurable]

theorem indepFun_comp {α β : Type*} [MeasurableSpace α] [MeasurableSpace β] [IsProbabilityMeasure P] {X : Ω' → α} {Y : Ω' → β}
    (hφ : Measurable φ) (hX : Measurable X) (hY : Measurable Y) (h : IndepFun X Y (P.map φ)) :
    IndepFun (fun ω => X (φ ω)) (fun ω => Y (φ ω)) P := by
  have := Measure.isProbabilityMeasure_map (μ := P) hφ.aemeasurable
  rw [indepFun_iff_map_prod_eq_prod_map_map hX.aemeasurable hY.aemeasurable, Measure.map_map (hX.prodMk hY) hφ,
    Measure.map_map hX hφ, Measure.map_map hY hφ] at h
  exact (indepFun_iff_map_prod_eq_prod_map_map (hX.comp hφ).aemeasurable (hY.comp hφ).aemeasurable).2 h

theorem chain_comp [IsProbabilityMeasure P] {N : ℕ} {φ : Ω → FBase n N → ℝ} (hφ : Measurable φ) (hlaw : P.map φ = stdBase (FBase n N))
    (init : Updated n) (A : ℕ → Transition n n) (ch : CovCholesky n) (hinit : init.cov = 0) (h0 : ch.factor 0 = 0)
    (hQ : ∀ k, k < N → (A k).noise.cov.PosSemidef) :
    MarkovChain P N init A fun k ω => fsamp ch init A (fbase N (φ ω)) k := by
  have hf0 : ch.factor init.cov = 0 := by rw [hinit, h0]
  refine ⟨?_, fun k hk => ?_⟩
  · have := fbase_normal N 0 ch init.mean init.cov (by rw [hinit]; exact Matrix.PosSemidef.zero)
    rw [← hlaw] at this
    exact isNormal_comp (X := fun x : FBase n N → ℝ => fsamp ch init A (fbase N x) 0) hφ (measurable_fsamp N ch init A 0) this
  · have hW : Measurable fun x : FBase n N → ℝ => (A k).noise.mean + (ch.factor (A k).noise.cov).mulVec (fbase N x k) :=
      measurable_const.add ((measurable_mulVec _).comp (measurable_fbase N k))
    have hU : Measurable (upTo (fun i (x : FBase n N → ℝ) => fsamp ch init A (fbase N x) i) (k + 1)) :=
      measurable_pi_iff.2 fun i => measurable_fsamp N ch init _ i
    refine ⟨fun ω => (A k).noise.mean + (ch.factor (A k).noise.cov).mulVec (fbase N (φ ω) k),
      fun ω => by simp only [fsamp, add_assoc], ?_, ?_⟩
    · have := fbase_normal N k ch (A k).noise.mean _ (hQ k hk)
      rw [← hlaw] at this
      exact isNormal_comp (X := fun x : FBase n N → ℝ => (A k).noise.mean + (ch.factor (A k).noise.cov).mulVec (fbase N x k))
        hφ hW this
    · refine indepFun_comp (X := fun x : FBase n N → ℝ => (A k).noise.mean + (ch.factor (A k).noise.cov).mulVec (fbase N x k))
        (Y := upTo (fun i (x : FBase n N → ℝ) => fsamp ch init A (fbase N x) i) (k + 1)) hφ hW hU ?_
      rw [hlaw]
      refine base_indep (S := Finset.univ.filter fun p : FBase n N => p.1.1 = k)
        (T := Finset.univ.filter fun p : FBase n N => p.1.1 < k) ?_ hW hU ?_ ?_
      · rw [Finset.disjoint_filter]; intro p _ h1; omega
      · intro x y h
        have : fbase N x k = fbase N y k := by
          funext i
          exact h _ (by simp only [Finset.mem_filter, Finset.mem_univ, true_and, fbase_val (by omega : k ≤ N)])
        simp only [this]
      · refine Reads.pi fun i => (reads_fsamp N ch init _ hf0 i (by omega)).mono ?_
        intro p
        simp only [Finset.mem_filter, Finset.mem_univ, true_and]
        omega

end Transport

/-! ## Results of `sample` -/

theorem atleast1d_one {args : Arr} {N : ℕ} (h : args.shape = [N]) : atleast1d args = args := by
  rw [atleast1d, if_neg (by rw [h]; simp)]

theorem times_getD {args : Arr} {N : ℕ} (h : args.shape = [N]) {k : ℕ} (hk : k < N) :
    ((List.range args.size).map args.flat).getD k 0 = args.get [k] := by
  have hs : args.size = N := by simp [Arr.size, h]
  rw [List.getD_eq_getElem _ _ (by simpa [hs] using hk)]
  simp [Arr.flat_one h hk]

/-- The steps between the locations. -/
def steps (disc : ℝ → Transition n n) (args : Arr) (k : ℕ) : Transition n n := disc (args.get [k + 1] - args.get [k])

theorem path_args (t0 : ℝ) (init : Updated n) (disc : ℝ → Transition n n) (ch : CovCholesky n) {base args : Arr} {N : ℕ}
    (hb : base.shape = [N + 1, n]) (ha : args.shape = [N + 1]) :
    path (classicPrior t0 init disc) ch base ((List.range args.size).map args.flat)
      = .ok ((List.range (N + 1)).map (fsamp ch init (steps disc args) fun i j => base.get [i, j])) := by
  have hs : args.size = N + 1 := by simp [Arr.size, ha]
  rw [path_classic t0 init disc ch hb (by simp [hs])]
  congr 1
  refine List.map_congr_left fun i hi => ?_
  rw [List.mem_range] at hi
  have key : ∀ i, i ≤ N → fsamp ch init (fun k => disc (((List.range args.size).map args.flat).getD (k + 1) 0
        - ((List.range args.size).map args.flat).getD k 0)) (fun i j => base.get [i, j]) i
      = fsamp ch init (steps disc args) (fun i j => base.get [i, j]) i := by
    intro i
    induction i with
    | zero => intro _; rfl
    | succ i ih =>
      intro h
      simp only [fsamp]
      rw [ih (by omega), times_getD ha (by omega), times_getD ha (by omega)]
      rfl
  exact key i (by omega)

end Probnum.Markov
