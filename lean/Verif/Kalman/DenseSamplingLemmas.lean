import Verif.Kalman.DenseSampling
import Verif.Kalman.Dense
import Verif.Kalman.SamplingProps

/-!
# Helper lemmas for samples at given times
-/

namespace Probnum.Kalman

open MeasureTheory ProbabilityTheory Matrix Probnum.Gauss Probnum.LinGauss Probnum.Posterior

variable {n m : ℕ}

/-- Transitions over times `a` and `b` compose to the transition over `a + b` (Chapman-Kolmogorov). -/
structure Composes (disc : ℝ → Transition n n) : Prop where
  mat : ∀ a b, 0 < a → 0 < b → (disc (a + b)).mat = (disc b).mat * (disc a).mat
  mean : ∀ a b, 0 < a → 0 < b →
    (disc (a + b)).noise.mean = (disc b).mat *ᵥ (disc a).noise.mean + (disc b).noise.mean
  cov : ∀ a b, 0 < a → 0 < b →
    (disc (a + b)).noise.cov = (disc b).mat * (disc a).noise.cov * (disc b).matᵀ + (disc b).noise.cov

theorem predS_comp {disc : ℝ → Transition n n} (h : Composes disc) {a b : ℝ} (ha : 0 < a) (hb : 0 < b) (s : Updated n) :
    predS (disc b) (predS (disc a) s) = predS (disc (a + b)) s := by
  simp only [predS, forwardClassic, toNormal, one_smul, h.mat a b ha hb, h.mean a b ha hb, h.cov a b ha hb, Updated.mk.injEq]
  constructor
  · rw [mulVec_add, mulVec_mulVec]; abel
  · simp only [Matrix.mul_add, Matrix.add_mul, Matrix.transpose_mul, Matrix.mul_assoc]
    abel

theorem updS_noise (H : Transition n m) (h0 : H.mat = 0) (s : Updated n) (y : Fin m → ℝ) : updS H s y = s := by
  cases s
  simp [updS, conditionStateOnRv, optGain, toNormal, h0]

section Merged

variable (t0 : ℝ) (g : ℕ → ℝ) (disc : ℝ → Transition n n) (H : ℕ → Transition n m) (init : Updated n) (isData : ℕ → Bool)

/-- Between data points the filter only predicts. -/
theorem sseq_between (hc : Composes disc) (hH : ∀ k, isData k = false → (H k).mat = 0) (y : ℕ → Fin m → ℝ) (d : ℕ) :
    ∀ j, (∀ i, i < d + j → g i < g (i + 1)) → (∀ i, d < i → i ≤ d + j → isData i = false) →
      sseq init (transitions t0 g disc) H (d + j + 1) (fun i => y i)
        = if j = 0 then sseq init (transitions t0 g disc) H (d + 1) (fun i => y i)
          else predS (disc (g (d + j) - g d)) (sseq init (transitions t0 g disc) H (d + 1) fun i => y i) := by
  intro j
  induction j with
  | zero => intro _ _; simp
  | succ j ih =>
    intro hg hd
    have hlt := hg (d + j) (by omega)
    have e : sseq init (transitions t0 g disc) H (d + (j + 1) + 1) (fun i => y i)
        = predS (disc (g (d + j + 1) - g (d + j))) (sseq init (transitions t0 g disc) H (d + j + 1) fun i => y i) := by
      rw [show d + (j + 1) + 1 = d + j + 1 + 1 by omega, sseq, updS_noise _ (hH _ (hd (d + j + 1) (by omega) (by omega)))]
      have : transitions t0 g disc (d + j + 1) = disc (g (d + j + 1) - g (d + j)) := gap_pos_transition t0 g disc (d + j) hlt
      rw [this]
      rfl
    rw [e, ih (fun i hi => hg i (by omega)) (fun i h1 h2 => hd i h1 (by omega)), if_neg (Nat.succ_ne_zero j)]
    by_cases hj : j = 0
    · subst hj; rw [if_pos rfl]; rfl
    · rw [if_neg hj, predS_comp hc ?_ (by linarith)]
      · congr 2
        rw [show d + (j + 1) = d + j + 1 by omega]
        ring
      · have : ∀ i, i ≤ j → 0 < i → g d < g (d + i) := by
          intro i
          induction i with
          | zero => intro _ h; omega
          | succ i ih2 =>
            intro hi _
            have h1 := hg (d + i) (by omega)
            rcases Nat.eq_zero_or_pos i with rfl | h0
            · exact h1
            · exact (ih2 (by omega) h0).trans h1
        linarith [this j le_rfl (by omega)]

/-- Indices of the data points. -/
def dataIx (M : ℕ) : List ℕ := (List.range (M + 1)).filter isData

/-- The data of the points in `D`. -/
noncomputable def problemOn (D : List ℕ) (y : ℕ → Fin m → ℝ) : Problem ℝ (Fin m → ℝ) (Updated n) :=
  ⟨D.map g, D.map y, D.map fun k => classicMeas (H k)⟩

theorem problemOn_triples (D : List ℕ) (y : ℕ → Fin m → ℝ) :
    (problemOn g H D y).triples = D.map fun k => (g k, y k, classicMeas (H k)) := by
  simp only [Problem.triples, problemOn]
  induction D with
  | nil => rfl
  | cons a l ih => simp [ih]

/-- The filter over the data points after point `e`, of which those up to `e + j` are no data points. -/
theorem run_after (hc : Composes disc) (hH : ∀ k, isData k = false → (H k).mat = 0) (y : ℕ → Fin m → ℝ) (M : ℕ)
    (hg : ∀ i, i < M → g i < g (i + 1)) (hreg : ∀ k, k < M + 1 → Regular init (transitions t0 g disc) H k) (len : ℕ) :
    ∀ e j, e + j + len = M → (∀ i, e < i → i ≤ e + j → isData i = false) →
      Run (classicPrior t0 init disc) none (g e) (sseq init (transitions t0 g disc) H (e + 1) fun i => y i)
        (((List.range' (e + j + 1) len).filter isData).map fun k => (g k, y k, classicMeas (H k)))
        (((List.range' (e + j + 1) len).filter isData).map fun k =>
          sseq init (transitions t0 g disc) H (k + 1) fun i => y i) := by
  set A := transitions t0 g disc with hA
  induction len with
  | zero => intro e j _ _; exact Run.nil _ _
  | succ len ih =>
    intro e j hM hd
    rw [List.range'_succ]
    cases hdat : isData (e + j + 1) with
    | false =>
      rw [List.filter_cons_of_neg (by simp [hdat])]
      refine ih e (j + 1) (by omega) fun i h1 h2 => ?_
      rcases Nat.lt_or_ge (e + j) i with h | h
      · rw [show i = e + j + 1 by omega]; exact hdat
      · exact hd i h1 h
    | true =>
      rw [List.filter_cons_of_pos (by simp [hdat]), List.map_cons, List.map_cons]
      have hlt : ∀ i, e < i → i ≤ M → g e < g i := by
        intro i
        induction i with
        | zero => intro h; omega
        | succ i ih2 =>
          intro h1 h2
          have h3 := hg i (by omega)
          rcases Nat.lt_or_ge e i with h | h
          · exact (ih2 h (by omega)).trans h3
          · rw [show e = i by omega]; exact h3
      have hpos := hlt (e + j + 1) (by omega) (by omega)
      have hA1 : A (e + j + 1) = disc (g (e + j + 1) - g (e + j)) :=
        gap_pos_transition t0 g disc (e + j) (hg _ (by omega))
      have hpred : predS (A (e + j + 1)) (sseq init A H (e + j + 1) fun i => y i)
          = predS (disc (g (e + j + 1) - g e)) (sseq init A H (e + 1) fun i => y i) := by
        rw [sseq_between t0 g disc H init isData hc hH y e j (fun i hi => hg i (by omega)) hd, hA1]
        by_cases hj : j = 0
        · subst hj; rw [if_pos rfl]; rfl
        · rw [if_neg hj, predS_comp hc (by linarith [hlt (e + j) (by omega) (by omega)])
            (by linarith [hg (e + j) (by omega)])]
          congr 2
          ring
      refine Run.cons (s' := predS (A (e + j + 1)) (sseq init A H (e + j + 1) fun i => y i)) ?_ ?_ ?_
      · rw [predicts_iff, hpred]
        simp only [gapTransition, sub_pos, hpos, if_true]
      · rw [updates_iff]
        exact ⟨(regular_iff init A H _ _).2 (hreg _ (by omega)), rfl⟩
      · exact ih (e + j + 1) 0 (by omega) fun i h1 h2 => by omega

theorem dataIx_eq (M : ℕ) (h0 : isData 0 = true) : dataIx isData M = 0 :: (List.range' 1 M).filter isData := by
  rw [dataIx, List.range_eq_range', List.range'_succ, List.filter_cons_of_pos (by simp [h0])]

theorem dataIx_pairwise (M : ℕ) : (dataIx isData M).Pairwise (· < ·) := List.pairwise_lt_range.filter _

theorem mem_dataIx {M k : ℕ} : k ∈ dataIx isData M ↔ k ≤ M ∧ isData k = true := by
  simp [dataIx, Nat.lt_succ_iff]

theorem grid_lt {M : ℕ} (hg : ∀ i, i < M → g i < g (i + 1)) : ∀ j i, i < j → j ≤ M → g i < g j := by
  intro j
  induction j with
  | zero => intro i h; omega
  | succ j ih =>
    intro i h1 h2
    have h3 := hg j (by omega)
    rcases Nat.lt_or_ge i j with h | h
    · exact (ih i h (by omega)).trans h3
    · rw [show i = j by omega]; exact h3

/-- The filter on the data points alone computes the states of the filter on all points. -/
theorem filter_data (hc : Composes disc) (hH : ∀ k, isData k = false → (H k).mat = 0) (y : ℕ → Fin m → ℝ) (M : ℕ)
    (hg : ∀ i, i < M → g i < g (i + 1)) (hreg : ∀ k, k < M + 1 → Regular init (transitions t0 g disc) H k)
    (h0 : isData 0 = true) :
    filter (classicPrior t0 init disc) (problemOn g H (dataIx isData M) y) none
      = .ok ⟨(dataIx isData M).map g,
          (dataIx isData M).map fun k => sseq init (transitions t0 g disc) H (k + 1) fun i => y i, false⟩ := by
  rw [filter_one_state_per_observation _ _ _ (by simp [problemOn]) (by simp [problemOn])]
  refine ⟨?_, rfl, rfl, ?_⟩
  · show ((dataIx isData M).map g).Pairwise (· < ·)
    rw [List.pairwise_map]
    refine (dataIx_pairwise isData M).imp_of_mem fun {a b} _ hb h => ?_
    exact grid_lt g hg b a h ((mem_dataIx isData).1 hb).1
  · rw [← run_isFiltered _ _ _ (by simp [problemOn]) (by simp [problemOn]), problemOn_triples, dataIx_eq isData M h0,
      List.map_cons, List.map_cons]
    refine Run.cons (s' := predS (transitions t0 g disc 0) init) ?_ ?_ ?_
    · show Predicts _ _ t0 (g 0) init _
      rw [predicts_iff]
      rfl
    · rw [updates_iff]
      exact ⟨hreg 0 (by omega), rfl⟩
    · have := run_after t0 g disc H init isData hc hH y M hg hreg M 0 0 (by omega) (fun i h1 h2 => by omega)
      simpa using this

/-- Neighbours in a list around a number that is not in it. -/
theorem exists_neighbours (l : List ℕ) : ∀ (a k : ℕ), (a :: l).Pairwise (· < ·) → a < k → k ∉ l → (∃ b ∈ l, k < b) →
    ∃ (i : ℕ) (h : i + 1 < (a :: l).length), (a :: l)[i] < k ∧ k < (a :: l)[i + 1] := by
  induction l with
  | nil => rintro a k _ _ _ ⟨b, hb, _⟩; simp at hb
  | cons c l ih =>
    intro a k hp hak hk hb
    simp only [List.mem_cons, not_or] at hk
    rcases Nat.lt_or_ge c k with h | h
    · obtain ⟨b, hbm, hkb⟩ := hb
      have hbl : b ∈ l := by
        rcases List.mem_cons.1 hbm with rfl | h'
        · omega
        · exact h'
      obtain ⟨i, hi, h1, h2⟩ := ih c k (List.pairwise_cons.1 hp).2 h hk.2 ⟨b, hbl, hkb⟩
      exact ⟨i + 1, by simpa using hi, by simpa using h1, by simpa using h2⟩
    · exact ⟨0, by simp, hak, by simp only [List.getElem_cons_succ, List.getElem_cons_zero]; omega⟩

theorem dataIx_between {M i x : ℕ} (hi : i + 1 < (dataIx isData M).length) (h1 : (dataIx isData M)[i] < x)
    (h2 : x < (dataIx isData M)[i + 1]) : isData x = false := by
  by_contra hx
  have hM : (dataIx isData M)[i + 1] ≤ M := ((mem_dataIx isData).1 (List.getElem_mem hi)).1
  have hm : x ∈ dataIx isData M := (mem_dataIx isData).2 ⟨by omega, by simpa using hx⟩
  obtain ⟨p, hp, rfl⟩ := List.getElem_of_mem hm
  have hs := dataIx_pairwise isData M
  rw [List.pairwise_iff_getElem] at hs
  rcases Nat.lt_trichotomy p i with h | h | h
  · have := hs p i hp (by omega) h; omega
  · subst h; omega
  · rcases Nat.lt_or_ge (i + 1) p with h' | h'
    · have := hs (i + 1) p hi hp h'; omega
    · have : p = i + 1 := by omega
      subst this; omega

theorem dataIx_grid {M : ℕ} (hg : ∀ i, i < M → g i < g (i + 1)) (h0 : isData 0 = true) (st : ℕ → Updated n) :
    Grid (⟨(dataIx isData M).map g, (dataIx isData M).map st, false⟩ : Post ℝ (Updated n)) where
  ascending := by
    show ((dataIx isData M).map g).Pairwise (· < ·)
    rw [List.pairwise_map]
    exact (dataIx_pairwise isData M).imp_of_mem fun {a b} _ hb h => grid_lt g hg b a h ((mem_dataIx isData).1 hb).1
  nonempty := by simp [dataIx_eq isData M h0]
  sameLength := by simp

theorem grid_pairwise {M : ℕ} (hg : ∀ i, i < M → g i < g (i + 1)) : ((List.range (M + 1)).map g).Pairwise (· < ·) := by
  rw [List.pairwise_map]
  exact List.pairwise_lt_range.imp_of_mem fun {a b} _ hb h => grid_lt g hg b a h (by simpa [Nat.lt_succ_iff] using hb)

/-- The filtering posterior, computed from the data points alone, evaluated on all points. -/
theorem call_grid (hc : Composes disc) (hH : ∀ k, isData k = false → (H k).mat = 0) (y : ℕ → Fin m → ℝ) (M : ℕ)
    (hg : ∀ i, i < M → g i < g (i + 1)) (h0 : isData 0 = true) (hM : isData M = true) (p : Post ℝ (Updated n))
    (hp : p = ⟨(dataIx isData M).map g,
      (dataIx isData M).map fun k => sseq init (transitions t0 g disc) H (k + 1) fun i => y i, false⟩) :
    call (interpolateFiltering (classicDyn disc) none p) p ((List.range (M + 1)).map g)
      = .ok ((List.range (M + 1)).map fun k => sseq init (transitions t0 g disc) H (k + 1) fun i => y i) := by
  have hgrid : Grid p := by rw [hp]; exact dataIx_grid g isData hg h0 _
  rw [array_evaluation_is_pointwise _ p hgrid _ ((grid_pairwise g hg).imp le_of_lt), List.forall₂_map_left_iff,
    List.forall₂_map_right_iff, List.forall₂_same]
  intro k hk
  have hk' : k ≤ M := by simpa [Nat.lt_succ_iff] using hk
  cases hd : isData k with
  | true =>
    obtain ⟨i, hi, hik⟩ := List.getElem_of_mem ((mem_dataIx isData).2 ⟨hk', hd⟩)
    have := filtering_on_grid (classicDyn disc) none p hgrid i (by simpa [hp] using hi)
    subst hik
    subst hp
    simpa using this
  | false =>
    have hne : k ≠ 0 := by rintro rfl; simp [h0] at hd
    have hneM : k ≠ M := by rintro rfl; simp [hM] at hd
    have hD := dataIx_eq isData M h0
    obtain ⟨i, hi, h1, h2⟩ : ∃ (i : ℕ) (h : i + 1 < (dataIx isData M).length),
        (dataIx isData M)[i] < k ∧ k < (dataIx isData M)[i + 1] := by
      have hpw := dataIx_pairwise isData M
      have hmM : M ∈ dataIx isData M := (mem_dataIx isData).2 ⟨le_rfl, hM⟩
      have hnk : k ∉ dataIx isData M := fun h => by simpa [hd] using ((mem_dataIx isData).1 h).2
      simp only [hD] at hpw hmM hnk ⊢
      refine exists_neighbours _ 0 k hpw (by omega) (fun h => hnk (List.mem_cons_of_mem _ h)) ⟨M, ?_, by omega⟩
      rcases List.mem_cons.1 hmM with h | h
      · omega
      · exact h
    have hM1 : (dataIx isData M)[i + 1] ≤ M := ((mem_dataIx isData).1 (List.getElem_mem hi)).1
    have hb := filtering_between (classicDyn disc) none p hgrid i (by simpa [hp] using hi) (g k)
      (by simpa [hp] using grid_lt g hg _ _ h1 hk') (by simpa [hp] using grid_lt g hg _ _ h2 hM1) 1 rfl
    rw [hb]
    have e := sseq_between t0 g disc H init isData hc hH y (dataIx isData M)[i] (k - (dataIx isData M)[i])
      (fun j hj => hg j (by omega)) (fun j hj1 hj2 => dataIx_between isData hi hj1 (by omega))
    rw [show (dataIx isData M)[i] + (k - (dataIx isData M)[i]) = k by omega, if_neg (by omega)] at e
    rw [e]
    subst hp
    simp only [List.getElem_map]
    rfl

theorem sampleBackward_congr (prior : Prior ℝ (Updated n) ℝ) (ch : CovCholesky n) (N : ℕ) (base : ℕ → Fin n → ℝ)
    {t t' : ℕ → ℝ} {rv rv' : ℕ → Updated n} (d : ℕ → ℝ) (ht : ∀ i, i ≤ N → t i = t' i) (hr : ∀ i, i ≤ N → rv i = rv' i) :
    sampleBackward prior ch N base t rv d = sampleBackward prior ch N base t' rv' d := by
  unfold sampleBackward
  have e : ((List.range N).reverse.map fun i => (rv i, t i, d i, base i))
      = (List.range N).reverse.map fun i => (rv' i, t' i, d i, base i) := by
    refine List.map_congr_left fun i hi => ?_
    have hi' : i ≤ N := by simp at hi; omega
    rw [ht i hi', hr i hi']
  rw [e, ht N le_rfl, hr N le_rfl]

theorem range_getD {α : Type*} (f : ℕ → α) (M i : ℕ) (a : α) (hi : i ≤ M) : ((List.range (M + 1)).map f).getD i a = f i := by
  simp [List.getD, Nat.lt_succ_of_le hi]

/-- The samples on all points. -/
theorem transformDense_grid (hc : Composes disc) (hH : ∀ k, isData k = false → (H k).mat = 0) (y : ℕ → Fin m → ℝ)
    (b : ℕ → Fin n → ℝ) (ch : CovCholesky n) (M : ℕ)
    (hg : ∀ i, i < M → g i < g (i + 1)) (h0 : isData 0 = true) (hM : isData M = true)
    (hreg : ∀ k, 0 < k → k < M + 1 → SRegular init (transitions t0 g disc) H k) (p : Post ℝ (Updated n))
    (hp : p = ⟨(dataIx isData M).map g,
      (dataIx isData M).map fun k => sseq init (transitions t0 g disc) H (k + 1) fun i => y i, false⟩) :
    transformDense (classicPrior t0 init disc) (classicDyn disc) ch p b ((List.range (M + 1)).map g)
      = .ok ((List.range (M + 1)).map fun k => bsamp ch init (transitions t0 g disc) H (M + 1) y b (M - k)) := by
  have hgrid : Grid p := by rw [hp]; exact dataIx_grid g isData hg h0 _
  have hcall := call_grid t0 g disc H init isData hc hH y M hg h0 hM p hp
  have hle : ∀ i j, i ≤ j → j ≤ M → g i ≤ g j := by
    intro i j h h'
    rcases Nat.lt_or_ge i j with h2 | h2
    · exact (grid_lt g hg j i h2 h').le
    · rw [show i = j by omega]
  have hmin : amin p.locations = .ok (g 0) := by
    have := hgrid.ascending
    subst hp
    simp only [dataIx_eq isData M h0, List.map_cons] at this ⊢
    rw [amin_sorted _ _ this]
  have hmax : amax p.locations = .ok (g M) := by
    have hl : ∃ l, dataIx isData M = l ++ [M] := ⟨(List.range M).filter isData, by
      rw [dataIx, List.range_succ, List.filter_append]; simp [hM]⟩
    have := hgrid.ascending
    subst hp
    cases hD : (dataIx isData M).map g with
    | nil => simp [dataIx_eq isData M h0] at hD
    | cons x l =>
      simp only [hD] at this ⊢
      rw [amax_sorted _ _ this]
      congr 1
      obtain ⟨l', hl'⟩ := hl
      simp only [← hD, hl', List.map_append, List.map_cons, List.map_nil, List.getLast_append_singleton]
  have hsub : ∀ x ∈ p.locations, x ∈ (List.range (M + 1)).map g := by
    subst hp
    intro x hx
    obtain ⟨k, hk, rfl⟩ := List.mem_map.1 hx
    exact List.mem_map.2 ⟨k, by simpa [Nat.lt_succ_iff] using ((mem_dataIx isData).1 hk).1, rfl⟩
  have hsort : sortedCheck ((List.range (M + 1)).map g) = true := (sortedCheck_iff _).2 ((grid_pairwise g hg).imp le_of_lt)
  have hleft : (((List.range (M + 1)).map g).filter fun x => decide (x < g 0)) = [] := by
    rw [List.filter_eq_nil_iff]
    intro x hx
    obtain ⟨k, hk, rfl⟩ := List.mem_map.1 hx
    simpa using hle 0 k (by omega) (by simpa [Nat.lt_succ_iff] using hk)
  have hinter : (((List.range (M + 1)).map g).filter fun x => decide (g 0 ≤ x ∧ x ≤ g M)) = (List.range (M + 1)).map g := by
    rw [List.filter_eq_self]
    intro x hx
    obtain ⟨k, hk, rfl⟩ := List.mem_map.1 hx
    have hk' : k ≤ M := by simpa [Nat.lt_succ_iff] using hk
    simpa using ⟨hle 0 k (by omega) hk', hle k M hk' le_rfl⟩
  have hright : (((List.range (M + 1)).map g).filter fun x => decide (g M ≤ x)) = [g M] := by
    rw [List.range_succ, List.map_append, List.filter_append]
    have : ((List.range M).map g).filter (fun x => decide (g M ≤ x)) = [] := by
      rw [List.filter_eq_nil_iff]
      intro x hx
      obtain ⟨k, hk, rfl⟩ := List.mem_map.1 hx
      simpa using grid_lt g hg M k (by simpa using hk) le_rfl
    rw [this]
    simp
  unfold transformDense
  rw [if_neg (not_not.2 hsub), if_neg (by simp [hsort])]
  simp only [hmin, hmax, bind, Except.bind, hleft, hinter, hright, hcall]
  rw [if_neg (by simp)]
  simp only [List.length_map, List.length_range, List.length_singleton, Nat.add_sub_cancel]
  rw [sampleBackward_congr (t' := g) (rv' := fun k => sseq init (transitions t0 g disc) H (k + 1) fun i => y i) _ _ _ _ _
    (fun i hi => range_getD _ _ _ _ hi) (fun i hi => range_getD _ _ _ _ hi),
    backward_samples_exact t0 init disc ch M g H y b hg hreg]
  simp only [sampleForward, Nat.sub_self, List.range_zero, List.map_nil, sampleForwFrom, bind, Except.bind, Nat.add_zero,
    range_getD _ M M _ le_rfl]
  congr 1
  rw [List.range_succ, List.map_append, List.map_cons, List.map_nil, List.dropLast_concat]
  simp [bsamp]

theorem grid_inj {M : ℕ} (hg : ∀ i, i < M → g i < g (i + 1)) {i j : ℕ} (hi : i ≤ M) (hj : j ≤ M) (h : g i = g j) : i = j := by
  rcases Nat.lt_trichotomy i j with h' | h' | h'
  · exact absurd h (grid_lt g hg j i h' hj).ne
  · exact h'
  · exact absurd h (grid_lt g hg i j h' hi).ne'

theorem union1d_grid {M : ℕ} (hg : ∀ i, i < M → g i < g (i + 1)) (isQuery : ℕ → Bool)
    (hall : ∀ k, k ≤ M → isData k = true ∨ isQuery k = true) :
    union1d ((dataIx isQuery M).map g) ((dataIx isData M).map g) = (List.range (M + 1)).map g := by
  have e : ((dataIx isQuery M).map g ++ (dataIx isData M).map g).toFinset = ((List.range (M + 1)).map g).toFinset := by
    ext x
    simp only [List.mem_toFinset, List.mem_append, List.mem_map, mem_dataIx, List.mem_range, Nat.lt_succ_iff]
    constructor
    · rintro (⟨k, ⟨h1, -⟩, rfl⟩ | ⟨k, ⟨h1, -⟩, rfl⟩) <;> exact ⟨k, h1, rfl⟩
    · rintro ⟨k, h1, rfl⟩
      rcases hall k h1 with h | h
      · exact Or.inr ⟨k, ⟨h1, h⟩, rfl⟩
      · exact Or.inl ⟨k, ⟨h1, h⟩, rfl⟩
  rw [union1d, e, List.toFinset_sort _ ((grid_pairwise g hg).imp ne_of_lt)]
  exact (grid_pairwise g hg).imp le_of_lt

open Classical in
theorem select_grid {M : ℕ} (hg : ∀ i, i < M → g i < g (i + 1)) (isQuery : ℕ → Bool) {α : Type*} (S : ℕ → α) :
    ((((List.range (M + 1)).map g).zip ((List.range (M + 1)).map S)).filter
      fun q => decide (q.1 ∈ (dataIx isQuery M).map g)).map Prod.snd = (dataIx isQuery M).map S := by
  rw [List.zip_map', List.filter_map, List.map_map, dataIx]
  rw [show (Prod.snd ∘ fun a => (g a, S a)) = S from rfl]
  congr 1
  refine List.filter_congr fun k hk => ?_
  have hk' : k ≤ M := by simpa [Nat.lt_succ_iff] using hk
  rw [Bool.eq_iff_iff]
  simp only [Function.comp, decide_eq_true_eq, List.mem_map, List.mem_filter, List.mem_range, Nat.lt_succ_iff]
  constructor
  · rintro ⟨j, ⟨hj, hq⟩, he⟩
    rwa [← grid_inj g hg hj hk' he]
  · exact fun h => ⟨k, ⟨hk', h⟩, rfl⟩

end Merged

end Probnum.Kalman
