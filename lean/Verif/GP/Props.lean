import Verif.GP.Spec
import Verif.Cov.PropsPsd
import Verif.Functions.Lemmas

/-!
# C46: evaluating a Gaussian process
-/

namespace Probnum.GP

open Finset RandVars Cov

/-! ## Construction -/

/-- A Gaussian process can be built exactly from a mean function with at most one output axis and a covariance function
with its input shape (for both arguments) and its output shape (for both outputs), or without covariance function. -/
theorem mkGP_ok_iff (f : Functions.Core) (k : Cov.Core) (P : Process) :
    mkGP (.given f) (.given k) = .ok P ↔
      f.outS.length ≤ 1 ∧ k.in0 = f.inS ∧ k.in1 = f.inS ∧ k.out0 = f.outS ∧ k.out1 = f.outS ∧ P = ⟨f.inS, f.outS, some f, some k⟩ := by
  have h0 : mkGP (.given f) (.given k) = mkProcess f.inS f.outS (.given f) (.given k) := rfl
  rw [h0, mkProcess]
  by_cases h1 : 1 < f.outS.length
  · rw [if_pos h1]
    exact ⟨(fun h => by cases h), fun h => absurd h.1 (not_le.mpr h1)⟩
  rw [if_neg h1]
  simp only [checkMean, ne_eq, not_true_eq_false, if_false, Except.bind, checkCov, Cov.Core.inputShape]
  by_cases h2 : k.in0 = k.in1
  · by_cases h3 : k.in0 = f.inS
    · by_cases h4 : k.out0 = f.outS ∧ k.out1 = f.outS
      · simp only [h2.symm, h3, h4, not_true_eq_false, if_false, Except.bind, Except.map, and_self, Except.ok.injEq, true_and]
        exact ⟨fun h => ⟨not_lt.mp h1, h.symm⟩, fun h => h.2.symm⟩
      · simp only [h2.symm, h3, h4, not_true_eq_false, not_false_eq_true, if_false, if_true, Except.bind, Except.map, reduceCtorEq, false_iff]
        exact fun h => h4 ⟨h.2.2.2.1, h.2.2.2.2.1⟩
    · simp only [h2.symm, h3, not_true_eq_false, not_false_eq_true, if_false, if_true, Except.bind, Except.map, reduceCtorEq, false_iff]
      exact fun h => h.2.1
  · simp only [h2, not_false_eq_true, if_true, Except.bind, Except.map, reduceCtorEq, false_iff]
    exact fun h => h2 (h.2.1.trans h.2.2.1.symm)

/-- In all other cases with a mean function and a covariance function the constructor raises ValueError; anything that
is not a mean function or not a covariance function is a TypeError. -/
theorem mkGP_errors (f : Functions.Core) (k : Cov.Core) :
    ((∀ P, mkGP (.given f) (.given k) ≠ .ok P) → mkGP (.given f) (.given k) = .error .valueError) ∧
    (∀ c, mkGP .wrong c = .error .typeError ∧ mkGP .missing c = .error .typeError) ∧
    (f.outS.length ≤ 1 → mkGP (.given f) .wrong = .error .typeError) := by
  refine ⟨fun h => ?_, fun c => ⟨rfl, rfl⟩, fun h => ?_⟩
  · revert h
    show (∀ P, mkProcess f.inS f.outS (.given f) (.given k) ≠ .ok P) → mkProcess f.inS f.outS (.given f) (.given k) = .error .valueError
    simp only [mkProcess, checkMean, ne_eq, not_true_eq_false, if_false, Except.bind, checkCov, Cov.Core.inputShape]
    by_cases h3 : k.in0 = f.inS <;> split_ifs <;> simp_all [Except.map]
  · show mkProcess f.inS f.outS (.given f) .wrong = _
    simp only [mkProcess, not_lt.mpr h, if_false, checkMean, ne_eq, not_true_eq_false, Except.bind, checkCov, Except.map]

/-- The general constructor `RandomProcess(input_shape, output_shape, …, mean, cov)`: at most one output axis, a mean
function with exactly these shapes (or none), and a covariance function with exactly these shapes (or none); the process
keeps what it was given. -/
theorem mkProcess_ok_iff (i o : List ℕ) (m : Arg Functions.Core) (c : Arg Cov.Core) (P : Process) :
    mkProcess i o m c = .ok P ↔ o.length ≤ 1 ∧
      (m = .missing ∧ P.mean = none ∨ ∃ f, m = .given f ∧ f.inS = i ∧ f.outS = o ∧ P.mean = some f) ∧
      (c = .missing ∧ P.cov = none ∨ ∃ k, c = .given k ∧ k.in0 = i ∧ k.in1 = i ∧ k.out0 = o ∧ k.out1 = o ∧ P.cov = some k) ∧
      P.inS = i ∧ P.outS = o := by
  have hmean : ∀ r, checkMean i o m = .ok r ↔
      (m = .missing ∧ r = none ∨ ∃ f, m = .given f ∧ f.inS = i ∧ f.outS = o ∧ r = some f) := by
    intro r
    cases m with
    | missing => simp [checkMean, eq_comm]
    | wrong => simp [checkMean]
    | given f =>
      by_cases h1 : f.inS = i <;> by_cases h2 : f.outS = o <;>
        first | (simp [checkMean, h1, h2]; done) | (simp [checkMean, h1, h2]; exact eq_comm)
  have hcov : ∀ r, checkCov i o c = .ok r ↔
      (c = .missing ∧ r = none ∨ ∃ k, c = .given k ∧ k.in0 = i ∧ k.in1 = i ∧ k.out0 = o ∧ k.out1 = o ∧ r = some k) := by
    intro r
    cases c with
    | missing => simp [checkCov, eq_comm]
    | wrong => simp [checkCov]
    | given k =>
      simp only [checkCov, Cov.Core.inputShape]
      by_cases h0 : k.in0 = k.in1
      · by_cases h1 : k.in1 = i <;> by_cases h2 : k.out0 = o <;> by_cases h3 : k.out1 = o <;>
          first | (simp [h0, h1, h2, h3, Except.bind]; done) | (simp [h0, h1, h2, h3, Except.bind]; exact eq_comm)
      · have : ¬(k.in0 = i ∧ k.in1 = i) := fun h => h0 (h.1.trans h.2.symm)
        simp only [ne_eq, h0, not_false_eq_true, if_true, Except.bind, reduceCtorEq, false_iff, false_and, false_or, not_exists,
          Arg.given.injEq]
        rintro k' ⟨rfl, a, b, -⟩
        exact this ⟨a, b⟩
  rw [mkProcess]
  by_cases h1 : 1 < o.length
  · rw [if_pos h1]
    exact ⟨(fun h => by cases h), fun h => absurd h.1 (not_le.mpr h1)⟩
  rw [if_neg h1]
  constructor
  · intro h
    cases hm : checkMean i o m with
    | error e => rw [hm] at h; cases h
    | ok f =>
      cases hc : checkCov i o c with
      | error e => rw [hm, hc] at h; cases h
      | ok k =>
        rw [hm, hc] at h
        cases h
        exact ⟨not_lt.mp h1, (hmean f).1 hm, (hcov k).1 hc, rfl, rfl⟩
  · rintro ⟨-, a, b, rfl, rfl⟩
    rw [(hmean _).2 a, (hcov _).2 b]
    rfl

/-- Everything the general constructor rejects is a TypeError if an argument is of the wrong class and the other checks
before it pass, and a ValueError otherwise. -/
theorem mkProcess_errors (i o : List ℕ) (m : Arg Functions.Core) (c : Arg Cov.Core) :
    (1 < o.length → mkProcess i o m c = .error .valueError) ∧
    (o.length ≤ 1 → mkProcess i o .wrong c = .error .typeError) ∧
    (∀ f, m = .given f → f.inS ≠ i ∨ f.outS ≠ o → mkProcess i o m c = .error .valueError) ∧
    (o.length ≤ 1 → mkProcess i o .missing .wrong = .error .typeError) ∧
    (∀ k, c = .given k → k.in0 ≠ i ∨ k.in1 ≠ i ∨ k.out0 ≠ o ∨ k.out1 ≠ o → mkProcess i o .missing c = .error .valueError) := by
  refine ⟨fun h => if_pos h, fun h => ?_, ?_, fun h => ?_, ?_⟩
  · rw [mkProcess, if_neg (not_lt.mpr h)]; rfl
  · rintro f rfl h
    rw [mkProcess]
    split
    · rfl
    · by_cases h1 : f.inS = i
      · have h2 : f.outS ≠ o := h.resolve_left (not_not.2 h1)
        simp [checkMean, h1, h2, Except.bind]
      · simp [checkMean, h1, Except.bind]
  · rw [mkProcess, if_neg (not_lt.mpr h)]; rfl
  · rintro k rfl h
    rw [mkProcess]
    split
    · rfl
    · simp only [checkMean, Except.bind, checkCov, Cov.Core.inputShape]
      by_cases h0 : k.in0 = k.in1
      · by_cases h1 : k.in1 = i
        · have h2 : ¬(k.out0 = o ∧ k.out1 = o) := by
            rintro ⟨a, b⟩
            rcases h with h | h | h | h
            exacts [h (h0.trans h1), h h1, h a, h b]
          simp only [ne_eq, h0, h1, not_true_eq_false, if_false, h2, not_false_eq_true, if_true, Except.map]
        · simp [h0, h1, Except.map]
      · simp [h0, Except.map]

/-! ## Evaluation -/

theorem prod_ravel_lt {b B : List ℕ} (h : Valid b B) : ravel b B < b.prod := ravel_lt h

/-- The covariance matrix of any covariance function at a batch: row `j·N + n` belongs to output `j` and point `n`. -/
theorem matrix_entries {k : Cov.Core} {i o : List ℕ} {κ : Point → Point → List ℕ → List ℕ → ℝ} (hk : IsCov k i o κ) (hi : i.prod ≠ 0)
    {x : Inp} {b : List ℕ} (hx : x.arr.shape = b ++ i) (hf : x.int = false) :
    ∃ m, Cov.matrix k x none = .ok m ∧ m.shape = [o.prod * b.prod, o.prod * b.prod] ∧
      ∀ B B' j j', Valid b B → Valid b B' → Valid o j → Valid o j' →
        m.get [ravel o j * b.prod + ravel b B, ravel o j' * b.prod + ravel b B'] = κ (pt x.arr B) (pt x.arr B') j j' := by
  have hb := outer_batch (i := i) (N := b.prod) (M := b.prod) (x := x.arr.withShape (b.prod :: i))
    (y := x.arr.withShape (b.prod :: i)) rfl rfl x.int x.int
  obtain ⟨c, hc, hcs, hcv⟩ := hk.computes ⟨insertAxis (x.arr.withShape (b.prod :: i)), x.int⟩ _ _ hf hb
  have hin : k.inputShape = .ok i := by rw [Cov.Core.inputShape, hk.in0, hk.in1, if_neg (by simp)]
  obtain ⟨m, hm, hms, hmv⟩ := evaluateMatrix_ok (k := k) (N := b.prod) (M := b.prod) (x0 := ⟨x.arr.withShape (b.prod :: i), x.int⟩)
    (x1 := none) hc (by rw [hcs, hk.out0, hk.out1]; rfl)
  rw [hk.out0, hk.out1] at hms hmv
  refine ⟨m, ?_, hms, fun B B' j j' hB hB' hj hj' => ?_⟩
  · rw [Cov.matrix, hk.in0, preprocess_ok hin hx hi]
    exact hm
  · rw [hmv j j' _ _ hj hj' (ravel_lt hB) (ravel_lt hB')]
    have hv : Valid [b.prod, b.prod] [ravel b B, ravel b B'] :=
      List.Forall₂.cons (ravel_lt hB) (List.Forall₂.cons (ravel_lt hB') List.Forall₂.nil)
    have := hcv [ravel b B, ravel b B'] j j' hv hj hj'
    rw [show ravel b B :: ravel b B' :: (j ++ j') = [ravel b B, ravel b B'] ++ (j ++ j') from rfl, this]
    show κ (pointAt i (insertAxis (x.arr.withShape (b.prod :: i))) [ravel b B, ravel b B'])
      (pointAt i (x.arr.withShape (b.prod :: i)).asRow [ravel b B, ravel b B']) j j' = _
    rw [pointAt_insert (i := i) (N := b.prod) (x := x.arr.withShape (b.prod :: i)) rfl (ravel_lt hB) _,
      pointAt_asRow (i := i) (M := b.prod) (y := x.arr.withShape (b.prod :: i)) rfl (ravel_lt hB') _]
    have e : ∀ A, Valid b A → Agree i (fun k => (x.arr.withShape (b.prod :: i)).get (ravel b A :: k)) (pt x.arr A) := fun A hA k' hk' => by
      have := withShape_point hx (ravel_lt hA) k' hk'
      rw [batchPoint, unravel_ravel hA] at this
      exact this
    exact hk.ext _ _ _ _ (e B hB) (e B' hB') j j'

/-- What the process returns at every batch of float points, for every output shape the constructor admits: if mean and
matrix fit together, the random variable has the right mean, and entry `(j·N + n, j'·N + n')` of its covariance matrix is
the covariance of output `j` at point `n` and output `j'` at point `n'`; otherwise ValueError. -/
theorem call_outcome {f : Functions.Core} {k : Cov.Core} {i o : List ℕ} {μ : Point → List ℕ → ℝ} {κ : Point → Point → List ℕ → List ℕ → ℝ}
    (hm : IsMean f i o μ) (hk : IsCov k i o κ) (ho : o.length ≤ 1) (hi : i.prod ≠ 0) {x : Inp} {b : List ℕ} (hx : x.arr.shape = b ++ i)
    (hf : x.int = false) :
    ∃ P, mkGP (.given f) (.given k) = .ok P ∧
      ((b ++ o).length = 0 ∨ 2 < (b ++ o).length → P.call x = .error .valueError) ∧
      (0 < (b ++ o).length → (b ++ o).length ≤ 2 → ∃ N, P.call x = .ok N ∧ N.mean.shape = b ++ o ∧
        (∀ B j, Valid b B → Valid o j → N.mean.get (B ++ j) = μ (pt x.arr B) j) ∧
        ∀ B B' j j', Valid b B → Valid b B' → Valid o j → Valid o j' →
          N.cov.get [ravel o j * b.prod + ravel b B, ravel o j' * b.prod + ravel b B'] = κ (pt x.arr B) (pt x.arr B') j j') := by
  refine ⟨_, (mkGP_ok_iff f k _).mpr ⟨by rw [hm.2.1]; exact ho, hk.in0.trans hm.1.symm, hk.in1.trans hm.1.symm,
    hk.out0.trans hm.2.1.symm, hk.out1.trans hm.2.1.symm, rfl⟩, ?_⟩
  obtain ⟨y, hy, hys, hyv⟩ := hm.2.2 x.arr b hx
  obtain ⟨m, hmat, hms, hmv⟩ := matrix_entries hk hi hx hf
  have hcall : Process.call ⟨f.inS, f.outS, some f, some k⟩ x = mkNormal y m none := by
    simp only [Process.call, Process.getMean, Process.getCov, Except.bind, hy, hmat]
  have hlen : y.ndim = (b ++ o).length := by rw [Arr.ndim, hys]
  constructor
  · intro h
    rw [hcall, mkNormal]
    rcases h with h | h
    · rw [if_neg (by omega), if_pos]
      rw [hms, hys, List.length_eq_zero_iff.mp h]
      simp [expectedCov]
    · rw [if_pos (by omega)]
  · intro h1 h2
    refine ⟨⟨y, m, none⟩, ?_, hys, hyv, hmv⟩
    rw [hcall, mkNormal, if_neg (by omega), if_neg, if_neg (by simp [badFactor])]
    have hne : b ++ o ≠ [] := fun h => by rw [h] at h1; exact absurd h1 (by simp)
    rw [hms, hys, expectedCov, if_neg hne, List.prod_append, Nat.mul_comm]
    simp

/-- The property, for scalar outputs, for outputs with one entry and for one point.  Missing: several points and several
outputs (see `call_wrong_order`), and the cases in which evaluation raises (see `call_outcome`, `single_point_raises`). -/
theorem call_moments_partial {f : Functions.Core} {k : Cov.Core} {i o : List ℕ} {μ : Point → List ℕ → ℝ}
    {κ : Point → Point → List ℕ → List ℕ → ℝ} (hm : IsMean f i o μ) (hk : IsCov k i o κ) (ho : o.length ≤ 1) (hi : i.prod ≠ 0) {x : Inp}
    {b : List ℕ} (hx : x.arr.shape = b ++ i) (hf : x.int = false) (h1 : 0 < (b ++ o).length) (h2 : (b ++ o).length ≤ 2)
    (hone : b.prod ≤ 1 ∨ o.prod ≤ 1) :
    ∃ P N, mkGP (.given f) (.given k) = .ok P ∧ P.call x = .ok N ∧ HasMoments N b o x.arr μ κ := by
  obtain ⟨P, hP, _, h⟩ := call_outcome hm hk ho hi hx hf
  obtain ⟨N, hN, hs, hv, hc⟩ := h h1 h2
  refine ⟨P, N, hP, hN, hs, fun B j hB hj => ⟨hv B j hB hj, fun B' j' hB' hj' => ?_⟩⟩
  have hne : N.mean.shape ≠ [] := fun h => by rw [hs] at h; rw [h] at h1; exact absurd h1 (by simp)
  have e : ∀ A l, Valid b A → Valid o l → ravel (b ++ o) (A ++ l) = ravel o l * b.prod + ravel b A := by
    intro A l hA hl
    rw [ravel_append hl.length]
    have r1 := ravel_lt hA
    have r2 := ravel_lt hl
    rcases hone with hone | hone
    · have e1 : b.prod = 1 := by omega
      have e2 : ravel b A = 0 := by omega
      rw [e1, e2]; ring
    · have e1 : o.prod = 1 := by omega
      have e2 : ravel o l = 0 := by omega
      rw [e1, e2]; ring
  rw [covAt, if_neg hne, hs, e B j hB hj, e B' j' hB' hj']
  exact hc B B' j j' hB hB' hj hj'

/-- At a single point a process with scalar output raises ValueError. -/
theorem single_point_raises {f : Functions.Core} {k : Cov.Core} {i : List ℕ} {μ : Point → List ℕ → ℝ}
    {κ : Point → Point → List ℕ → List ℕ → ℝ} (hm : IsMean f i [] μ) (hk : IsCov k i [] κ) (hi : i.prod ≠ 0) {x : Inp}
    (hx : x.arr.shape = i) (hf : x.int = false) :
    ∃ P, mkGP (.given f) (.given k) = .ok P ∧ P.call x = .error .valueError := by
  obtain ⟨P, hP, h, _⟩ := call_outcome hm hk (by simp) hi (b := []) hx hf
  exact ⟨P, hP, h (Or.inl rfl)⟩

/-- The covariance of a process whose first output is the same random number of variance 1 everywhere, and whose other
outputs are 0. -/
def firstOnly (_ _ : Point) (j j' : List ℕ) : ℝ := if j = [0] ∧ j' = [0] then 1 else 0

/-- At two or more points, with two or more outputs, the random variable does not have the moments of the process: the
mean is laid out point by point, the covariance matrix output by output.  For instance it assigns variance 1 to the
second output at the first point, which the process has at 0. -/
theorem call_wrong_order {f : Functions.Core} {k : Cov.Core} {i : List ℕ} {n d : ℕ} {μ : Point → List ℕ → ℝ} (hn : 2 ≤ n) (hd : 2 ≤ d)
    (hm : IsMean f i [d] μ) (hk : IsCov k i [d] firstOnly) (hi : i.prod ≠ 0) {x : Inp} (hx : x.arr.shape = n :: i) (hf : x.int = false) :
    ∃ P N, mkGP (.given f) (.given k) = .ok P ∧ P.call x = .ok N ∧ covAt N [0, 1] [0, 1] = 1 ∧
      firstOnly (pt x.arr [0]) (pt x.arr [0]) [1] [1] = 0 ∧ ¬HasMoments N [n] [d] x.arr μ firstOnly := by
  obtain ⟨P, hP, _, h⟩ := call_outcome hm hk (by simp) hi (b := [n]) hx hf
  obtain ⟨N, hN, hs, hv, hc⟩ := h (by simp) (by simp)
  have v : ∀ {m a : ℕ}, a < m → Valid [m] [a] := fun h => List.Forall₂.cons h List.Forall₂.nil
  have h1 := hc [1] [1] [0] [0] (v (by omega)) (v (by omega)) (v (by omega)) (v (by omega))
  have hr : ∀ m a : ℕ, ravel [m] [a] = a := fun m a => by simp [ravel, rav]
  have h2 : covAt N [0, 1] [0, 1] = 1 := by
    rw [covAt, hs, if_neg (by simp), show [n] ++ [d] = [n, d] from rfl, ravel_two]
    rw [hr, hr] at h1
    simpa [firstOnly] using h1
  have h3 : firstOnly (pt x.arr [0]) (pt x.arr [0]) [1] [1] = 0 := by simp [firstOnly]
  refine ⟨P, N, hP, hN, h2, h3, fun hmom => ?_⟩
  have := ((hmom.2 [0] [1] (v (by omega)) (v (by omega))).2 [0] [1] (v (by omega)) (v (by omega)))
  rw [h3] at this
  exact absurd (h2.symm.trans this) (by norm_num)

/-! ## Variance -/

/-- `var` returns, at every batch of float points, the variance of every output at every point (for every batch
shape). -/
theorem var_moments {f : Functions.Core} {k : Cov.Core} {i o : List ℕ} {μ : Point → List ℕ → ℝ}
    {κ : Point → Point → List ℕ → List ℕ → ℝ} (hm : IsMean f i o μ) (hk : IsCov k i o κ) (ho : o.length ≤ 1) {x : Inp}
    {b : List ℕ} (hx : x.arr.shape = b ++ i) (hf : x.int = false) :
    ∃ P v, mkGP (.given f) (.given k) = .ok P ∧ P.var x = .ok v ∧ v.shape = b ++ o ∧
      ∀ B j, Valid b B → Valid o j → v.get (B ++ j) = κ (pt x.arr B) (pt x.arr B) j j := by
  obtain ⟨c, hc, hcs, hcv⟩ := hk.computes x none b hf hx
  have hp : ∀ B, Valid b B → Agree i (pointAt i x.arr B) (pt x.arr B) := fun B hB k' _ => by
    rw [pointAt, hx, List.length_append, Nat.add_sub_cancel, List.take_left, Functions.bir_valid hB.rev, List.reverse_reverse]
    rfl
  have key : ∀ B j j', Valid b B → Valid o j → Valid o j' → c.get (B ++ (j ++ j')) = κ (pt x.arr B) (pt x.arr B) j j' :=
    fun B j j' hB hj hj' => (hcv B j j' hB hj hj').trans (hk.ext _ _ _ _ (hp B hB) (hp B hB) j j')
  have hsl : Functions.sliceTo x.arr.shape ((x.arr.shape.length : ℤ) - i.length) = b := by
    rw [hx]; exact Functions.sliceTo_append b i
  have hvar : Process.var ⟨f.inS, f.outS, some f, some k⟩ x =
      if o.length = 0 then .ok c else if o.length ≠ 1 then .error .assertionError else .ok (diagLast c) := by
    simp only [Process.var, Process.getCov, Except.bind, hc, hm.1, hm.2.1, hsl, hcs, ne_eq, not_true_eq_false, if_false]
  have hP := (mkGP_ok_iff f k _).mpr ⟨by rw [hm.2.1]; exact ho, hk.in0.trans hm.1.symm, hk.in1.trans hm.1.symm,
    hk.out0.trans hm.2.1.symm, hk.out1.trans hm.2.1.symm, rfl⟩
  match o, ho with
  | [], _ =>
    refine ⟨_, c, hP, by rw [hvar]; rfl, by simpa using hcs, fun B j hB hj => ?_⟩
    have := key B j j hB hj hj
    cases hj
    exact this
  | [d], _ =>
    refine ⟨_, diagLast c, hP, by rw [hvar]; rfl, ?_, fun B j hB hj => ?_⟩
    · show c.shape.dropLast = _
      rw [hcs, show b ++ ([d] ++ [d]) = (b ++ [d]) ++ [d] by simp, List.dropLast_concat]
    · obtain ⟨a, rfl⟩ : ∃ a, j = [a] := by
        cases hj with
        | cons _ h => cases h; exact ⟨_, rfl⟩
      show c.get (B ++ [a] ++ [(B ++ [a]).getLastD 0]) = _
      rw [List.getLastD_concat, ← key B [a] [a] hB hj hj, List.append_assoc]

/-- The standard deviations are the nonnegative square roots of the variances. -/
theorem std_moments {f : Functions.Core} {k : Cov.Core} {i o : List ℕ} {μ : Point → List ℕ → ℝ}
    {κ : Point → Point → List ℕ → List ℕ → ℝ} (hm : IsMean f i o μ) (hk : IsCov k i o κ) (ho : o.length ≤ 1) {x : Inp}
    {b : List ℕ} (hx : x.arr.shape = b ++ i) (hf : x.int = false) :
    ∃ P v, mkGP (.given f) (.given k) = .ok P ∧ P.std x = .ok v ∧ v.shape = b ++ o ∧
      ∀ B j, Valid b B → Valid o j → 0 ≤ κ (pt x.arr B) (pt x.arr B) j j →
        0 ≤ v.get (B ++ j) ∧ v.get (B ++ j) ^ 2 = κ (pt x.arr B) (pt x.arr B) j j := by
  obtain ⟨P, v, hP, hv, hs, h⟩ := var_moments hm hk ho hx hf
  refine ⟨P, v.map Real.sqrt, hP, by rw [Process.std, hv]; rfl, hs, fun B j hB hj h0 => ?_⟩
  have e : (v.map Real.sqrt).get (B ++ j) = Real.sqrt (κ (pt x.arr B) (pt x.arr B) j j) := by
    rw [← h B j hB hj]; rfl
  rw [e]
  exact ⟨Real.sqrt_nonneg _, Real.sq_sqrt h0⟩

/-! ## The library's covariance functions -/

/-- Every expression in the library's covariance functions computes its documented formula. -/
theorem library_isCov {i : List ℕ} (e : KExpr) (he : e.Admits i) :
    ∃ f, e.make = .ok f ∧ IsCov f.core i [] fun x y _ _ => e.value x y := by
  have hb0 : Batch i ⟨⟨i, fun _ => 0⟩, false⟩ none [] := rfl
  obtain ⟨l, _⟩ := KExpr.leaves hb0 rfl he
  obtain ⟨f, hmk, g⟩ := build_good valOf hb0 e.toExpr (KExpr.uniform he) l
  have hf : e.make = .ok f := by rw [KExpr.make_eq he, hmk]
  refine ⟨f, hf, g.shaped.in0, g.shaped.in1, g.shaped.out0, g.shaped.out1, fun x x' y y' hx hy _ _ => KExpr.value_agree hx hy he,
    fun x0 x1 b hint hb => ?_⟩
  obtain ⟨f', y, h1, h2, h3, h4⟩ := library_pointwise e he hb hint
  obtain rfl : f = f' := Except.ok.inj (hf.symm.trans h1)
  refine ⟨y, h2, by rw [h3]; simp, fun B j j' hB hj hj' => ?_⟩
  cases hj
  cases hj'
  rw [← h4 B hB]; simp

/-- A process with scalar output and one of the library's covariance functions, at every batch with one or two axes:
the random variable has the mean function as mean and the documented covariances. -/
theorem library_process {f : Functions.Core} {i : List ℕ} {μ : Point → List ℕ → ℝ} (hm : IsMean f i [] μ) (e : KExpr) (he : e.Admits i)
    (hi : i.prod ≠ 0) {x : Inp} {b : List ℕ} (hx : x.arr.shape = b ++ i) (hf : x.int = false) (h1 : b.length = 1 ∨ b.length = 2) :
    ∃ k P N, e.make = .ok k ∧ mkGP (.given f) (.given k.core) = .ok P ∧ P.call x = .ok N ∧ N.mean.shape = b ∧
      ∀ B, Valid b B → N.mean.get B = μ (pt x.arr B) [] ∧
        ∀ B', Valid b B' → N.cov.get [ravel b B, ravel b B'] = e.value (pt x.arr B) (pt x.arr B') := by
  obtain ⟨k, hmk, hk⟩ := library_isCov e he
  have hl : (b ++ []).length = b.length := by simp
  obtain ⟨P, N, hP, hN, hs, h⟩ := call_moments_partial hm hk (by simp) hi hx hf (by omega) (by omega) (Or.inr (by simp))
  have hb : b ≠ [] := fun h => by rw [h] at h1; simp at h1
  refine ⟨k, P, N, hmk, hP, hN, by simpa using hs, fun B hB => ?_⟩
  obtain ⟨hμ, hκ⟩ := h B [] hB List.Forall₂.nil
  refine ⟨by simpa using hμ, fun B' hB' => ?_⟩
  have := hκ B' [] hB' List.Forall₂.nil
  rw [covAt, hs, if_neg (by simpa using hb)] at this
  simpa using this

/-- The zero mean function. -/
theorem zero_isMean (i o : List ℕ) : IsMean (Functions.mkZero i o).core i o fun _ _ => 0 := by
  refine ⟨rfl, rfl, fun x b hx => ⟨⟨b ++ o, fun _ => 0⟩, ?_, rfl, fun _ _ _ _ => rfl⟩⟩
  show Functions.checkedCall i o (Functions.zeroEval i o) x = _
  have h1 : Functions.sliceFrom x.shape ((x.shape.length : ℤ) - i.length) = i := by
    rw [hx]; exact Functions.sliceFrom_append b i
  have h2 : Functions.sliceTo x.shape ((x.shape.length : ℤ) - i.length) = b := by
    rw [hx]; exact Functions.sliceTo_append b i
  simp only [Functions.checkedCall, h1, ne_eq, not_true_eq_false, if_false, Functions.zeroEval, h2, Except.bind, if_true]

example : ∃ k P N, exampleTree.make = .ok k ∧ mkGP (.given (Functions.mkZero [] []).core) (.given k.core) = .ok P ∧
    P.call twoPoints = .ok N ∧ N.mean.shape = [2] ∧ ∀ B, Valid [2] B → N.mean.get B = 0 ∧
      ∀ B', Valid [2] B' → N.cov.get [ravel [2] B, ravel [2] B'] = exampleTree.value (pt twoPoints.arr B) (pt twoPoints.arr B') :=
  library_process (zero_isMean [] []) exampleTree exampleTree_admits (by simp) rfl rfl (Or.inl rfl)

example : ∃ k P, exampleTree.make = .ok k ∧ mkGP (.given (Functions.mkZero [] []).core) (.given k.core) = .ok P ∧
    P.call ⟨⟨[], fun _ => 1⟩, false⟩ = .error .valueError := by
  obtain ⟨k, hmk, hk⟩ := library_isCov exampleTree exampleTree_admits
  obtain ⟨P, h⟩ := single_point_raises (zero_isMean [] []) hk (by simp) (x := ⟨⟨[], fun _ => 1⟩, false⟩) rfl rfl
  exact ⟨k, P, hmk, h⟩

/-- A user-defined covariance function with vector output. -/
def firstCov (i : List ℕ) (d : ℕ) : Cov.CovFn :=
  mkCov i i [d] [d] fun x0 x1 =>
    (checkShapes i i x0.arr.shape (x1.map fun x => x.arr.shape)).map fun b =>
      ⟨b ++ [d] ++ [d], fun idx => if idx.drop b.length = [0, 0] then 1 else 0⟩

theorem firstCov_isCov (i : List ℕ) (d : ℕ) : IsCov (firstCov i d).core i [d] firstOnly where
  in0 := rfl
  in1 := rfl
  out0 := rfl
  out1 := rfl
  ext := fun _ _ _ _ _ _ _ _ => rfl
  computes := fun x0 x1 b _ hb => by
    refine ⟨⟨b ++ [d] ++ [d], fun idx => if idx.drop b.length = [0, 0] then 1 else 0⟩, ?_, by simp, fun B j j' hB hj hj' => ?_⟩
    · simp only [firstCov, mkCov, covCall, checkShapes_ok hb, Except.bind, Except.map]
      exact if_pos trivial
    · show (if (B ++ (j ++ j')).drop b.length = [0, 0] then (1 : ℝ) else 0) = _
      rw [hB.length, List.drop_left]
      obtain ⟨a, rfl⟩ : ∃ a, j = [a] := by
        cases hj with
        | cons _ h => cases h; exact ⟨_, rfl⟩
      obtain ⟨a', rfl⟩ : ∃ a', j' = [a'] := by
        cases hj' with
        | cons _ h => cases h; exact ⟨_, rfl⟩
      simp [firstOnly]

example : ∃ P N, mkGP (.given (Functions.mkZero [] [2]).core) (.given (firstCov [] 2).core) = .ok P ∧
    P.call ⟨⟨[3], fun _ => 0⟩, false⟩ = .ok N ∧ covAt N [0, 1] [0, 1] = 1 ∧ firstOnly (pt ⟨[3], fun _ => 0⟩ [0]) (pt ⟨[3], fun _ => 0⟩ [0]) [1] [1] = 0 ∧
      ¬HasMoments N [3] [2] ⟨[3], fun _ => 0⟩ (fun _ _ => 0) firstOnly :=
  call_wrong_order (by norm_num) le_rfl (zero_isMean [] [2]) (firstCov_isCov [] 2) (by simp) (x := ⟨⟨[3], fun _ => 0⟩, false⟩) rfl rfl

example : ∃ P v, mkGP (.given (Functions.mkZero [] [2]).core) (.given (firstCov [] 2).core) = .ok P ∧
    P.var ⟨⟨[3], fun _ => 0⟩, false⟩ = .ok v ∧ v.shape = [3, 2] ∧ ∀ B j, Valid [3] B → Valid [2] j → v.get (B ++ j) =
      firstOnly (pt ⟨[3], fun _ => 0⟩ B) (pt ⟨[3], fun _ => 0⟩ B) j j :=
  var_moments (zero_isMean [] [2]) (firstCov_isCov [] 2) (by simp) (x := ⟨⟨[3], fun _ => 0⟩, false⟩) (b := [3]) rfl rfl

example : ∃ P v, mkGP (.given (Functions.mkZero [] [2]).core) (.given (firstCov [] 2).core) = .ok P ∧
    P.std ⟨⟨[3], fun _ => 0⟩, false⟩ = .ok v ∧ v.get [1, 0] = 1 := by
  obtain ⟨P, v, h1, h2, -, h⟩ := std_moments (zero_isMean [] [2]) (firstCov_isCov [] 2) (by simp)
    (x := ⟨⟨[3], fun _ => 0⟩, false⟩) (b := [3]) rfl rfl
  have := h [1] [0] (by simp [Valid]) (by simp [Valid]) (by simp [firstOnly])
  refine ⟨P, v, h1, h2, ?_⟩
  obtain ⟨h3, h4⟩ := this
  rw [show ([1] : List ℕ) ++ [0] = [1, 0] from rfl] at h3 h4
  have h5 : v.get [1, 0] ^ 2 = 1 := by rw [h4]; simp [firstOnly]
  nlinarith [sq_nonneg (v.get [1, 0] - 1), sq_nonneg (v.get [1, 0] + 1)]

end Probnum.GP
