import Verif.RandVars.ArrLemmas
import Verif.RandVars.Spec
import Verif.Gauss.Lemmas

/-! Helper lemmas: laws of transformed random arrays. -/

namespace Probnum.RandVars

open MeasureTheory ProbabilityTheory Finset Gauss

variable {Ω : Type*} {mΩ : MeasurableSpace Ω} {P : Measure Ω} {X Y : Ω → Arr} {N M N' : Normal}

theorem mkNormal_ok {m C : Arr} {L : Option Arr} (h : mkNormal m C L = .ok N') :
    N' = ⟨m, C, L⟩ ∧ N'.WF ∧ m.ndim ≤ 2 ∧ C.shape = expectedCov m.shape ∧ ¬ badFactor m C L := by
  have h' := h
  unfold mkNormal at h'
  split at h'
  · cases h'
  · rename_i h1
    split at h'
    · cases h'
    · rename_i h2
      split at h'
      · cases h'
      · rename_i h3
        cases h'
        exact ⟨rfl, h, Nat.le_of_not_lt h1, by simpa using h2, h3⟩

theorem Normal.WF.ndim (h : N.WF) : N.mean.ndim ≤ 2 := (mkNormal_ok h).2.2.1
theorem Normal.WF.cov (h : N.WF) : N.cov.shape = expectedCov N.mean.shape := (mkNormal_ok h).2.2.2.1
theorem Normal.WF.factor (h : N.WF) {L : Arr} (hL : N.chol = some L) (h0 : N.mean.shape ≠ []) : L.shape = N.cov.shape := by
  have := (mkNormal_ok h).2.2.2.2
  rw [hL] at this
  by_contra hne
  exact this ⟨h0, hne⟩

theorem mkNormal_eq {m C : Arr} (h1 : m.ndim ≤ 2) (h2 : C.shape = expectedCov m.shape) :
    mkNormal m C none = .ok ⟨m, C, none⟩ := by
  rw [mkNormal, if_neg (by omega), if_neg (by simpa using h2), if_neg (by simp [badFactor])]

theorem expectedCov_prod (s : List ℕ) : (expectedCov s).prod = s.prod * s.prod := by
  unfold expectedCov
  split
  · rename_i h; subst h; rfl
  · simp

theorem expectedCov_inj {s t : List ℕ} (h : expectedCov s = expectedCov t) : s.prod = t.prod := by
  unfold expectedCov at h
  split at h <;> split at h
  · rename_i h1 h2; rw [h1, h2]
  · cases h
  · cases h
  · simp at h; exact h

theorem Normal.WF.cov_size (h : N.WF) : N.cov.size = N.mean.size * N.mean.size := by
  rw [Arr.size, h.cov, expectedCov_prod]; rfl

theorem mul_add_lt {n i j : ℕ} (hi : i < n) (hj : j < n) : i * n + j < n * n := by
  calc i * n + j < i * n + n := by omega
    _ = (i + 1) * n := by ring
    _ ≤ n * n := Nat.mul_le_mul_right _ hi

/-- An operation on arrays that is affine in the entries. -/
def AffineOp (f : Arr → Res Arr) (s s' : List ℕ) (A : ℕ → ℕ → ℝ) (b : ℕ → ℝ) : Prop :=
  ∀ x : Arr, x.shape = s → ∃ y, f x = .ok y ∧ y.shape = s' ∧
    ∀ i < s'.prod, y.flat i = ∑ k ∈ range s.prod, A i k * x.flat k + b i

theorem law_affine {f : Arr → Res Arr} {s' : List ℕ} {A : ℕ → ℕ → ℝ} {b : ℕ → ℝ} (hX : Law P X N)
    (hf : AffineOp f N.mean.shape s' A b) (hm : f N.mean = .ok N'.mean)
    (hC : ∀ i < s'.prod, ∀ j < s'.prod,
      N'.covAt i j = ∑ l ∈ range N.mean.size, (∑ k ∈ range N.mean.size, A i k * N.covAt k l) * A j l) :
    ∃ Y : Ω → Arr, (∀ ω, f (X ω) = .ok (Y ω)) ∧ Law P Y N' := by
  obtain ⟨y0, h1, h2, h3⟩ := hf N.mean rfl
  have hy0 : y0 = N'.mean := Except.ok.inj (h1.symm.trans hm)
  subst hy0
  have hsz : s'.prod = N'.mean.size := by rw [Arr.size, h2]
  choose Y hY1 hY2 hY3 using fun ω => hf (X ω) (hX.shape ω)
  refine ⟨Y, hY1, fun ω => (hY2 ω).trans h2.symm, ?_⟩
  have key := hX.normal.affine (Matrix.of fun (i : Fin N'.mean.size) (k : Fin N.mean.size) => A i k)
    (fun i : Fin N'.mean.size => b i)
  have e1 : (fun ω => (Matrix.of fun (i : Fin N'.mean.size) (k : Fin N.mean.size) => A i k).mulVec
      (entries X N.mean.size ω) + fun i : Fin N'.mean.size => b i) = entries Y N'.mean.size := by
    funext ω i
    simp only [Pi.add_apply, Matrix.mulVec, dotProduct, Matrix.of_apply, entries]
    rw [hY3 ω i (by rw [hsz]; exact i.2), Fin.sum_univ_eq_sum_range (fun k => A i k * (X ω).flat k)]; rfl
  have e2 : ((Matrix.of fun (i : Fin N'.mean.size) (k : Fin N.mean.size) => A i k).mulVec
      (fun i : Fin N.mean.size => N.mean.flat i) + fun i : Fin N'.mean.size => b i) =
      fun i : Fin N'.mean.size => N'.mean.flat i := by
    funext i
    simp only [Pi.add_apply, Matrix.mulVec, dotProduct, Matrix.of_apply]
    rw [h3 i (by rw [hsz]; exact i.2), Fin.sum_univ_eq_sum_range (fun k => A i k * N.mean.flat k)]; rfl
  rw [e1, e2] at key
  convert key using 1
  ext i j
  simp only [Matrix.of_apply, Matrix.mul_apply, Matrix.transpose_apply]
  rw [hC i (by rw [hsz]; exact i.2) j (by rw [hsz]; exact j.2),
    ← Fin.sum_univ_eq_sum_range (fun l => (∑ k ∈ range N.mean.size, A i k * N.covAt k l) * A j l)]
  refine Finset.sum_congr rfl fun l _ => ?_
  rw [← Fin.sum_univ_eq_sum_range (fun k => A i k * N.covAt k l)]

/-- An operation that selects, scales and shifts entries. -/
def SelectOp (f : Arr → Res Arr) (s s' : List ℕ) (σ : ℕ → ℕ) (α : ℝ) (b : ℕ → ℝ) : Prop :=
  ∀ x : Arr, x.shape = s → ∃ y, f x = .ok y ∧ y.shape = s' ∧
    ∀ i < s'.prod, σ i < s.prod ∧ y.flat i = α * x.flat (σ i) + b i

theorem sum_pick {n k : ℕ} (hk : k < n) (g : ℕ → ℝ) (α : ℝ) :
    ∑ l ∈ range n, (if l = k then α else 0) * g l = α * g k := by
  rw [Finset.sum_eq_single k]
  · rw [if_pos rfl]
  · intro l _ h; rw [if_neg h, zero_mul]
  · intro h; exact absurd (mem_range.2 hk) h

theorem SelectOp.affine {f : Arr → Res Arr} {s s' : List ℕ} {σ : ℕ → ℕ} {α : ℝ} {b : ℕ → ℝ}
    (h : SelectOp f s s' σ α b) : AffineOp f s s' (fun i k => if k = σ i then α else 0) b := by
  intro x hx
  obtain ⟨y, h1, h2, h3⟩ := h x hx
  refine ⟨y, h1, h2, fun i hi => ?_⟩
  rw [sum_pick (h3 i hi).1, (h3 i hi).2]

theorem law_select {f : Arr → Res Arr} {s' : List ℕ} {σ : ℕ → ℕ} {α : ℝ} {b : ℕ → ℝ} (hX : Law P X N)
    (hf : SelectOp f N.mean.shape s' σ α b) (hm : f N.mean = .ok N'.mean)
    (hC : ∀ i < s'.prod, ∀ j < s'.prod, N'.covAt i j = α ^ 2 * N.covAt (σ i) (σ j)) :
    ∃ Y : Ω → Arr, (∀ ω, f (X ω) = .ok (Y ω)) ∧ Law P Y N' := by
  refine law_affine hX hf.affine hm fun i hi j hj => ?_
  obtain ⟨y, h1, h2, h3⟩ := hf N.mean rfl
  rw [hC i hi j hj]
  have e : ∀ l ∈ range N.mean.size,
      (∑ k ∈ range N.mean.size, (if k = σ i then α else 0) * N.covAt k l) * (if l = σ j then α else 0) =
        (if l = σ j then α else 0) * (α * N.covAt (σ i) l) := by
    intro l _
    rw [sum_pick (show σ i < N.mean.size from (h3 i hi).1) (fun k => N.covAt k l), mul_comm]
  rw [Finset.sum_congr rfl e, sum_pick (show σ j < N.mean.size from (h3 j hj).1) (fun l => α * N.covAt (σ i) l)]
  ring

theorem Law.cov_symm (hX : Law P X N) {i j : ℕ} (hi : i < N.mean.size) (hj : j < N.mean.size) :
    N.covAt i j = N.covAt j i := by
  have h1 := hX.normal.cov ⟨i, hi⟩ ⟨j, hj⟩
  have h2 := hX.normal.cov ⟨j, hj⟩ ⟨i, hi⟩
  simp only [Matrix.of_apply] at h1 h2
  rw [← h1, ← h2, covariance_comm]

/-- Sum and difference of independent random arrays. -/
theorem law_comb {α : ℝ} (hX : Law P X N) (hY : Law P Y M)
    (hi : IndepFun (entries X N.mean.size) (entries Y M.mean.size) P) (hs : M.mean.shape = N.mean.shape)
    {Z : Ω → Arr} (hZ : ∀ ω, (Z ω).shape = N.mean.shape ∧ ∀ i < N.mean.size, (Z ω).flat i = (X ω).flat i + α * (Y ω).flat i)
    (hm : N'.mean.shape = N.mean.shape ∧ ∀ i < N.mean.size, N'.mean.flat i = N.mean.flat i + α * M.mean.flat i)
    (hC : ∀ i < N.mean.size, ∀ j < N.mean.size, N'.covAt i j = N.covAt i j + α ^ 2 * M.covAt i j) : Law P Z N' := by
  have hMN : M.mean.size = N.mean.size := by rw [Arr.size, Arr.size, hs]
  have hNN : N'.mean.size = N.mean.size := by rw [Arr.size, Arr.size, hm.1]
  refine ⟨fun ω => (hZ ω).1.trans hm.1.symm, ?_⟩
  have key := hX.normal.comb hY.normal hi (Matrix.of fun (i : Fin N'.mean.size) (k : Fin N.mean.size) => if k.1 = i.1 then 1 else 0)
    (Matrix.of fun (i : Fin N'.mean.size) (k : Fin M.mean.size) => if k.1 = i.1 then α else 0) 0
  have pick1 : ∀ (g : ℕ → ℝ) (i : Fin N'.mean.size),
      ∑ k : Fin N.mean.size, (if k.1 = i.1 then (1 : ℝ) else 0) * g k = g i := by
    intro g i
    rw [Fin.sum_univ_eq_sum_range (fun k => (if k = i.1 then (1 : ℝ) else 0) * g k), sum_pick (hNN ▸ i.2), one_mul]
  have pick2 : ∀ (g : ℕ → ℝ) (i : Fin N'.mean.size),
      ∑ k : Fin M.mean.size, (if k.1 = i.1 then α else 0) * g k = α * g i := by
    intro g i
    rw [Fin.sum_univ_eq_sum_range (fun k => (if k = i.1 then α else 0) * g k), sum_pick (by rw [hMN, ← hNN]; exact i.2)]
  convert key using 1
  · funext ω i
    simp only [Pi.add_apply, Pi.zero_apply, Matrix.mulVec, dotProduct, Matrix.of_apply, entries]
    rw [pick1 (X ω).flat, pick2 (Y ω).flat, add_zero]
    exact (hZ ω).2 i (hNN ▸ i.2)
  · funext i
    simp only [Pi.add_apply, Pi.zero_apply, Matrix.mulVec, dotProduct, Matrix.of_apply]
    rw [pick1 N.mean.flat, pick2 M.mean.flat, add_zero]
    exact hm.2 i (hNN ▸ i.2)
  · ext i j
    simp only [Matrix.add_apply, Matrix.of_apply, Matrix.mul_apply, Matrix.transpose_apply]
    rw [hC i (hNN ▸ i.2) j (hNN ▸ j.2)]
    have e1 : ∀ l : Fin N.mean.size, (∑ k : Fin N.mean.size, (if k.1 = i.1 then (1 : ℝ) else 0) * N.covAt k l) *
        (if l.1 = j.1 then 1 else 0) = (if l.1 = j.1 then 1 else 0) * N.covAt i l := by
      intro l; rw [pick1 (fun k => N.covAt k l), mul_comm]
    have e2 : ∀ l : Fin M.mean.size, (∑ k : Fin M.mean.size, (if k.1 = i.1 then α else 0) * M.covAt k l) *
        (if l.1 = j.1 then α else 0) = (if l.1 = j.1 then α else 0) * (α * M.covAt i l) := by
      intro l; rw [pick2 (fun k => M.covAt k l), mul_comm]
    rw [Finset.sum_congr rfl fun l _ => e1 l, Finset.sum_congr rfl fun l _ => e2 l, pick1 (fun l => N.covAt i l),
      pick2 (fun l => α * M.covAt i l)]
    ring

end Probnum.RandVars
