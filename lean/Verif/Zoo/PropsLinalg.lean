import Verif.Zoo.Linalg
import Verif.RandVars.GenericLemmas
import Mathlib.Probability.Distributions.Gaussian.Real
import Mathlib.LinearAlgebra.Matrix.Charpoly.Basic
import Mathlib.LinearAlgebra.Matrix.PosDef
import Mathlib.LinearAlgebra.UnitaryGroup
import Mathlib.LinearAlgebra.Matrix.Block
import Mathlib.MeasureTheory.Constructions.Pi
import Mathlib.MeasureTheory.Measure.Prod
import Mathlib.Algebra.Polynomial.Roots
import Mathlib.Analysis.Fourier.AddCircle
import Mathlib.Analysis.SpecialFunctions.Trigonometric.Angle

/-!
# Random matrices and linear systems: what is returned for every random draw
-/

namespace Probnum.Zoo

open Probnum Matrix MeasureTheory

/-! ## Specification -/

/-- Symmetric positive definite with the given eigenvalues (with multiplicities). -/
structure IsSpdWith {n : ℕ} (A : Matrix (Fin n) (Fin n) ℝ) (spec : Multiset ℝ) : Prop where
  symm : Aᵀ = A
  posDef : A.PosDef
  eigenvalues : A.charpoly.roots = spec
  count : spec.card = n

/-- A rotation. -/
def IsRotation {n : ℕ} (Q : Matrix (Fin n) (Fin n) ℝ) : Prop := Q * Qᵀ = 1 ∧ Q.det = 1

/-- A random matrix whose distribution does not change under rotations from the left (Haar measure). -/
def IsHaar {n : ℕ} {Ω : Type*} [MeasurableSpace Ω] (P : Measure Ω) (Q : Ω → Matrix (Fin n) (Fin n) ℝ) : Prop :=
  (∀ ω, IsRotation (Q ω)) ∧ (Measurable fun ω i j => Q ω i j) ∧
    ∀ R : Matrix (Fin n) (Fin n) ℝ, IsRotation R → P.map (fun ω i j => (R * Q ω) i j) = P.map (fun ω i j => Q ω i j)

/-! ## Dense matrices -/

theorem conj_isSpd {n : ℕ} {Q : Matrix (Fin n) (Fin n) ℝ} (hQ : IsRotation Q) {s : Fin n → ℝ} (hs : ∀ i, 0 < s i) :
    IsSpdWith (Q * diagonal s * Qᵀ) (Finset.univ.val.map s) := by
  have hinv : Qᵀ * Q = 1 := mul_eq_one_comm.1 hQ.1
  refine ⟨?_, ?_, ?_, by simp⟩
  · rw [transpose_mul, transpose_mul, transpose_transpose, diagonal_transpose, Matrix.mul_assoc]
  · have h1 : (diagonal s).PosDef := PosDef.diagonal hs
    have h2 : Function.Injective (Qᵀ).mulVec := by
      intro a b hab
      have := congrArg (Q.mulVec) hab
      simpa [Matrix.mulVec_mulVec, hQ.1] using this
    have := h1.conjTranspose_mul_mul_same h2
    rwa [conjTranspose_eq_transpose_of_trivial, transpose_transpose] at this
  · have : (Q * diagonal s * Qᵀ).charpoly = (diagonal s).charpoly := by
      rw [Matrix.charpoly_mul_comm, ← Matrix.mul_assoc, hinv, Matrix.one_mul]
    rw [this, charpoly_diagonal]
    have h : (∏ i, (Polynomial.X - Polynomial.C (s i))) = ((Finset.univ.val.map s).map fun a => Polynomial.X - Polynomial.C a).prod := by
      rw [Multiset.map_map]
      rfl
    rw [h, Polynomial.roots_multiset_prod_X_sub_C]

theorem half_add_self {n : ℕ} {A : Matrix (Fin n) (Fin n) ℝ} (h : Aᵀ = A) : (1 / 2 : ℝ) • (A + Aᵀ) = A := by
  rw [h]
  ext i j
  simp
  ring

theorem ofList_getD {n : ℕ} {l : List ℝ} (h : l.length = n) : (Finset.univ.val.map fun i : Fin n => l.getD i 0) = (l : Multiset ℝ) := by
  subst h
  have : (fun i : Fin l.length => l.getD i 0) = fun i => l.get i := funext fun i => by simp
  rw [this]
  show ((List.finRange l.length : Multiset (Fin l.length)).map fun i => l.get i) = _
  rw [Multiset.map_coe, List.map_get_finRange]

/-- What `randomSpd` returns once the spectrum is known. -/
theorem randomSpd_of_spectrum {n : ℕ} {gamma : List ℝ} {rotation : Res (Matrix (Fin n) (Fin n) ℝ)} {spectrum : Option (List ℝ)} {spec : List ℝ}
    (h : spdSpectrum gamma spectrum = .ok spec) (hpos : ∀ x ∈ spec, 0 < x) (hrot : n ≠ 1 → ∃ Q, rotation = .ok Q ∧ IsRotation Q) :
    (spec.length = n → ∃ A, randomSpd gamma rotation spectrum = .ok A ∧ IsSpdWith A (spec : Multiset ℝ)) ∧
      (spec.length ≠ n → randomSpd gamma rotation spectrum = .error .valueError) := by
  have hentry : spec.length = n → ∀ i : Fin n, 0 < spec.getD i 0 := fun hl i => by
    have hi : i.1 < spec.length := by rw [hl]; exact i.2
    rw [List.getD_eq_getElem?_getD, List.getElem?_eq_getElem hi]
    exact hpos _ (List.getElem_mem hi)
  unfold randomSpd
  rw [h]
  by_cases h1 : n = 1
  · subst h1
    simp only [if_true]
    refine ⟨fun hl => ⟨_, if_pos hl, ?_⟩, fun hl => if_neg hl⟩
    have hone : IsRotation (1 : Matrix (Fin 1) (Fin 1) ℝ) := ⟨by simp, by simp⟩
    have := conj_isSpd hone (hentry hl)
    rw [ofList_getD hl] at this
    have he : (Matrix.of fun _ _ => spec.getD 0 0 : Matrix (Fin 1) (Fin 1) ℝ) = 1 * diagonal (fun i : Fin 1 => spec.getD i 0) * 1ᵀ := by
      rw [Matrix.transpose_one, Matrix.mul_one, Matrix.one_mul]
      ext i j
      rw [Subsingleton.elim j i, diagonal_apply_eq, Fin.fin_one_eq_zero i]
      rfl
    rw [← he] at this
    exact this
  · obtain ⟨Q, hQ, hQr⟩ := hrot h1
    simp only [if_neg h1, hQ]
    refine ⟨fun hl => ⟨_, if_pos hl, ?_⟩, fun hl => if_neg hl⟩
    have := conj_isSpd hQr (hentry hl)
    rw [half_add_self this.symm]
    rwa [ofList_getD hl] at this

/-- **C87**: given `n` positive eigenvalues, the matrix is symmetric positive definite and has exactly these eigenvalues, whatever the
rotation. -/
theorem spd_given {n : ℕ} (gamma : List ℝ) {rotation : Res (Matrix (Fin n) (Fin n) ℝ)} {s : List ℝ} (hs : ∀ x ∈ s, 0 < x) (hl : s.length = n)
    (hrot : n ≠ 1 → ∃ Q, rotation = .ok Q ∧ IsRotation Q) :
    ∃ A, randomSpd gamma rotation (some s) = .ok A ∧ IsSpdWith A (s : Multiset ℝ) :=
  (randomSpd_of_spectrum (by simp only [spdSpectrum]; rw [if_pos hs]) hs hrot).1 hl

/-- Without a spectrum the eigenvalues are the random numbers. -/
theorem spd_random {n : ℕ} {gamma : List ℝ} {rotation : Res (Matrix (Fin n) (Fin n) ℝ)} (hs : ∀ x ∈ gamma, 0 < x) (hl : gamma.length = n)
    (hrot : n ≠ 1 → ∃ Q, rotation = .ok Q ∧ IsRotation Q) :
    ∃ A, randomSpd gamma rotation none = .ok A ∧ IsSpdWith A (gamma : Multiset ℝ) := by
  have hp : (gamma.insertionSort (· ≤ ·)).reverse.Perm gamma := (List.reverse_perm _).trans (List.perm_insertionSort _ _)
  have := (randomSpd_of_spectrum (n := n) (rotation := rotation) (gamma := gamma) (spectrum := none) rfl
    (fun x hx => hs x (hp.mem_iff.1 hx)) hrot).1 (by rw [hp.length_eq, hl])
  rwa [Multiset.coe_eq_coe.2 hp] at this

/-- A spectrum with an eigenvalue that is not positive, or of another length than the dimension, raises ValueError. -/
theorem spd_raises {n : ℕ} (gamma : List ℝ) {rotation : Res (Matrix (Fin n) (Fin n) ℝ)} {s : List ℝ}
    (h : (∃ x ∈ s, x ≤ 0) ∨ s.length ≠ n) (hrot : n ≠ 1 → ∃ Q, rotation = .ok Q ∧ IsRotation Q) :
    randomSpd gamma rotation (some s) = .error .valueError := by
  by_cases hs : ∀ x ∈ s, 0 < x
  · have hl : s.length ≠ n := by
      rcases h with ⟨x, hx, hx0⟩ | h
      · exact absurd (hs x hx) (not_lt.2 hx0)
      · exact h
    exact (randomSpd_of_spectrum (by simp only [spdSpectrum]; rw [if_pos hs]) hs hrot).2 hl
  · unfold randomSpd
    simp only [spdSpectrum]
    rw [if_neg hs]

/-- The distribution of the matrix does not depend on the coordinate system: it is invariant under rotations. -/
theorem spd_invariant {n : ℕ} {Ω : Type*} [MeasurableSpace Ω] {P : Measure Ω} {Q : Ω → Matrix (Fin n) (Fin n) ℝ} (hQ : IsHaar P Q) (hn : n ≠ 1)
    (gamma : List ℝ) {s : List ℝ} (hs : ∀ x ∈ s, 0 < x) (hl : s.length = n) {A : Ω → Matrix (Fin n) (Fin n) ℝ}
    (hA : ∀ ω, randomSpd gamma (.ok (Q ω)) (some s) = .ok (A ω)) {R : Matrix (Fin n) (Fin n) ℝ} (hR : IsRotation R) :
    P.map (fun ω i j => (R * A ω * Rᵀ) i j) = P.map (fun ω i j => A ω i j) := by
  have hAQ : ∀ ω, A ω = Q ω * diagonal (fun i : Fin n => s.getD i 0) * (Q ω)ᵀ := fun ω => by
    have h := hA ω
    unfold randomSpd at h
    simp only [spdSpectrum] at h
    rw [if_pos hs] at h
    simp only [if_neg hn, if_pos hl] at h
    rw [← Except.ok.inj h]
    refine half_add_self ?_
    rw [transpose_mul, transpose_mul, transpose_transpose, diagonal_transpose, Matrix.mul_assoc]
  let F : (Fin n → Fin n → ℝ) → Fin n → Fin n → ℝ := fun q i j => ∑ k, q i k * s.getD k 0 * q j k
  have hF : Measurable F := by
    refine measurable_pi_lambda _ fun i => measurable_pi_lambda _ fun j => Finset.measurable_sum _ fun k _ => ?_
    have : ∀ a b : Fin n, Measurable fun q : Fin n → Fin n → ℝ => q a b := fun a b => (measurable_pi_apply b).comp (measurable_pi_apply a)
    exact ((this i k).mul_const _).mul (this j k)
  have hF' : ∀ q : Matrix (Fin n) (Fin n) ℝ, (fun i j => (q * diagonal (fun i : Fin n => s.getD i 0) * qᵀ) i j) = F fun i j => q i j := fun q => by
    funext i j
    simp only [F, Matrix.mul_apply, Matrix.mul_diagonal, transpose_apply]
    refine Finset.sum_congr rfl fun k _ => ?_
    rw [← Matrix.mul_apply, Matrix.mul_diagonal]
  have h1 : (fun ω i j => A ω i j) = F ∘ fun ω i j => Q ω i j := funext fun ω => by
    show (fun i j => A ω i j) = _
    rw [hAQ]
    exact hF' _
  have h2 : (fun ω i j => (R * A ω * Rᵀ) i j) = F ∘ fun ω i j => (R * Q ω) i j := funext fun ω => by
    show (fun i j => (R * A ω * Rᵀ) i j) = _
    rw [hAQ]
    have : R * (Q ω * diagonal (fun i : Fin n => s.getD i 0) * (Q ω)ᵀ) * Rᵀ = (R * Q ω) * diagonal (fun i : Fin n => s.getD i 0) * (R * Q ω)ᵀ := by
      rw [transpose_mul]
      simp only [Matrix.mul_assoc]
    rw [this]
    exact hF' _
  have hm : Measurable fun ω i j => (R * Q ω) i j := by
    refine measurable_pi_lambda _ fun i => measurable_pi_lambda _ fun j => ?_
    simp only [Matrix.mul_apply]
    exact Finset.measurable_sum _ fun k _ => measurable_const.mul ((measurable_pi_apply j).comp ((measurable_pi_apply k).comp hQ.2.1))
  rw [h1, h2, ← Measure.map_map hF hm, ← Measure.map_map hF hQ.2.1, hQ.2.2 R hR]

/-! ## Sparse matrices -/

/-- `L` is the Cholesky factor of `A` with ones on the diagonal. -/
structure UnitCholesky {n : ℕ} (L A : Matrix (Fin n) (Fin n) ℝ) : Prop where
  factor : A = L * Lᵀ
  diag : ∀ i, L i i = 1
  upper : ∀ i j, i < j → L i j = 0

/-- What `scipy.sparse.rand` returns: a number of stored entries given by the density (up to rounding), with values in `[0, 1)`. -/
structure SparseDraw {n : ℕ} (density : ℝ) (S : Sparse n) : Prop where
  count : |((Finset.univ.filter fun p : Fin n × Fin n => (S p.1 p.2).isSome).card : ℝ) - density * (n * n)| < 1
  values : ∀ i j x, S i j = some x → 0 ≤ x ∧ x < 1

/-- Number of nonzero entries below the diagonal. -/
noncomputable def offDiagCount {n : ℕ} (L : Matrix (Fin n) (Fin n) ℝ) : ℕ :=
  (Finset.univ.filter fun p : Fin n × Fin n => p.2 < p.1 ∧ L p.1 p.2 ≠ 0).card

theorem sparseChol_diag {n : ℕ} (density lo hi : ℝ) (S : Sparse n) (i : Fin n) : sparseChol density lo hi S i i = 1 := by
  unfold sparseChol
  split
  · simp [strictTril]
  · simp

theorem sparseChol_upper {n : ℕ} (density lo hi : ℝ) (S : Sparse n) {i j : Fin n} (h : i < j) : sparseChol density lo hi S i j = 0 := by
  unfold sparseChol
  split
  · simp [strictTril, h.ne, not_lt.2 h.le]
  · simp [h.ne]

theorem sparseChol_lower {n : ℕ} (density lo hi : ℝ) (S : Sparse n) {i j : Fin n} (h : j < i) :
    sparseChol density lo hi S i j = 0 ∨ ∃ x, S i j = some x ∧ sparseChol density lo hi S i j = x * (hi - lo) + lo := by
  unfold sparseChol
  split
  · rcases hS : S i j with _ | x
    · left
      simp [strictTril, rescale, hS, h.ne']
    · right
      exact ⟨x, rfl, by simp [strictTril, rescale, hS, h.ne', h]⟩
  · left
    simp [h.ne']

/-- **C87** (sparse): for every density in `[0, 1]` the result is `L Lᵀ` with a lower triangular `L` that has ones on the diagonal
and otherwise zeros or numbers between the bounds; it is symmetric positive definite with determinant 1. -/
theorem sparse_spd {n : ℕ} {density lo hi : ℝ} {S : Sparse n} (hd : 0 ≤ density ∧ density ≤ 1) (hb : lo ≤ hi) (hS : SparseDraw density S) :
    ∃ A L, randomSparseSpd density lo hi S = .ok A ∧ UnitCholesky L A ∧ (∀ i j, j < i → L i j = 0 ∨ lo ≤ L i j ∧ L i j ≤ hi) ∧
      Aᵀ = A ∧ A.PosDef ∧ A.det = 1 := by
  set L := sparseChol density lo hi S with hL
  have hdet : L.det = 1 := by
    rw [Matrix.det_of_lowerTriangular L fun i j hij => sparseChol_upper _ _ _ _ hij]
    exact Finset.prod_eq_one fun i _ => sparseChol_diag _ _ _ _ i
  refine ⟨L * Lᵀ, L, ?_, ⟨rfl, fun i => sparseChol_diag _ _ _ _ i, fun i j h => sparseChol_upper _ _ _ _ h⟩, fun i j h => ?_, ?_, ?_, ?_⟩
  · unfold randomSparseSpd
    rw [if_neg (not_not.2 hd)]
  · rcases sparseChol_lower density lo hi S h with h0 | ⟨x, hx, hx'⟩
    · exact Or.inl h0
    · right
      obtain ⟨hx0, hx1⟩ := hS.values i j x hx
      rw [hL, hx']
      constructor
      · nlinarith
      · nlinarith
  · rw [transpose_mul, transpose_transpose]
  · have h2 : Function.Injective (Lᵀ).mulVec := by
      have hu : IsUnit Lᵀ := (Matrix.isUnit_iff_isUnit_det _).2 (by rw [det_transpose, hdet]; exact isUnit_one)
      exact Matrix.mulVec_injective_of_isUnit hu
    have := (PosDef.one (n := Fin n) (R := ℝ)).conjTranspose_mul_mul_same h2
    rwa [conjTranspose_eq_transpose_of_trivial, transpose_transpose, Matrix.mul_one] at this
  · rw [det_mul, det_transpose, hdet, mul_one]

/-- A density outside `[0, 1]` raises ValueError. -/
theorem sparse_raises {n : ℕ} {density : ℝ} (lo hi : ℝ) (S : Sparse n) (hd : density < 0 ∨ 1 < density) :
    randomSparseSpd density lo hi S = .error .valueError := by
  unfold randomSparseSpd
  rw [if_pos]
  rintro ⟨h1, h2⟩
  rcases hd with hd | hd <;> linarith

/-- The bounds for a positive lower bound: with density 0 the factor is diagonal, with density 1 it has no zeros below the diagonal. -/
theorem sparse_density_partial {n : ℕ} {lo hi : ℝ} {S : Sparse n} (hlo : 0 < lo) (hb : lo ≤ hi) :
    (SparseDraw 0 S → offDiagCount (sparseChol 0 lo hi S) = 0) ∧
      (SparseDraw 1 S → ∀ i j : Fin n, j < i → sparseChol 1 lo hi S i j ≠ 0) := by
  constructor
  · intro _
    unfold offDiagCount
    rw [Finset.card_eq_zero, Finset.filter_eq_empty_iff]
    rintro ⟨i, j⟩ _ ⟨hij, hne⟩
    refine hne ?_
    have hij : j < i := hij
    unfold sparseChol
    simp [hij.ne']
  · intro hS i j hij
    have hcard : (Finset.univ.filter fun p : Fin n × Fin n => (S p.1 p.2).isSome).card = n * n := by
      have h := hS.count
      rw [one_mul] at h
      set c := (Finset.univ.filter fun p : Fin n × Fin n => (S p.1 p.2).isSome).card
      have h' : |((c : ℤ) - (n * n : ℤ) : ℤ)| < 1 := by
        have : (|((c : ℤ) - (n * n : ℤ) : ℤ)| : ℝ) < 1 := by
          push_cast
          exact h
        exact_mod_cast this
      have := Int.abs_lt_one_iff.1 h'
      have h3 : (c : ℤ) = (n * n : ℤ) := by linarith
      exact_mod_cast h3
    have hall : (S i j).isSome := by
      have hu : (Finset.univ.filter fun p : Fin n × Fin n => (S p.1 p.2).isSome) = Finset.univ := by
        refine Finset.eq_univ_of_card _ ?_
        rw [hcard]
        simp
      have : ((i, j) : Fin n × Fin n) ∈ Finset.univ.filter fun p : Fin n × Fin n => (S p.1 p.2).isSome := by
        rw [hu]
        exact Finset.mem_univ _
      exact (Finset.mem_filter.1 this).2
    obtain ⟨x, hx⟩ := Option.isSome_iff_exists.1 hall
    obtain ⟨hx0, hx1⟩ := hS.values i j x hx
    have hn : 0 < ⌊((n * (n - 1) / 2 : ℕ) : ℝ) * 1⌋₊ := by
      rw [mul_one, Nat.floor_natCast]
      have h2 : 2 ≤ n := by
        have := i.2
        have : j.1 < i.1 := hij
        omega
      refine Nat.div_pos ?_ (by norm_num)
      calc 2 = 2 * 1 := rfl
        _ ≤ n * (n - 1) := Nat.mul_le_mul h2 (by omega)
    unfold sparseChol
    rw [if_pos hn]
    have : (1 + strictTril (rescale lo hi S)) i j = x * (hi - lo) + lo := by simp [strictTril, rescale, hx, hij, hij.ne']
    rw [this]
    have : 0 ≤ x * (hi - lo) := mul_nonneg hx0 (by linarith)
    exact ne_of_gt (by linarith)

/-- Entries above the diagonal only. -/
noncomputable def upperDraw : Sparse 3 := fun i j => if i < j then some (1 / 2) else none

/-- Entries below the diagonal only. -/
noncomputable def lowerDraw : Sparse 3 := fun i j => if j < i then some (1 / 2) else none

theorem upperDraw_draw : SparseDraw (1 / 3) upperDraw := by
  refine ⟨?_, fun i j x h => ?_⟩
  · have : (Finset.univ.filter fun p : Fin 3 × Fin 3 => (upperDraw p.1 p.2).isSome) = Finset.univ.filter fun p : Fin 3 × Fin 3 => p.1 < p.2 := by
      refine Finset.filter_congr fun p _ => ?_
      unfold upperDraw
      split <;> simp [*]
    rw [this, show (Finset.univ.filter fun p : Fin 3 × Fin 3 => p.1 < p.2).card = 3 from by decide]
    norm_num
  · unfold upperDraw at h
    split at h
    · obtain rfl := Option.some.inj h
      norm_num
    · cases h

theorem lowerDraw_draw : SparseDraw (1 / 3) lowerDraw := by
  refine ⟨?_, fun i j x h => ?_⟩
  · have : (Finset.univ.filter fun p : Fin 3 × Fin 3 => (lowerDraw p.1 p.2).isSome) = Finset.univ.filter fun p : Fin 3 × Fin 3 => p.2 < p.1 := by
      refine Finset.filter_congr fun p _ => ?_
      unfold lowerDraw
      split <;> simp [*]
    rw [this, show (Finset.univ.filter fun p : Fin 3 × Fin 3 => p.2 < p.1).card = 3 from by decide]
    norm_num
  · unfold lowerDraw at h
    split at h
    · obtain rfl := Option.some.inj h
      norm_num
    · cases h

/-- ★ The density is not the share of nonzero entries of the Cholesky factor: a density of 1/3 may give none or all of them. -/
theorem sparse_density_wrong :
    (SparseDraw (1 / 3) upperDraw ∧ offDiagCount (sparseChol (1 / 3) (1 / 10) 1 upperDraw) = 0) ∧
      SparseDraw (1 / 3) lowerDraw ∧ offDiagCount (sparseChol (1 / 3) (1 / 10) 1 lowerDraw) = 3 := by
  have hn : 0 < ⌊((3 * (3 - 1) / 2 : ℕ) : ℝ) * (1 / 3)⌋₊ := by norm_num
  refine ⟨⟨upperDraw_draw, ?_⟩, lowerDraw_draw, ?_⟩
  · unfold offDiagCount
    rw [Finset.card_eq_zero, Finset.filter_eq_empty_iff]
    rintro ⟨i, j⟩ _ ⟨hij, hne⟩
    refine hne ?_
    have hij : j < i := hij
    unfold sparseChol
    rw [if_pos hn]
    simp [strictTril, rescale, upperDraw, hij.ne', not_lt.2 hij.le]
  · unfold offDiagCount
    refine Eq.trans ?_ (show (Finset.univ.filter fun p : Fin 3 × Fin 3 => p.2 < p.1).card = 3 from by decide)
    congr 1
    refine Finset.filter_congr fun p _ => ⟨fun h => h.1, fun h => ⟨h, ?_⟩⟩
    unfold sparseChol
    rw [if_pos hn]
    have : (1 + strictTril (rescale (1 / 10) 1 lowerDraw)) p.1 p.2 = 1 / 2 * (1 - 1 / 10) + 1 / 10 := by
      simp [strictTril, rescale, lowerDraw, h, (show p.1 ≠ p.2 from h.ne')]
    rw [this]
    norm_num

/-! ## Linear systems -/

/-- The generator with which the solution is drawn. -/
def afterMatrix {ρ : Type} {m n : ℕ} (matrix : MatrixArg ρ m n) (rng : ρ) : Matrix (Fin m) (Fin n) ℝ × ρ :=
  match matrix with
  | .given A => (A, rng)
  | .callable g => g rng

/-- **C87** (systems): for a vector of unknowns the returned solution solves the returned system; the matrix is the given (or generated)
one and the solution is the draw of the given random variable (or of standard normal numbers). -/
theorem system_vector {ρ : Type} {m n : ℕ} (std : ℕ → ρ → (ℕ → ℝ) × ρ) (rng : ρ) (matrix : MatrixArg ρ m n) (rv : Option (SolutionRV ρ))
    (hrv : ∀ v ∈ rv, v.shape = [n]) :
    ∃ s rng', randomLinearSystem std rng matrix rv = .ok (s, rng') ∧ s.A = (afterMatrix matrix rng).1 ∧
      s.solution.shape = [n] ∧ s.b.shape = [m] ∧
      (s.solution.entry, rng') = (match rv with | none => std n (afterMatrix matrix rng).2 | some v => v.sample (afterMatrix matrix rng).2) ∧
      s.A *ᵥ (fun j => s.solution.entry j) = fun i : Fin m => s.b.entry i := by
  have hm : ∀ (A : Matrix (Fin m) (Fin n) ℝ) (e : ℕ → ℝ), matmulFlat A ⟨[n], e⟩ =
      .ok ⟨[m], fun p => if h : p < m then ∑ j : Fin n, A ⟨p, h⟩ j * e j else 0⟩ := fun A e => by
    show (if n = n then _ else _) = _
    rw [if_pos rfl]
  cases rv with
  | none =>
    refine ⟨⟨(afterMatrix matrix rng).1, ⟨[m], fun p => if h : p < m then ∑ j : Fin n, (afterMatrix matrix rng).1 ⟨p, h⟩ j * (std n (afterMatrix matrix rng).2).1 j else 0⟩,
      ⟨[n], (std n (afterMatrix matrix rng).2).1⟩⟩, (std n (afterMatrix matrix rng).2).2, ?_, rfl, rfl, rfl, rfl, ?_⟩
    · unfold randomLinearSystem
      cases matrix <;> simp only [hm, afterMatrix]
    · funext i
      show ((afterMatrix matrix rng).1 *ᵥ _) i = _
      simp [Matrix.mulVec, dotProduct]
  | some v =>
    have hv : v.shape = [n] := hrv v rfl
    refine ⟨⟨(afterMatrix matrix rng).1, ⟨[m], fun p => if h : p < m then ∑ j : Fin n, (afterMatrix matrix rng).1 ⟨p, h⟩ j * (v.sample (afterMatrix matrix rng).2).1 j else 0⟩,
      ⟨[n], (v.sample (afterMatrix matrix rng).2).1⟩⟩, (v.sample (afterMatrix matrix rng).2).2, ?_, rfl, rfl, rfl, rfl, ?_⟩
    · unfold randomLinearSystem
      cases matrix <;> simp [hv, hm, afterMatrix]
    · funext i
      show ((afterMatrix matrix rng).1 *ᵥ _) i = _
      simp [Matrix.mulVec, dotProduct]

/-- Several right-hand sides: a matrix of unknowns. -/
theorem system_matrix {ρ : Type} {m n l : ℕ} (std : ℕ → ρ → (ℕ → ℝ) × ρ) (rng : ρ) (matrix : MatrixArg ρ m n) {v : SolutionRV ρ}
    (hv : v.shape = [n, l]) :
    ∃ s rng', randomLinearSystem std rng matrix (some v) = .ok (s, rng') ∧ s.A = (afterMatrix matrix rng).1 ∧
      s.solution.shape = [n, l] ∧ s.b.shape = [m, l] ∧ (s.solution.entry, rng') = v.sample (afterMatrix matrix rng).2 ∧
      s.A * (Matrix.of fun (j : Fin n) (c : Fin l) => s.solution.entry (j * l + c)) = Matrix.of fun (i : Fin m) (c : Fin l) => s.b.entry (i * l + c) := by
  obtain ⟨A, hA⟩ : ∃ A, A = (afterMatrix matrix rng).1 := ⟨_, rfl⟩
  obtain ⟨x, hx⟩ : ∃ x, x = v.sample (afterMatrix matrix rng).2 := ⟨_, rfl⟩
  refine ⟨⟨A, ⟨[m, l], fun p => if h : p / l % m < m then ∑ j : Fin n, A ⟨p / l % m, h⟩ j * x.1 ((p / l / m * n + j) * l + p % l) else 0⟩,
    ⟨[n, l], x.1⟩⟩, x.2, ?_, hA, rfl, rfl, hx, ?_⟩
  · subst hA hx
    unfold randomLinearSystem
    cases matrix <;> simp [hv, matmulFlat, afterMatrix]
  · ext i c
    have hl : 0 < l := c.pos
    have h1 : (i.1 * l + c.1) / l = i := by
      rw [Nat.add_comm, Nat.add_mul_div_right _ _ hl, Nat.div_eq_of_lt c.2, Nat.zero_add]
    have h2 : (i.1 * l + c.1) % l = c := by rw [Nat.add_comm, Nat.add_mul_mod_self_right, Nat.mod_eq_of_lt c.2]
    show ∑ j, A i j * x.1 (j * l + c) = _
    simp only [Matrix.of_apply, h1, h2, Nat.mod_eq_of_lt i.2, Nat.div_eq_of_lt i.2, Nat.zero_mul, Nat.zero_add]
    rw [dif_pos i.2]

/-- A random variable whose first axis does not match the matrix raises ValueError. -/
theorem system_raises {ρ : Type} {m n k : ℕ} {rest : List ℕ} (std : ℕ → ρ → (ℕ → ℝ) × ρ) (rng : ρ) (matrix : MatrixArg ρ m n) {v : SolutionRV ρ}
    (hv : v.shape = k :: rest) (hk : k ≠ n) : randomLinearSystem std rng matrix (some v) = .error .valueError := by
  unfold randomLinearSystem
  cases matrix <;> simp [hv, hk.symm]

/-- ★ A random variable that is a number raises IndexError, not the ValueError about shapes. -/
theorem system_scalar {ρ : Type} {m n : ℕ} (std : ℕ → ρ → (ℕ → ℝ) × ρ) (rng : ρ) (matrix : MatrixArg ρ m n) {v : SolutionRV ρ}
    (hv : v.shape = []) : randomLinearSystem std rng matrix (some v) = .error .indexError := by
  unfold randomLinearSystem
  cases matrix <;> simp [hv]

/-- A draw of an ideal generator: it has the distribution `ν` and leaves the generator in a fresh state that is independent of it. -/
def IdealDraw {ρ α : Type} [MeasurableSpace ρ] [MeasurableSpace α] (P : Measure ρ) (g : ρ → α × ρ) (ν : Measure α) : Prop :=
  Measurable g ∧ P.map g = ν.prod P

/-- With an ideal generator the matrix and the solution of the system are independent and have the distributions asked for. -/
theorem system_law {ρ : Type} [MeasurableSpace ρ] {m n : ℕ} {P : Measure ρ} [IsProbabilityMeasure P] (std : ℕ → ρ → (ℕ → ℝ) × ρ)
    {g : ρ → Matrix (Fin m) (Fin n) ℝ × ρ} {v : SolutionRV ρ} (hv : v.shape = [n])
    {μ : Measure (Fin m → Fin n → ℝ)} {ν : Measure (ℕ → ℝ)} [IsProbabilityMeasure μ] [IsProbabilityMeasure ν]
    (hg : IdealDraw P (fun r => ((fun i j => (g r).1 i j), (g r).2)) μ) (hs : IdealDraw P v.sample ν)
    {s : ρ → LinearSystem m n} {rng' : ρ → ρ} (hr : ∀ r, randomLinearSystem std r (.callable g) (some v) = .ok (s r, rng' r)) :
    P.map (fun r => ((fun i j => (s r).A i j), ((s r).solution.entry, rng' r))) = μ.prod (ν.prod P) := by
  have h1 : (fun r => ((fun i j => (s r).A i j), ((s r).solution.entry, rng' r))) =
      (Prod.map id v.sample) ∘ fun r => ((fun i j => (g r).1 i j), (g r).2) := funext fun r => by
    obtain ⟨s', r', h, hA, _, _, hx, _⟩ := system_vector std r (.callable g) (some v) (by simpa using hv)
    rw [hr r] at h
    obtain ⟨h1, h2⟩ := Prod.mk.inj (Except.ok.inj h)
    rw [h1, h2]
    refine Prod.ext ?_ ?_
    · funext i j
      show s'.A i j = _
      rw [hA]
      rfl
    · exact hx
  rw [h1, ← Measure.map_map (measurable_id.prodMap hs.1) hg.1, hg.2, ← Measure.map_prod_map _ _ measurable_id hs.1, Measure.map_id, hs.2]

/-! ## The hypotheses can be met -/

section Examples

/-- A rotation of the plane by a given angle. -/
noncomputable def planeRot (θ : Real.Angle) : Matrix (Fin 2) (Fin 2) ℝ := !![θ.cos, -θ.sin; θ.sin, θ.cos]

theorem planeRot_rotation (θ : Real.Angle) : IsRotation (planeRot θ) := by
  have h : θ.cos ^ 2 + θ.sin ^ 2 = 1 := Real.Angle.cos_sq_add_sin_sq θ
  constructor
  · ext i j
    fin_cases i <;> fin_cases j <;> simp [planeRot, Matrix.mul_apply, Fin.sum_univ_two] <;> nlinarith
  · simp [planeRot, det_fin_two]
    nlinarith

theorem planeRot_add (φ θ : Real.Angle) : planeRot φ * planeRot θ = planeRot (φ + θ) := by
  ext i j
  fin_cases i <;> fin_cases j <;> simp [planeRot, Matrix.mul_apply, Fin.sum_univ_two, Real.Angle.cos_add, Real.Angle.sin_add] <;> ring

theorem exists_angle {R : Matrix (Fin 2) (Fin 2) ℝ} (h : IsRotation R) : ∃ φ, R = planeRot φ := by
  obtain ⟨h1, h2⟩ := h
  have e1 : R 0 0 * R 0 0 + R 0 1 * R 0 1 = 1 := by
    have := congrFun (congrFun h1 0) 0
    simpa [Matrix.mul_apply, Fin.sum_univ_two] using this
  have e2 : R 1 0 * R 1 0 + R 1 1 * R 1 1 = 1 := by
    have := congrFun (congrFun h1 1) 1
    simpa [Matrix.mul_apply, Fin.sum_univ_two] using this
  have e3 : R 0 0 * R 1 1 - R 0 1 * R 1 0 = 1 := by rwa [det_fin_two] at h2
  have f1 : R 1 1 = R 0 0 := by nlinarith [sq_nonneg (R 1 1 - R 0 0), sq_nonneg (R 0 1 + R 1 0)]
  have f2 : R 0 1 = -R 1 0 := by nlinarith [sq_nonneg (R 1 1 - R 0 0), sq_nonneg (R 0 1 + R 1 0)]
  have hz : ‖(⟨R 0 0, R 1 0⟩ : ℂ)‖ = 1 := by
    rw [Complex.norm_def, Complex.normSq_mk, Real.sqrt_eq_one]
    rw [f2] at e1
    linarith
  refine ⟨(Complex.arg ⟨R 0 0, R 1 0⟩ : ℝ), ?_⟩
  have c : Real.cos (Complex.arg ⟨R 0 0, R 1 0⟩) = R 0 0 := by
    have := Complex.norm_mul_cos_arg ⟨R 0 0, R 1 0⟩
    rwa [hz, one_mul] at this
  have d : Real.sin (Complex.arg ⟨R 0 0, R 1 0⟩) = R 1 0 := by
    have := Complex.norm_mul_sin_arg ⟨R 0 0, R 1 0⟩
    rwa [hz, one_mul] at this
  ext i j
  fin_cases i <;> fin_cases j <;> simp [planeRot, c, d, f1, f2]

instance : Fact (0 < 2 * Real.pi) := ⟨by positivity⟩

/-- A uniformly distributed angle gives Haar measure on the rotations of the plane. -/
theorem planeRot_haar : IsHaar (n := 2) (AddCircle.haarAddCircle (T := 2 * Real.pi)) fun θ => planeRot θ := by
  have hm : Measurable fun (θ : AddCircle (2 * Real.pi)) (i j : Fin 2) => planeRot θ i j := by
    refine measurable_pi_lambda _ fun i => measurable_pi_lambda _ fun j => ?_
    have hc : Measurable fun θ : AddCircle (2 * Real.pi) => Real.Angle.cos θ :=
      have h : @Continuous (AddCircle (2 * Real.pi)) ℝ _ _ fun θ => Real.Angle.cos θ := Real.Angle.continuous_cos
      h.measurable
    have hs : Measurable fun θ : AddCircle (2 * Real.pi) => Real.Angle.sin θ :=
      have h : @Continuous (AddCircle (2 * Real.pi)) ℝ _ _ fun θ => Real.Angle.sin θ := Real.Angle.continuous_sin
      h.measurable
    fin_cases i <;> fin_cases j
    · exact hc
    · exact hs.neg
    · exact hs
    · exact hc
  refine ⟨fun θ => planeRot_rotation θ, hm, fun R hR => ?_⟩
  obtain ⟨φ, rfl⟩ := exists_angle hR
  let φ' : AddCircle (2 * Real.pi) := φ
  have h1 : (fun (θ : AddCircle (2 * Real.pi)) (i j : Fin 2) => (planeRot φ * planeRot θ) i j) =
      (fun (θ : AddCircle (2 * Real.pi)) (i j : Fin 2) => planeRot θ i j) ∘ fun θ => φ' + θ := by
    funext θ i j
    exact congrFun (congrFun (planeRot_add φ θ) i) j
  rw [h1, ← Measure.map_map hm (measurable_const_add _), map_add_left_eq_self]

/-- Eigenvalues 1 and 2 in the plane. -/
example (θ : AddCircle (2 * Real.pi)) : ∃ A, randomSpd [] (.ok (planeRot θ)) (some [1, 2]) = .ok A ∧ IsSpdWith A ({1, 2} : Multiset ℝ) :=
  spd_given (n := 2) [] (by simp) rfl fun _ => ⟨_, rfl, planeRot_rotation θ⟩

example (A : AddCircle (2 * Real.pi) → Matrix (Fin 2) (Fin 2) ℝ) (hA : ∀ θ, randomSpd [] (.ok (planeRot θ)) (some [1, 2]) = .ok (A θ))
    {R : Matrix (Fin 2) (Fin 2) ℝ} (hR : IsRotation R) :
    (AddCircle.haarAddCircle (T := 2 * Real.pi)).map (fun θ i j => (R * A θ * Rᵀ) i j) = AddCircle.haarAddCircle.map (fun θ i j => A θ i j) :=
  spd_invariant planeRot_haar (by norm_num) [] (by simp) rfl hA hR

example : ∃ A L, randomSparseSpd (1 / 3) (1 / 10) 1 lowerDraw = .ok A ∧ UnitCholesky L A ∧
    (∀ i j, j < i → L i j = 0 ∨ (1 / 10 : ℝ) ≤ L i j ∧ L i j ≤ 1) ∧ Aᵀ = A ∧ A.PosDef ∧ A.det = 1 :=
  sparse_spd (by norm_num) (by norm_num) lowerDraw_draw

open ProbabilityTheory

/-- Matrices and vectors read from a stream of standard normal numbers. -/
def streamMatrix (m n : ℕ) (r : ℕ → ℝ) : Matrix (Fin m) (Fin n) ℝ × (ℕ → ℝ) := (fun i j => r (i * n + j), fun i => r (m * n + i))

/-- A vector of `n` numbers of the stream. -/
def streamVector (n : ℕ) : SolutionRV (ℕ → ℝ) := ⟨[n], fun r => (fun i => if i < n then r i else 0, fun i => r (n + i))⟩

theorem streamMatrix_ideal (m n : ℕ) : IdealDraw (Measure.infinitePi fun _ => gaussianReal 0 1)
    (fun r => ((fun i j => (streamMatrix m n r).1 i j), (streamMatrix m n r).2)) (Measure.pi fun _ => Measure.pi fun _ => gaussianReal 0 1) := by
  refine ⟨?_, RandVars.stream_split (gaussianReal 0 1) m n⟩
  refine Measurable.prodMk ?_ ?_
  · exact measurable_pi_lambda _ fun i => measurable_pi_lambda _ fun j => measurable_pi_apply _
  · exact measurable_pi_lambda _ fun i => measurable_pi_apply _

theorem streamVector_ideal (n : ℕ) : IdealDraw (Measure.infinitePi fun _ => gaussianReal 0 1) (streamVector n).sample
    ((Measure.pi fun _ : Fin 1 => Measure.pi fun _ : Fin n => gaussianReal 0 1).map fun q i => if h : i < n then q 0 ⟨i, h⟩ else 0) := by
  have hm : Measurable (streamVector n).sample := by
    refine Measurable.prodMk ?_ ?_
    · refine measurable_pi_lambda _ fun i => ?_
      by_cases h : i < n
      · simp only [if_pos h]
        exact measurable_pi_apply _
      · simp only [if_neg h]
        exact measurable_const
    · exact measurable_pi_lambda _ fun i => measurable_pi_apply _
  have he : Measurable fun (q : Fin 1 → Fin n → ℝ) (i : ℕ) => if h : i < n then q 0 ⟨i, h⟩ else 0 := by
    refine measurable_pi_lambda _ fun i => ?_
    by_cases h : i < n
    · simp only [dif_pos h]
      exact (measurable_pi_apply _).comp (measurable_pi_apply _)
    · simp only [dif_neg h]
      exact measurable_const
  refine ⟨hm, ?_⟩
  have h := RandVars.stream_split (gaussianReal 0 1) 1 n
  have h2 : Measurable fun r : ℕ → ℝ => ((fun c i => r (c * n + i) : Fin 1 → Fin n → ℝ), (fun i => r (1 * n + i) : ℕ → ℝ)) := by
    refine Measurable.prodMk ?_ ?_
    · exact measurable_pi_lambda _ fun i => measurable_pi_lambda _ fun j => measurable_pi_apply _
    · exact measurable_pi_lambda _ fun i => measurable_pi_apply _
  have h3 := congrArg (fun M => M.map (Prod.map (fun (q : Fin 1 → Fin n → ℝ) (i : ℕ) => if h : i < n then q 0 ⟨i, h⟩ else 0) id)) h
  simp only at h3
  rw [Measure.map_map (he.prodMap measurable_id) h2, ← Measure.map_prod_map _ _ he measurable_id, Measure.map_id] at h3
  rw [← h3]
  congr 1
  funext r
  refine Prod.ext (funext fun i => ?_) (funext fun i => ?_)
  · show (if i < n then r i else 0) = if h : i < n then r (((0 : Fin 1) : ℕ) * n + i) else 0
    simp
  · show r (n + i) = r (1 * n + i)
    rw [one_mul]

example (m n : ℕ) {s : (ℕ → ℝ) → LinearSystem m n} {rng' : (ℕ → ℝ) → ℕ → ℝ}
    (hr : ∀ r, randomLinearSystem (fun n => (streamVector n).sample) r (.callable (streamMatrix m n)) (some (streamVector n)) = .ok (s r, rng' r)) :
    ∃ (μ : Measure (Fin m → Fin n → ℝ)) (ν : Measure (ℕ → ℝ)),
      (Measure.infinitePi fun _ => gaussianReal 0 1).map (fun r => ((fun i j => (s r).A i j), ((s r).solution.entry, rng' r))) =
        μ.prod (ν.prod (Measure.infinitePi fun _ => gaussianReal 0 1)) := by
  have he : Measurable fun (q : Fin 1 → Fin n → ℝ) (i : ℕ) => if h : i < n then q 0 ⟨i, h⟩ else 0 := by
    refine measurable_pi_lambda _ fun i => ?_
    by_cases h : i < n
    · simp only [dif_pos h]
      exact (measurable_pi_apply _).comp (measurable_pi_apply _)
    · simp only [dif_neg h]
      exact measurable_const
  haveI := Measure.isProbabilityMeasure_map (μ := Measure.pi fun _ : Fin 1 => Measure.pi fun _ : Fin n => gaussianReal 0 1) he.aemeasurable
  exact ⟨_, _, system_law _ rfl (streamMatrix_ideal m n) (streamVector_ideal n) hr⟩

end Examples

end Probnum.Zoo
