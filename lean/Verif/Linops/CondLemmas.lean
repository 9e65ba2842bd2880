import Verif.Linops.Cond
import Mathlib.LinearAlgebra.Matrix.Kronecker
import Mathlib.Analysis.InnerProductSpace.PiL2
import Mathlib.Topology.Algebra.Module.FiniteDimension
import Mathlib.Topology.Order.Compact

/-! # Singular values and matrix norms of Kronecker products and diagonal matrices -/

namespace Probnum.Linops.Cond

open Finset Matrix
open scoped Kronecker

variable {ι κ : Type} [Fintype ι] [Fintype κ]

/-! ## Lengths -/

theorem len_eq (x : ι → ℝ) : len x = ‖(WithLp.toLp 2 x : EuclideanSpace ℝ ι)‖ := by
  rw [EuclideanSpace.norm_eq, len]
  simp

theorem len_nonneg (x : ι → ℝ) : 0 ≤ len x := Real.sqrt_nonneg _

theorem len_sq (x : ι → ℝ) : len x ^ 2 = ∑ i, x i ^ 2 := Real.sq_sqrt (sum_nonneg fun _ _ => sq_nonneg _)

theorem len_smul (c : ℝ) (x : ι → ℝ) : len (c • x) = |c| * len x := by
  rw [len_eq, len_eq, WithLp.toLp_smul, norm_smul, Real.norm_eq_abs]

theorem len_eq_zero {x : ι → ℝ} : len x = 0 ↔ x = 0 := by
  rw [len_eq, norm_eq_zero, WithLp.toLp_eq_zero]

theorem len_zero : len (0 : ι → ℝ) = 0 := len_eq_zero.2 rfl

theorem continuous_len : Continuous (len : (ι → ℝ) → ℝ) := by
  unfold len
  fun_prop

theorem le_len {c : ℝ} (hc : 0 ≤ c) {x : ι → ℝ} (h : c ^ 2 ≤ ∑ i, x i ^ 2) : c ≤ len x :=
  Real.le_sqrt_of_sq_le h

theorem len_le {c : ℝ} (hc : 0 ≤ c) {x : ι → ℝ} (h : ∑ i, x i ^ 2 ≤ c ^ 2) : len x ≤ c :=
  (Real.sqrt_le_left hc).2 h

theorem exists_unit [Nonempty ι] [DecidableEq ι] (i : ι) : len (Pi.single i 1 : ι → ℝ) = 1 := by
  rw [len]
  have : ∑ j, (Pi.single i 1 : ι → ℝ) j ^ 2 = 1 := by
    rw [sum_eq_single i]
    · simp
    · intro j _ hj
      simp [hj]
    · simp
  rw [this, Real.sqrt_one]

theorem isCompact_unit : IsCompact {x : ι → ℝ | len x = 1} := by
  refine Metric.isCompact_of_isClosed_isBounded (isClosed_eq continuous_len continuous_const) ?_
  refine (Metric.isBounded_closedBall (x := (0 : ι → ℝ)) (r := 1)).subset fun x hx => ?_
  rw [mem_closedBall_zero_iff, pi_norm_le_iff_of_nonneg zero_le_one]
  intro i
  rw [Real.norm_eq_abs]
  refine abs_le_of_sq_le_sq ?_ zero_le_one
  have h1 := len_sq x
  rw [show len x = 1 from hx] at h1
  rw [h1]
  exact single_le_sum (f := fun i => x i ^ 2) (fun _ _ => sq_nonneg _) (mem_univ i)

/-! ## Singular values -/

/-- `c` is the largest length of an image of a unit vector. -/
structure IsMax (M : Matrix ι ι ℝ) (c : ℝ) : Prop where
  bound : ∀ x, len (M *ᵥ x) ≤ c * len x
  attained : ∃ x, len x = 1 ∧ len (M *ᵥ x) = c

/-- `c` is the smallest length of an image of a unit vector. -/
structure IsMin (M : Matrix ι ι ℝ) (c : ℝ) : Prop where
  bound : ∀ x, c * len x ≤ len (M *ᵥ x)
  attained : ∃ x, len x = 1 ∧ len (M *ᵥ x) = c

theorem IsMax.eq {M : Matrix ι ι ℝ} {c : ℝ} (h : IsMax M c) : sMax M = c := by
  obtain ⟨x, h1, h2⟩ := h.attained
  haveI : Nonempty {x : ι → ℝ // len x = 1} := ⟨⟨x, h1⟩⟩
  have hb : ∀ y : {x : ι → ℝ // len x = 1}, len (M *ᵥ y) ≤ c := fun y => by
    have := h.bound y
    rwa [y.2, mul_one] at this
  refine le_antisymm (ciSup_le hb) ?_
  rw [← h2]
  exact le_ciSup (f := fun y : {x : ι → ℝ // len x = 1} => len (M *ᵥ y)) ⟨c, by rintro _ ⟨y, rfl⟩; exact hb y⟩ ⟨x, h1⟩

theorem IsMin.eq {M : Matrix ι ι ℝ} {c : ℝ} (h : IsMin M c) : sMin M = c := by
  obtain ⟨x, h1, h2⟩ := h.attained
  haveI : Nonempty {x : ι → ℝ // len x = 1} := ⟨⟨x, h1⟩⟩
  have hb : ∀ y : {x : ι → ℝ // len x = 1}, c ≤ len (M *ᵥ y) := fun y => by
    have := h.bound y
    rwa [y.2, mul_one] at this
  refine le_antisymm ?_ (le_ciInf hb)
  rw [← h2]
  exact ciInf_le (f := fun y : {x : ι → ℝ // len x = 1} => len (M *ᵥ y)) ⟨c, by rintro _ ⟨y, rfl⟩; exact hb y⟩ ⟨x, h1⟩

theorem scale_unit {x : ι → ℝ} (h : x ≠ 0) (M : Matrix ι ι ℝ) :
    len ((len x)⁻¹ • x) = 1 ∧ len (M *ᵥ ((len x)⁻¹ • x)) * len x = len (M *ᵥ x) := by
  have h0 : len x ≠ 0 := fun e => h (len_eq_zero.1 e)
  have hp : |(len x)⁻¹| = (len x)⁻¹ := abs_of_nonneg (inv_nonneg.2 (len_nonneg x))
  constructor
  · rw [len_smul, hp, inv_mul_cancel₀ h0]
  · rw [mulVec_smul, len_smul, hp]
    field_simp

theorem exists_isMax [Nonempty ι] (M : Matrix ι ι ℝ) : ∃ c, IsMax M c := by
  classical
  have hne : {x : ι → ℝ | len x = 1}.Nonempty := ⟨_, exists_unit (Classical.arbitrary ι)⟩
  obtain ⟨x, h1, h2⟩ := isCompact_unit.exists_isMaxOn hne
    (f := fun x => len (M *ᵥ x)) (continuous_len.comp (by fun_prop)).continuousOn
  refine ⟨len (M *ᵥ x), fun y => ?_, x, h1, rfl⟩
  by_cases hy : y = 0
  · rw [hy, mulVec_zero, len_zero, mul_zero]
  · obtain ⟨e1, e2⟩ := scale_unit hy M
    rw [← e2]
    exact mul_le_mul_of_nonneg_right (h2 e1) (len_nonneg y)

theorem exists_isMin [Nonempty ι] (M : Matrix ι ι ℝ) : ∃ c, IsMin M c := by
  classical
  have hne : {x : ι → ℝ | len x = 1}.Nonempty := ⟨_, exists_unit (Classical.arbitrary ι)⟩
  obtain ⟨x, h1, h2⟩ := isCompact_unit.exists_isMinOn hne
    (f := fun x => len (M *ᵥ x)) (continuous_len.comp (by fun_prop)).continuousOn
  refine ⟨len (M *ᵥ x), fun y => ?_, x, h1, rfl⟩
  by_cases hy : y = 0
  · rw [hy, mulVec_zero, len_zero, mul_zero]
  · obtain ⟨e1, e2⟩ := scale_unit hy M
    rw [← e2]
    exact mul_le_mul_of_nonneg_right (h2 e1) (len_nonneg y)

theorem isMax_sMax [Nonempty ι] (M : Matrix ι ι ℝ) : IsMax M (sMax M) := by
  obtain ⟨c, h⟩ := exists_isMax M
  rwa [h.eq]

theorem isMin_sMin [Nonempty ι] (M : Matrix ι ι ℝ) : IsMin M (sMin M) := by
  obtain ⟨c, h⟩ := exists_isMin M
  rwa [h.eq]

theorem IsMax.nonneg {M : Matrix ι ι ℝ} {c : ℝ} (h : IsMax M c) : 0 ≤ c := by
  obtain ⟨x, -, h2⟩ := h.attained
  rw [← h2]
  exact len_nonneg _

theorem IsMin.nonneg {M : Matrix ι ι ℝ} {c : ℝ} (h : IsMin M c) : 0 ≤ c := by
  obtain ⟨x, -, h2⟩ := h.attained
  rw [← h2]
  exact len_nonneg _

theorem sMax_nonneg [Nonempty ι] (M : Matrix ι ι ℝ) : 0 ≤ sMax M := (isMax_sMax M).nonneg
theorem sMin_nonneg [Nonempty ι] (M : Matrix ι ι ℝ) : 0 ≤ sMin M := (isMin_sMin M).nonneg

theorem sMin_le_sMax [Nonempty ι] (M : Matrix ι ι ℝ) : sMin M ≤ sMax M := by
  obtain ⟨x, h1, h2⟩ := (isMax_sMax M).attained
  have := (isMin_sMin M).bound x
  rwa [h1, h2, mul_one] at this

theorem sMin_eq_zero [Nonempty ι] [DecidableEq ι] (M : Matrix ι ι ℝ) : sMin M = 0 ↔ M.det = 0 := by
  rw [← exists_mulVec_eq_zero_iff]
  constructor
  · intro h
    obtain ⟨x, h1, h2⟩ := (isMin_sMin M).attained
    refine ⟨x, ?_, len_eq_zero.1 (h2.trans h)⟩
    rintro rfl
    rw [len_zero] at h1
    exact zero_ne_one h1
  · rintro ⟨x, h1, h2⟩
    obtain ⟨e1, e2⟩ := scale_unit h1 M
    refine IsMin.eq ⟨fun y => by rw [zero_mul]; exact len_nonneg _, _, e1, ?_⟩
    rw [mulVec_smul, h2, smul_zero, len_zero]

theorem sMax_eq_zero [Nonempty ι] (M : Matrix ι ι ℝ) : sMax M = 0 ↔ M = 0 := by
  classical
  constructor
  · intro h
    ext i j
    have := (isMax_sMax M).bound (Pi.single j 1)
    rw [h, zero_mul] at this
    have h1 := len_eq_zero.1 (le_antisymm this (len_nonneg _))
    rw [mulVec_single_one] at h1
    exact congrFun h1 i
  · rintro rfl
    obtain ⟨x, -, h2⟩ := (isMax_sMax (0 : Matrix ι ι ℝ)).attained
    rw [← h2, zero_mulVec, len_zero]

/-- The largest singular value of the inverse is the inverse of the smallest one. -/
theorem sMax_inv [Nonempty ι] [DecidableEq ι] {M : Matrix ι ι ℝ} (h : M.det ≠ 0) : sMax M⁻¹ = (sMin M)⁻¹ := by
  have hu : IsUnit M.det := Ne.isUnit h
  have h0 : 0 < sMin M := lt_of_le_of_ne (sMin_nonneg M) fun e => h ((sMin_eq_zero M).1 e.symm)
  refine IsMax.eq ⟨fun x => ?_, ?_⟩
  · have := (isMin_sMin M).bound (M⁻¹ *ᵥ x)
    rw [mulVec_mulVec, mul_nonsing_inv _ hu, one_mulVec] at this
    rw [inv_mul_eq_div, le_div_iff₀ h0, mul_comm]
    exact this
  · obtain ⟨x, h1, h2⟩ := (isMin_sMin M).attained
    refine ⟨(sMin M)⁻¹ • (M *ᵥ x), ?_, ?_⟩
    · rw [len_smul, abs_of_pos (inv_pos.2 h0), h2, inv_mul_cancel₀ h0.ne']
    · rw [mulVec_smul, mulVec_mulVec, nonsing_inv_mul _ hu, one_mulVec, len_smul, abs_of_pos (inv_pos.2 h0), h1, mul_one]

theorem len_reindex (e : κ ≃ ι) (x : ι → ℝ) : len (x ∘ e) = len x := by
  rw [len, len]
  congr 1
  exact e.sum_comp fun i => x i ^ 2

theorem mulVec_reindex (e : κ ≃ ι) (M : Matrix ι ι ℝ) (x : ι → ℝ) : (M.submatrix e e) *ᵥ (x ∘ e) = (M *ᵥ x) ∘ e := by
  rw [submatrix_mulVec_equiv]
  congr 2
  ext i
  simp

theorem IsMax.reindex {M : Matrix ι ι ℝ} {c : ℝ} (h : IsMax M c) (e : κ ≃ ι) : IsMax (M.submatrix e e) c := by
  refine ⟨fun x => ?_, ?_⟩
  · have h1 := h.bound (x ∘ e.symm)
    have h2 := mulVec_reindex e M (x ∘ e.symm)
    have h3 : (x ∘ e.symm) ∘ e = x := by ext i; simp
    rw [h3] at h2
    rw [h2, len_reindex]
    rwa [len_reindex] at h1
  · obtain ⟨x, h1, h2⟩ := h.attained
    exact ⟨x ∘ e, by rw [len_reindex, h1], by rw [mulVec_reindex, len_reindex, h2]⟩

theorem IsMin.reindex {M : Matrix ι ι ℝ} {c : ℝ} (h : IsMin M c) (e : κ ≃ ι) : IsMin (M.submatrix e e) c := by
  refine ⟨fun x => ?_, ?_⟩
  · have h1 := h.bound (x ∘ e.symm)
    have h2 := mulVec_reindex e M (x ∘ e.symm)
    have h3 : (x ∘ e.symm) ∘ e = x := by ext i; simp
    rw [h3] at h2
    rw [h2, len_reindex]
    rwa [len_reindex] at h1
  · obtain ⟨x, h1, h2⟩ := h.attained
    exact ⟨x ∘ e, by rw [len_reindex, h1], by rw [mulVec_reindex, len_reindex, h2]⟩

/-! ## Kronecker products -/

theorem len_sq_prod (x : ι × κ → ℝ) : len x ^ 2 = ∑ i, len (fun k => x (i, k)) ^ 2 := by
  rw [len_sq, Fintype.sum_prod_type]
  exact sum_congr rfl fun i _ => (len_sq _).symm

theorem len_sq_prod' (x : ι × κ → ℝ) : len x ^ 2 = ∑ k, len (fun i => x (i, k)) ^ 2 := by
  rw [len_sq, Fintype.sum_prod_type_right]
  exact sum_congr rfl fun i _ => (len_sq _).symm

theorem len_tensor (x : ι → ℝ) (y : κ → ℝ) : len (fun p : ι × κ => x p.1 * y p.2) = len x * len y := by
  have h : len (fun p : ι × κ => x p.1 * y p.2) ^ 2 = (len x * len y) ^ 2 := by
    rw [len_sq_prod, mul_pow, len_sq x, sum_mul]
    refine sum_congr rfl fun i _ => ?_
    have : (fun k => x i * y k) = x i • y := rfl
    rw [this, len_smul, mul_pow, sq_abs]
  exact (pow_left_inj₀ (len_nonneg _) (mul_nonneg (len_nonneg _) (len_nonneg _)) two_ne_zero).1 h

theorem kron_mulVec (A : Matrix ι ι ℝ) (B : Matrix κ κ ℝ) (x : ι × κ → ℝ) (i : ι) (k : κ) :
    ((A ⊗ₖ B) *ᵥ x) (i, k) = (A *ᵥ fun j => (B *ᵥ fun l => x (j, l)) k) i := by
  simp only [mulVec, dotProduct, kronecker_apply, Fintype.sum_prod_type, mul_sum]
  exact sum_congr rfl fun j _ => sum_congr rfl fun l _ => by ring

theorem kron_tensor (A : Matrix ι ι ℝ) (B : Matrix κ κ ℝ) (x : ι → ℝ) (y : κ → ℝ) :
    (A ⊗ₖ B) *ᵥ (fun p : ι × κ => x p.1 * y p.2) = fun p => (A *ᵥ x) p.1 * (B *ᵥ y) p.2 := by
  ext ⟨i, k⟩
  rw [kron_mulVec]
  have : (fun j => (B *ᵥ fun l => x j * y l) k) = fun j => (B *ᵥ y) k * x j := by
    ext j
    have : (fun l => x j * y l) = x j • y := rfl
    rw [this, mulVec_smul, Pi.smul_apply, smul_eq_mul, mul_comm]
  rw [this]
  have : (fun j => (B *ᵥ y) k * x j) = (B *ᵥ y) k • x := rfl
  rw [this, mulVec_smul, Pi.smul_apply, smul_eq_mul, mul_comm]

/-- The squared length of an image under a Kronecker product, through the images under both factors. -/
theorem len_kron (A : Matrix ι ι ℝ) (B : Matrix κ κ ℝ) (x : ι × κ → ℝ) :
    len ((A ⊗ₖ B) *ᵥ x) ^ 2 = ∑ k, len (A *ᵥ fun j => (B *ᵥ fun l => x (j, l)) k) ^ 2 := by
  rw [len_sq_prod']
  refine sum_congr rfl fun k _ => ?_
  congr 2
  ext i
  exact kron_mulVec A B x i k

theorem len_mid (B : Matrix κ κ ℝ) (x : ι × κ → ℝ) :
    ∑ k, len (fun j : ι => (B *ᵥ fun l => x (j, l)) k) ^ 2 = ∑ j, len (B *ᵥ fun l => x (j, l)) ^ 2 := by
  simp only [len_sq]
  exact sum_comm

theorem IsMax.kron {A : Matrix ι ι ℝ} {B : Matrix κ κ ℝ} {a b : ℝ} (hA : IsMax A a) (hB : IsMax B b) :
    IsMax (A ⊗ₖ B) (a * b) := by
  have ha := hA.nonneg
  have hb := hB.nonneg
  refine ⟨fun x => ?_, ?_⟩
  · refine (pow_le_pow_iff_left₀ (len_nonneg _) (mul_nonneg (mul_nonneg ha hb) (len_nonneg _)) two_ne_zero).1 ?_
    rw [len_kron]
    calc _ ≤ ∑ k, (a * len (fun j : ι => (B *ᵥ fun l => x (j, l)) k)) ^ 2 :=
          sum_le_sum fun k _ => pow_le_pow_left₀ (len_nonneg _) (hA.bound _) 2
      _ = a ^ 2 * ∑ j, len (B *ᵥ fun l => x (j, l)) ^ 2 := by
          rw [← len_mid, mul_sum]
          exact sum_congr rfl fun k _ => mul_pow _ _ _
      _ ≤ a ^ 2 * ∑ j, (b * len (fun l => x (j, l))) ^ 2 :=
          mul_le_mul_of_nonneg_left (sum_le_sum fun j _ => pow_le_pow_left₀ (len_nonneg _) (hB.bound _) 2) (sq_nonneg a)
      _ = (a * b * len x) ^ 2 := by
          rw [mul_pow, mul_pow, len_sq_prod, mul_assoc, mul_sum (a := b ^ 2)]
          congr 1
          exact sum_congr rfl fun k _ => mul_pow _ _ _
  · obtain ⟨x, x1, x2⟩ := hA.attained
    obtain ⟨y, y1, y2⟩ := hB.attained
    refine ⟨fun p => x p.1 * y p.2, by rw [len_tensor, x1, y1, mul_one], ?_⟩
    rw [kron_tensor, len_tensor, x2, y2]

theorem IsMin.kron {A : Matrix ι ι ℝ} {B : Matrix κ κ ℝ} {a b : ℝ} (hA : IsMin A a) (hB : IsMin B b) :
    IsMin (A ⊗ₖ B) (a * b) := by
  have ha := hA.nonneg
  have hb := hB.nonneg
  refine ⟨fun x => ?_, ?_⟩
  · refine (pow_le_pow_iff_left₀ (mul_nonneg (mul_nonneg ha hb) (len_nonneg _)) (len_nonneg _) two_ne_zero).1 ?_
    rw [len_kron]
    calc (a * b * len x) ^ 2 = a ^ 2 * ∑ j, (b * len (fun l => x (j, l))) ^ 2 := by
          rw [mul_pow, mul_pow, len_sq_prod, mul_assoc, mul_sum (a := b ^ 2)]
          congr 1
          exact sum_congr rfl fun k _ => (mul_pow _ _ _).symm
      _ ≤ a ^ 2 * ∑ j, len (B *ᵥ fun l => x (j, l)) ^ 2 :=
          mul_le_mul_of_nonneg_left
            (sum_le_sum fun j _ => pow_le_pow_left₀ (mul_nonneg hb (len_nonneg _)) (hB.bound _) 2) (sq_nonneg a)
      _ = ∑ k, (a * len (fun j : ι => (B *ᵥ fun l => x (j, l)) k)) ^ 2 := by
          rw [← len_mid, mul_sum]
          exact sum_congr rfl fun k _ => (mul_pow _ _ _).symm
      _ ≤ _ := sum_le_sum fun k _ => pow_le_pow_left₀ (mul_nonneg ha (len_nonneg _)) (hA.bound _) 2
  · obtain ⟨x, x1, x2⟩ := hA.attained
    obtain ⟨y, y1, y2⟩ := hB.attained
    refine ⟨fun p => x p.1 * y p.2, by rw [len_tensor, x1, y1, mul_one], ?_⟩
    rw [kron_tensor, len_tensor, x2, y2]

/-! ## Diagonal matrices -/

theorem sup_ex [Nonempty ι] (f : ι → ℝ) : (∀ i, f i ≤ ⨆ i, f i) ∧ ∃ i, f i = ⨆ i, f i :=
  ⟨fun i => le_ciSup (Set.finite_range f).bddAbove i, exists_eq_ciSup_of_finite⟩

theorem inf_ex [Nonempty ι] (f : ι → ℝ) : (∀ i, ⨅ i, f i ≤ f i) ∧ ∃ i, f i = ⨅ i, f i :=
  ⟨fun i => ciInf_le (Set.finite_range f).bddBelow i, exists_eq_ciInf_of_finite⟩

theorem sup_eq {f : ι → ℝ} {c : ℝ} (h : ∀ i, f i ≤ c) (h' : ∃ i, f i = c) : ⨆ i, f i = c := by
  obtain ⟨i, hi⟩ := h'
  haveI : Nonempty ι := ⟨i⟩
  exact le_antisymm (ciSup_le h) (hi ▸ le_ciSup (Set.finite_range f).bddAbove i)

theorem inf_eq {f : ι → ℝ} {c : ℝ} (h : ∀ i, c ≤ f i) (h' : ∃ i, f i = c) : ⨅ i, f i = c := by
  obtain ⟨i, hi⟩ := h'
  haveI : Nonempty ι := ⟨i⟩
  exact le_antisymm (hi ▸ ciInf_le (Set.finite_range f).bddBelow i) (le_ciInf h)

theorem sup_kron [Nonempty ι] [Nonempty κ] {f : ι → ℝ} {g : κ → ℝ} (hf : ∀ i, 0 ≤ f i) (hg : ∀ i, 0 ≤ g i) :
    ⨆ p : ι × κ, f p.1 * g p.2 = (⨆ i, f i) * ⨆ k, g k := by
  obtain ⟨f1, i, hi⟩ := sup_ex f
  obtain ⟨g1, k, hk⟩ := sup_ex g
  refine sup_eq (fun p => mul_le_mul (f1 _) (g1 _) (hg _) ((hf i).trans (f1 i))) ⟨(i, k), ?_⟩
  rw [hi, hk]

theorem inf_kron [Nonempty ι] [Nonempty κ] {f : ι → ℝ} {g : κ → ℝ} (hf : ∀ i, 0 ≤ f i) (hg : ∀ i, 0 ≤ g i) :
    ⨅ p : ι × κ, f p.1 * g p.2 = (⨅ i, f i) * ⨅ k, g k := by
  obtain ⟨f1, i, hi⟩ := inf_ex f
  obtain ⟨g1, k, hk⟩ := inf_ex g
  refine inf_eq (fun p => mul_le_mul (f1 _) (g1 _) (le_ciInf hg) (hf _)) ⟨(i, k), ?_⟩
  rw [hi, hk]

theorem isMax_diagonal [Nonempty ι] [DecidableEq ι] (f : ι → ℝ) : IsMax (Matrix.diagonal f) (⨆ i, |f i|) := by
  obtain ⟨f1, i, hi⟩ := sup_ex fun i => |f i|
  have h0 : 0 ≤ ⨆ i, |f i| := (abs_nonneg (f i)).trans (f1 i)
  refine ⟨fun x => ?_, Pi.single i 1, exists_unit i, ?_⟩
  · refine len_le (mul_nonneg h0 (len_nonneg _)) ?_
    rw [mul_pow, len_sq, mul_sum]
    refine sum_le_sum fun j _ => ?_
    rw [mulVec_diagonal, mul_pow, ← sq_abs (f j)]
    exact mul_le_mul_of_nonneg_right (pow_le_pow_left₀ (abs_nonneg _) (f1 j) 2) (sq_nonneg _)
  · have : Matrix.diagonal f *ᵥ Pi.single i 1 = f i • (Pi.single i 1 : ι → ℝ) := by
      ext j
      rw [mulVec_diagonal, Pi.smul_apply, smul_eq_mul]
      by_cases h : j = i
      · rw [h]
      · simp [h]
    rw [this, len_smul, exists_unit, mul_one, hi]

theorem isMin_diagonal [Nonempty ι] [DecidableEq ι] (f : ι → ℝ) : IsMin (Matrix.diagonal f) (⨅ i, |f i|) := by
  obtain ⟨f1, i, hi⟩ := inf_ex fun i => |f i|
  have h0 : 0 ≤ ⨅ i, |f i| := le_ciInf fun i => abs_nonneg (f i)
  refine ⟨fun x => ?_, Pi.single i 1, exists_unit i, ?_⟩
  · refine le_len (mul_nonneg h0 (len_nonneg _)) ?_
    rw [mul_pow, len_sq, mul_sum]
    refine sum_le_sum fun j _ => ?_
    rw [mulVec_diagonal, mul_pow, ← sq_abs (f j)]
    exact mul_le_mul_of_nonneg_right (pow_le_pow_left₀ h0 (f1 j) 2) (sq_nonneg _)
  · have : Matrix.diagonal f *ᵥ Pi.single i 1 = f i • (Pi.single i 1 : ι → ℝ) := by
      ext j
      rw [mulVec_diagonal, Pi.smul_apply, smul_eq_mul]
      by_cases h : j = i
      · rw [h]
      · simp [h]
    rw [this, len_smul, exists_unit, mul_one, hi]

end Probnum.Linops.Cond
