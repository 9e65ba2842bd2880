import Verif.RandVars.ArithLemmas
import Verif.LinGauss.Props

/-! Helper lemmas for matrix products. -/

namespace Probnum.RandVars

open MeasureTheory ProbabilityTheory Finset Gauss LinGauss Linops

variable {Ω : Type*} {mΩ : MeasurableSpace Ω} {P : Measure Ω} {X Y : Ω → Arr} {N M N' : Normal}

theorem Arr.flat_sq {a : Arr} {q i j : ℕ} (h : a.shape = [q, q]) (hi : i < q) (hj : j < q) :
    a.flat (i * q + j) = a.get [i, j] := by
  have hq : 0 < q := by omega
  rw [Arr.flat_two h (mul_add_lt hi hj)]
  congr 2
  · rw [Nat.add_comm, Nat.add_mul_div_right _ _ hq, Nat.div_eq_of_lt hj, Nat.zero_add]
  · rw [Nat.add_comm, Nat.add_mul_mod_self_right, Nat.mod_eq_of_lt hj]

theorem Arr.matmul_vv {a b y : Arr} {n m : ℕ} (ha : a.shape = [n]) (hb : b.shape = [m]) (h : a.matmul b = .ok y) :
    n = m ∧ y = ⟨[], fun _ => ∑ k ∈ range n, a.get [k] * b.get [k]⟩ := by
  unfold Arr.matmul at h
  simp only [ha, hb] at h
  split at h
  · cases h; exact ⟨by assumption, rfl⟩
  · cases h

theorem Arr.matmul_vm {a b y : Arr} {n m p : ℕ} (ha : a.shape = [n]) (hb : b.shape = [m, p]) (h : a.matmul b = .ok y) :
    n = m ∧ y = ⟨[p], fun idx => ∑ k ∈ range n, a.get [k] * b.get [k, idx.getD 0 0]⟩ := by
  unfold Arr.matmul at h
  simp only [ha, hb] at h
  split at h
  · cases h; exact ⟨by assumption, rfl⟩
  · cases h

theorem Arr.matmul_mv {a b y : Arr} {r n m : ℕ} (ha : a.shape = [r, n]) (hb : b.shape = [m]) (h : a.matmul b = .ok y) :
    n = m ∧ y = ⟨[r], fun idx => ∑ k ∈ range n, a.get [idx.getD 0 0, k] * b.get [k]⟩ := by
  unfold Arr.matmul at h
  simp only [ha, hb] at h
  split at h
  · cases h; exact ⟨by assumption, rfl⟩
  · cases h

theorem Arr.matmul_mm {a b y : Arr} {r n m p : ℕ} (ha : a.shape = [r, n]) (hb : b.shape = [m, p])
    (h : a.matmul b = .ok y) :
    n = m ∧ y = ⟨[r, p], fun idx => ∑ k ∈ range n, a.get [idx.getD 0 0, k] * b.get [k, idx.getD 1 0]⟩ := by
  unfold Arr.matmul at h
  simp only [ha, hb] at h
  split at h
  · cases h; exact ⟨by assumption, rfl⟩
  · cases h

theorem Arr.matmul_vv_eq {a b : Arr} {n : ℕ} (ha : a.shape = [n]) (hb : b.shape = [n]) :
    a.matmul b = .ok ⟨[], fun _ => ∑ k ∈ range n, a.get [k] * b.get [k]⟩ := by
  unfold Arr.matmul; simp only [ha, hb, if_true]

theorem Arr.matmul_vm_eq {a b : Arr} {n p : ℕ} (ha : a.shape = [n]) (hb : b.shape = [n, p]) :
    a.matmul b = .ok ⟨[p], fun idx => ∑ k ∈ range n, a.get [k] * b.get [k, idx.getD 0 0]⟩ := by
  unfold Arr.matmul; simp only [ha, hb, if_true]

theorem Arr.matmul_mv_eq {a b : Arr} {r n : ℕ} (ha : a.shape = [r, n]) (hb : b.shape = [n]) :
    a.matmul b = .ok ⟨[r], fun idx => ∑ k ∈ range n, a.get [idx.getD 0 0, k] * b.get [k]⟩ := by
  unfold Arr.matmul; simp only [ha, hb, if_true]

theorem Arr.matmul_mm_eq {a b : Arr} {r n p : ℕ} (ha : a.shape = [r, n]) (hb : b.shape = [n, p]) :
    a.matmul b = .ok ⟨[r, p], fun idx => ∑ k ∈ range n, a.get [idx.getD 0 0, k] * b.get [k, idx.getD 1 0]⟩ := by
  unfold Arr.matmul; simp only [ha, hb, if_true]

/-- The shapes a matrix product accepts. -/
theorem Arr.matmul_shapes {a b y : Arr} (h : a.matmul b = .ok y) :
    (∃ n, a.shape = [n] ∧ b.shape = [n]) ∨ (∃ n p, a.shape = [n] ∧ b.shape = [n, p]) ∨
      (∃ r n, a.shape = [r, n] ∧ b.shape = [n]) ∨ ∃ r n p, a.shape = [r, n] ∧ b.shape = [n, p] := by
  unfold Arr.matmul at h
  split at h
  · rename_i n m ha hb
    split at h
    · rename_i e; subst e; exact Or.inl ⟨n, ha, hb⟩
    · cases h
  · rename_i n m p ha hb
    split at h
    · rename_i e; subst e; exact Or.inr (Or.inl ⟨n, p, ha, hb⟩)
    · cases h
  · rename_i r n m ha hb
    split at h
    · rename_i e; subst e; exact Or.inr (Or.inr (Or.inl ⟨r, n, ha, hb⟩))
    · cases h
  · rename_i r n m p ha hb
    split at h
    · rename_i e; subst e; exact Or.inr (Or.inr (Or.inr ⟨r, n, p, ha, hb⟩))
    · cases h
  · cases h

/-- `Σₗ (Σₖ Kᵢₖ Cₖₗ) Kⱼₗ`. -/
noncomputable def sandwich (n : ℕ) (K C : ℕ → ℕ → ℝ) (i j : ℕ) : ℝ :=
  ∑ l ∈ range n, (∑ k ∈ range n, K i k * C k l) * K j l

theorem sandwich_eq (n : ℕ) (K C : ℕ → ℕ → ℝ) (i j : ℕ) :
    ∑ k ∈ range n, K i k * ∑ l ∈ range n, C k l * K j l = sandwich n K C i j := by
  unfold sandwich
  simp only [Finset.mul_sum, Finset.sum_mul]
  rw [Finset.sum_comm]
  refine Finset.sum_congr rfl fun l _ => Finset.sum_congr rfl fun k _ => by ring

theorem sandwich_root (n : ℕ) (K C L : ℕ → ℕ → ℝ) (hL : ∀ a < n, ∀ b < n, ∑ k ∈ range n, L a k * L b k = C a b) (i j : ℕ) :
    ∑ k ∈ range n, (∑ a ∈ range n, K i a * L a k) * (∑ b ∈ range n, K j b * L b k) = sandwich n K C i j := by
  unfold sandwich
  have e : ∀ b ∈ range n, (∑ a ∈ range n, K i a * C a b) * K j b =
      ∑ k ∈ range n, ∑ a ∈ range n, K i a * L a k * (K j b * L b k) := by
    intro b hb
    rw [Finset.sum_comm, Finset.sum_mul]
    refine Finset.sum_congr rfl fun a ha => ?_
    rw [← hL a (mem_range.1 ha) b (mem_range.1 hb), Finset.mul_sum, Finset.sum_mul]
    refine Finset.sum_congr rfl fun k _ => by ring
  rw [Finset.sum_congr rfl e, Finset.sum_comm]
  refine Finset.sum_congr rfl fun k _ => ?_
  rw [Finset.sum_mul_sum, Finset.sum_comm]

theorem sandwich_congr {n : ℕ} {K C C' : ℕ → ℕ → ℝ} (h : ∀ k < n, ∀ l < n, C k l = C' k l) (i j : ℕ) :
    sandwich n K C i j = sandwich n K C' i j := by
  unfold sandwich
  refine Finset.sum_congr rfl fun l hl => ?_
  congr 1
  refine Finset.sum_congr rfl fun k hk => ?_
  rw [h k (mem_range.1 hk) l (mem_range.1 hl)]

theorem conjugate_two {K C R : Arr} {q n m : ℕ} (hK : K.shape = [q, n]) (hC : C.shape = [m, m]) (h : conjugate K C = .ok R) :
    m = n ∧ R.shape = [q, q] ∧ ∀ i j, R.get [i, j] = sandwich n (fun a b => K.get [a, b]) (fun a b => C.get [a, b]) i j := by
  obtain ⟨D, h1, h2⟩ := bind_ok h
  obtain ⟨e1, rfl⟩ := Arr.matmul_mm hC (show K.t.shape = [n, q] by rw [Arr.t, hK]; rfl) h1
  subst e1
  obtain ⟨e2, rfl⟩ := Arr.matmul_mm hK rfl h2
  refine ⟨rfl, rfl, fun i j => ?_⟩
  rw [← sandwich_eq]
  rfl

theorem conjugate_two_eq {K C : Arr} {q n : ℕ} (hK : K.shape = [q, n]) (hC : C.shape = [n, n]) :
    ∃ R, conjugate K C = .ok R := by
  unfold conjugate
  rw [Arr.matmul_mm_eq hC (show K.t.shape = [n, q] by rw [Arr.t, hK]; rfl)]
  exact ⟨_, Arr.matmul_mm_eq hK rfl⟩

theorem conjugate_one {K C R : Arr} {n m : ℕ} (hK : K.shape = [n]) (hC : C.shape = [m, m]) (h : conjugate K C = .ok R) :
    m = n ∧ R.shape = [] ∧ R.get [] = sandwich n (fun _ b => K.get [b]) (fun a b => C.get [a, b]) 0 0 := by
  obtain ⟨D, h1, h2⟩ := bind_ok h
  obtain ⟨e1, rfl⟩ := Arr.matmul_mv hC (show K.t.shape = [n] by rw [Arr.t, hK]; rfl) h1
  subst e1
  obtain ⟨e2, rfl⟩ := Arr.matmul_vv hK rfl h2
  refine ⟨rfl, rfl, ?_⟩
  rw [← sandwich_eq]
  rfl

theorem cholUpdate_two {Q : QR} {S L : Arr} {m n : ℕ} (hS : S.shape = [m, n]) (h : cholUpdate Q S = .ok L) :
    L.shape = [m, m] ∧ ∀ i < m, ∀ j < m, ∑ k ∈ range m, L.get [i, k] * L.get [j, k] =
      ∑ k ∈ range n, S.get [i, k] * S.get [j, k] := by
  unfold cholUpdate at h
  rw [hS] at h
  simp only at h
  obtain ⟨L', h1, rfl⟩ := map_ok h
  refine ⟨rfl, fun i hi j hj => ?_⟩
  have hn : 0 < n := by
    by_contra h0
    rw [choleskyUpdate1, if_pos (by omega)] at h1
    cases h1
  obtain ⟨L'', h2, h3, _⟩ := cholesky_update_single_correct Q hn (Matrix.of fun (i : Fin m) (j : Fin n) => S.get [i.1, j.1])
  rw [h1] at h2
  cases h2
  have := congrFun (congrFun h3 ⟨i, hi⟩) ⟨j, hj⟩
  simp only [Matrix.mul_apply, Matrix.transpose_apply, Matrix.of_apply] at this
  rw [← Fin.sum_univ_eq_sum_range (fun k => S.get [i, k] * S.get [j, k]), ← this, Finset.sum_range]
  refine Finset.sum_congr rfl fun k _ => ?_
  simp [hi, hj]

theorem cholUpdate_one {Q : QR} {S L : Arr} {n : ℕ} (hS : S.shape = [n]) (h : cholUpdate Q S = .ok L) :
    L.shape = [1, 1] ∧ L.flat 0 * L.flat 0 = ∑ k ∈ range n, S.get [k] * S.get [k] := by
  unfold cholUpdate at h
  rw [hS] at h
  simp only at h
  obtain ⟨L', h1, rfl⟩ := map_ok h
  refine ⟨rfl, ?_⟩
  have hn : 0 < n := by
    by_contra h0
    rw [choleskyUpdate1, if_pos (by omega)] at h1
    cases h1
  obtain ⟨L'', h2, h3, _⟩ := cholesky_update_single_correct Q hn (Matrix.of fun (_ : Fin 1) (j : Fin n) => S.get [j.1])
  rw [h1] at h2
  cases h2
  have := congrFun (congrFun h3 0) 0
  simp only [Matrix.mul_apply, Matrix.transpose_apply, Matrix.of_apply, Finset.univ_unique, Finset.sum_singleton] at this
  rw [← Fin.sum_univ_eq_sum_range (fun k => S.get [k] * S.get [k]), ← this]
  rfl

theorem WF_vec (hN : N.WF) {n : ℕ} (h : N.mean.shape = [n]) : N.cov.shape = [n, n] ∧ N.mean.size = n := by
  rw [hN.cov, Arr.size, h]; simp [expectedCov]

theorem WF_mat (hN : N.WF) {m n : ℕ} (h : N.mean.shape = [m, n]) :
    N.cov.shape = [m * n, m * n] ∧ N.mean.size = m * n := by
  rw [hN.cov, Arr.size, h]; simp [expectedCov]

theorem covAt_get {n : ℕ} (hs : N.cov.shape = [n, n]) (hn : N.mean.size = n) {i j : ℕ} (hi : i < n) (hj : j < n) :
    N.covAt i j = N.cov.get [i, j] := by rw [Normal.covAt, hn, Arr.flat_sq hs hi hj]

/-! ### Affine operations -/

theorem flat_row {x : Arr} {n k : ℕ} (h : x.shape = [1, n]) (hk : k < n) : x.flat k = x.get [0, k] := by
  rw [Arr.flat_two h (by omega), Nat.div_eq_of_lt hk, Nat.mod_eq_of_lt hk]

theorem flat_col {x : Arr} {n k : ℕ} (h : x.shape = [n, 1]) (hk : k < n) : x.flat k = x.get [k, 0] := by
  rw [Arr.flat_two h (by omega), Nat.div_one, Nat.mod_one]

theorem law_core {f : Arr → Res Arr} {A : ℕ → ℕ → ℝ} (hX : Law P X N) {m C : Arr} {L : Option Arr} {q n : ℕ}
    (hn : N.mean.size = n) (hq : m.size = q) (hf : AffineOp f N.mean.shape m.shape A fun _ => 0)
    (hm : f N.mean = .ok m) (hC : ∀ i < q, ∀ j < q, C.flat (i * q + j) = sandwich n A N.covAt i j) :
    ∃ Z : Ω → Arr, (∀ ω, f (X ω) = .ok (Z ω)) ∧ Law P Z ⟨m, C, L⟩ := by
  subst hn hq
  exact law_affine hX hf hm fun i hi j hj => hC i hi j hj

theorem isRow_cases {s : List ℕ} (h : isRow s = true) : (∃ n, s = [n]) ∨ ∃ n, s = [1, n] := by
  unfold isRow at h
  split at h
  · exact Or.inl ⟨_, rfl⟩
  · simp at h; subst h; exact Or.inr ⟨_, rfl⟩
  · cases h

theorem isCol_cases {s : List ℕ} (h : isCol s = true) : (∃ n, s = [n]) ∨ ∃ n, s = [n, 1] := by
  unfold isCol at h
  split at h
  · exact Or.inl ⟨_, rfl⟩
  · simp at h; subst h; exact Or.inr ⟨_, rfl⟩
  · cases h

/-- Right multiplication of a vector or row by a matrix. -/
theorem affine_row {s : List ℕ} {n p : ℕ} (hs : s = [n] ∨ s = [1, n]) {c : Arr} (hc : c.shape = [n, p]) :
    AffineOp (fun x => x.matmul c) s (if s = [n] then [p] else [1, p]) (fun j k => c.get [k, j]) fun _ => 0 := by
  intro x hx
  rcases hs with rfl | rfl
  · refine ⟨_, Arr.matmul_vm_eq hx hc, by simp, fun i hi => ?_⟩
    simp at hi
    rw [Arr.flat_one rfl hi, add_zero]
    simp only [List.prod_cons, List.prod_nil, mul_one]
    refine Finset.sum_congr rfl fun k hk => ?_
    rw [Arr.flat_one hx (mem_range.1 hk), mul_comm]; rfl
  · refine ⟨_, Arr.matmul_mm_eq hx hc, by simp, fun i hi => ?_⟩
    simp at hi
    rw [flat_row rfl hi, add_zero]
    simp only [List.prod_cons, List.prod_nil, mul_one, one_mul]
    refine Finset.sum_congr rfl fun k hk => ?_
    rw [flat_row hx (mem_range.1 hk), mul_comm]; rfl

/-- Right multiplication of a vector or row by a vector. -/
theorem affine_row_vec {s : List ℕ} {n : ℕ} (hs : s = [n] ∨ s = [1, n]) {c : Arr} (hc : c.shape = [n]) :
    AffineOp (fun x => x.matmul c) s (if s = [n] then [] else [1]) (fun _ k => c.get [k]) fun _ => 0 := by
  intro x hx
  rcases hs with rfl | rfl
  · refine ⟨_, Arr.matmul_vv_eq hx hc, by simp, fun i hi => ?_⟩
    rw [Arr.flat_nil rfl, add_zero]
    simp only [List.prod_cons, List.prod_nil, mul_one]
    refine Finset.sum_congr rfl fun k hk => ?_
    rw [Arr.flat_one hx (mem_range.1 hk), mul_comm]
  · refine ⟨_, Arr.matmul_mv_eq hx hc, by simp, fun i hi => ?_⟩
    simp at hi
    subst hi
    rw [Arr.flat_one rfl Nat.one_pos, add_zero]
    simp only [List.prod_cons, List.prod_nil, mul_one, one_mul]
    refine Finset.sum_congr rfl fun k hk => ?_
    rw [flat_row hx (mem_range.1 hk), mul_comm]; rfl

/-- Left multiplication of a vector or column by a matrix. -/
theorem affine_col {s : List ℕ} {n p : ℕ} (hs : s = [n] ∨ s = [n, 1]) {c : Arr} (hc : c.shape = [p, n]) :
    AffineOp (fun x => c.matmul x) s (if s = [n] then [p] else [p, 1]) (fun i k => c.get [i, k]) fun _ => 0 := by
  intro x hx
  rcases hs with rfl | rfl
  · refine ⟨_, Arr.matmul_mv_eq hc hx, by simp, fun i hi => ?_⟩
    simp at hi
    rw [Arr.flat_one rfl hi, add_zero]
    simp only [List.prod_cons, List.prod_nil, mul_one]
    refine Finset.sum_congr rfl fun k hk => ?_
    rw [Arr.flat_one hx (mem_range.1 hk)]; rfl
  · refine ⟨_, Arr.matmul_mm_eq hc hx, by simp, fun i hi => ?_⟩
    simp at hi
    rw [flat_col rfl hi, add_zero]
    simp only [List.prod_cons, List.prod_nil, mul_one]
    refine Finset.sum_congr rfl fun k hk => ?_
    rw [flat_col hx (mem_range.1 hk)]; rfl

/-- Left multiplication of a vector by a vector. -/
theorem affine_col_vec {n : ℕ} {c : Arr} (hc : c.shape = [n]) :
    AffineOp (fun x => c.matmul x) [n] [] (fun _ k => c.get [k]) fun _ => 0 := by
  intro x hx
  refine ⟨_, Arr.matmul_vv_eq hc hx, by simp, fun i hi => ?_⟩
  rw [Arr.flat_nil rfl, add_zero]
  simp only [List.prod_cons, List.prod_nil, mul_one]
  refine Finset.sum_congr rfl fun k hk => ?_
  rw [Arr.flat_one hx (mem_range.1 hk)]

/-- The factor kept by the vector branches is a square root. -/
theorem root_mat {Q : QR} {S : Arr} {K : ℕ → ℕ → ℝ} {m C : Arr} {L : Option Arr} {p n : ℕ} (hn : N.mean.size = n)
    (hp : m.size = p) (hcov : N.cov.shape = [n, n]) (hw : ∀ L₀, N.chol = some L₀ → L₀.shape = [n, n]) {g : Arr → Res Arr}
    (hL : mapFactor N.chol (fun L₀ => (g L₀).bind (cholUpdate Q)) = .ok L)
    (hg : ∀ L₀ S, L₀.shape = [n, n] → g L₀ = .ok S → S.shape = [p, n] ∧
      ∀ i k, S.get [i, k] = ∑ a ∈ range n, K i a * L₀.get [a, k])
    (hC : ∀ i < p, ∀ j < p, C.flat (i * p + j) = sandwich n K N.covAt i j) (hroot : N.Root) :
    Normal.Root ⟨m, C, L⟩ := by
  intro L' hL'
  change L = some L' at hL'
  subst hL'
  unfold mapFactor at hL
  cases h : N.chol with
  | none => rw [h] at hL; cases hL
  | some L₀ =>
    rw [h] at hL
    obtain ⟨L₁, h1, h2⟩ := map_ok hL
    cases h2
    obtain ⟨S, h3, h4⟩ := bind_ok h1
    have hs0 := hw L₀ h
    obtain ⟨h5, h6⟩ := hg L₀ S hs0 h3
    obtain ⟨h7, h8⟩ := cholUpdate_two h5 h4
    obtain ⟨_, hr⟩ := hroot L₀ h
    refine ⟨by show L'.size = m.size * m.size; rw [hp, Arr.size, h7]; simp, fun i hi j hj => ?_⟩
    change i < m.size at hi
    change j < m.size at hj
    show ∑ k ∈ range m.size, L'.flat (i * m.size + k) * L'.flat (j * m.size + k) = C.flat (i * m.size + j)
    rw [hp] at hi hj ⊢
    rw [hC i hi j hj, Finset.sum_congr rfl fun k hk => by
      rw [Arr.flat_sq h7 hi (mem_range.1 hk), Arr.flat_sq h7 hj (mem_range.1 hk)], h8 i hi j hj]
    rw [← sandwich_root n K N.covAt (fun a k => L₀.get [a, k]) ?_ i j]
    · refine Finset.sum_congr rfl fun k _ => by rw [h6, h6]
    · intro a ha b hb
      have := hr a (by rw [hn]; exact ha) b (by rw [hn]; exact hb)
      rw [hn] at this
      rw [← this]
      refine Finset.sum_congr rfl fun k hk => ?_
      rw [Arr.flat_sq hs0 ha (mem_range.1 hk), Arr.flat_sq hs0 hb (mem_range.1 hk)]

/-- The same for products with a vector. -/
theorem root_vec {Q : QR} {K : ℕ → ℝ} {m C : Arr} {L : Option Arr} {n : ℕ} (hn : N.mean.size = n)
    (hp : m.size = 1) (hw : ∀ L₀, N.chol = some L₀ → L₀.shape = [n, n]) {g : Arr → Res Arr}
    (hL : mapFactor N.chol (fun L₀ => (g L₀).bind (cholUpdate Q)) = .ok L)
    (hg : ∀ L₀ S, L₀.shape = [n, n] → g L₀ = .ok S → S.shape = [n] ∧
      ∀ k, S.get [k] = ∑ a ∈ range n, K a * L₀.get [a, k])
    (hC : C.flat 0 = sandwich n (fun _ => K) N.covAt 0 0) (hroot : N.Root) :
    Normal.Root ⟨m, C, L⟩ := by
  intro L' hL'
  change L = some L' at hL'
  subst hL'
  unfold mapFactor at hL
  cases h : N.chol with
  | none => rw [h] at hL; cases hL
  | some L₀ =>
    rw [h] at hL
    obtain ⟨L₁, h1, h2⟩ := map_ok hL
    cases h2
    obtain ⟨S, h3, h4⟩ := bind_ok h1
    have hs0 := hw L₀ h
    obtain ⟨h5, h6⟩ := hg L₀ S hs0 h3
    obtain ⟨h7, h8⟩ := cholUpdate_one h5 h4
    obtain ⟨_, hr⟩ := hroot L₀ h
    refine ⟨by show L'.size = m.size * m.size; rw [hp, Arr.size, h7]; simp, fun i hi j hj => ?_⟩
    change i < m.size at hi
    change j < m.size at hj
    show ∑ k ∈ range m.size, L'.flat (i * m.size + k) * L'.flat (j * m.size + k) = C.flat (i * m.size + j)
    rw [hp] at hi hj ⊢
    obtain rfl : i = 0 := by omega
    obtain rfl : j = 0 := by omega
    simp only [Finset.sum_range_one, Nat.zero_mul, Nat.add_zero]
    rw [hC, h8, ← sandwich_root n (fun _ => K) N.covAt (fun a k => L₀.get [a, k]) ?_ 0 0]
    · refine Finset.sum_congr rfl fun k _ => by rw [h6]
    · intro a ha b hb
      have := hr a (by rw [hn]; exact ha) b (by rw [hn]; exact hb)
      rw [hn] at this
      rw [← this]
      refine Finset.sum_congr rfl fun k hk => ?_
      rw [Arr.flat_sq hs0 ha (mem_range.1 hk), Arr.flat_sq hs0 hb (mem_range.1 hk)]

theorem factor_shape (hN : N.WF) (h0 : N.mean.shape ≠ []) {n : ℕ} (hc : N.cov.shape = [n, n]) (L₀ : Arr)
    (h : N.chol = some L₀) : L₀.shape = [n, n] := (hN.factor h h0).trans hc

theorem affine_shape {f : Arr → Res Arr} {s s' : List ℕ} {A : ℕ → ℕ → ℝ} {b : ℕ → ℝ} (h : AffineOp f s s' A b) {x y : Arr}
    (hx : x.shape = s) (hf : f x = .ok y) : y.shape = s' := by
  obtain ⟨z, h1, h2, _⟩ := h x hx
  cases h1.symm.trans hf
  exact h2


theorem sum_delta_left {m n : ℕ} (a : ℕ) (ha : a < m) (g : ℕ → ℝ) (x : ℕ → ℕ → ℝ) :
    ∑ i ∈ range m, ∑ j ∈ range n, (if a = i then (1 : ℝ) else 0) * g j * x i j = ∑ j ∈ range n, x a j * g j := by
  rw [Finset.sum_eq_single a]
  · refine Finset.sum_congr rfl fun j _ => ?_
    rw [if_pos rfl]; ring
  · intro i _ hi
    refine Finset.sum_eq_zero fun j _ => ?_
    rw [if_neg (Ne.symm hi)]; ring
  · intro h; exact absurd (mem_range.2 ha) h

theorem sum_delta_right {m n : ℕ} (a : ℕ) (ha : a < n) (g : ℕ → ℝ) (x : ℕ → ℕ → ℝ) :
    ∑ i ∈ range m, ∑ j ∈ range n, g i * (if a = j then (1 : ℝ) else 0) * x i j = ∑ i ∈ range m, g i * x i a := by
  refine Finset.sum_congr rfl fun i _ => ?_
  rw [Finset.sum_eq_single a]
  · rw [if_pos rfl]; ring
  · intro j _ hj
    rw [if_neg (Ne.symm hj)]; ring
  · intro h; exact absurd (mem_range.2 ha) h

theorem div_lt_of {a m p : ℕ} (h : a < m * p) : a / p < m := Nat.div_lt_of_lt_mul (by rwa [Nat.mul_comm])

theorem mod_lt_of {a m p : ℕ} (h : a < m * p) : a % p < p := by
  refine Nat.mod_lt _ ?_
  rcases Nat.eq_zero_or_pos p with h0 | h0
  · subst h0; omega
  · exact h0

theorem kron_right_shape {c : Arr} {m n p : ℕ} (hc : c.shape = [n, p]) :
    (kron (identity m) c.t).shape = [m * p, m * n] ∧ ∀ a b, (kron (identity m) c.t).get [a, b] =
      (if a / p = b / n then 1 else 0) * c.get [b % n, a % p] := by
  have h : c.t.shape = [p, n] := by rw [Arr.t, hc]; rfl
  unfold kron
  simp only [h, identity]
  exact ⟨trivial, fun a b => rfl⟩

theorem kron_left_shape {c : Arr} {m n p : ℕ} (hc : c.shape = [p, m]) :
    (kron c (identity n)).shape = [p * n, m * n] ∧ ∀ a b, (kron c (identity n)).get [a, b] =
      c.get [a / n, b / n] * (if a % n = b % n then 1 else 0) := by
  unfold kron
  simp only [hc, identity]
  exact ⟨trivial, fun a b => rfl⟩

/-- Right multiplication of a matrix by a matrix. -/
theorem affine_right {m n p : ℕ} {c : Arr} (hc : c.shape = [n, p]) :
    AffineOp (fun x => x.matmul c) [m, n] [m, p] (fun a b => (kron (identity m) c.t).get [a, b]) fun _ => 0 := by
  intro x hx
  refine ⟨_, Arr.matmul_mm_eq hx hc, rfl, fun a ha => ?_⟩
  simp only [List.prod_cons, List.prod_nil, mul_one] at ha ⊢
  rw [Arr.flat_two rfl ha, add_zero]
  have e : ∀ b ∈ range (m * n), (kron (identity m) c.t).get [a, b] * x.flat b =
      (fun i j => (if a / p = i then (1 : ℝ) else 0) * c.get [j, a % p] * x.get [i, j]) (b / n) (b % n) := by
    intro b hb
    rw [(kron_right_shape hc).2, Arr.flat_two hx (mem_range.1 hb)]
  rw [Finset.sum_congr rfl e,
    sum_range_mul m n (fun i j => (if a / p = i then (1 : ℝ) else 0) * c.get [j, a % p] * x.get [i, j]),
    sum_delta_left (a / p) (div_lt_of ha) (fun j => c.get [j, a % p]) (fun i j => x.get [i, j])]
  rfl

/-- Right multiplication of a matrix by a vector. -/
theorem affine_right_vec {m n : ℕ} {c : Arr} (hc : c.shape = [n]) :
    AffineOp (fun x => x.matmul c) [m, n] [m] (fun a b => (kron (identity m) c.asColumn.t).get [a, b]) fun _ => 0 := by
  intro x hx
  have hc' : c.asColumn.shape = [n, 1] := by rw [Arr.asColumn, hc]; rfl
  refine ⟨_, Arr.matmul_mv_eq hx hc, rfl, fun a ha => ?_⟩
  simp only [List.prod_cons, List.prod_nil, mul_one] at ha ⊢
  rw [Arr.flat_one rfl ha, add_zero]
  have e : ∀ b ∈ range (m * n), (kron (identity m) c.asColumn.t).get [a, b] * x.flat b =
      (fun i j => (if a = i then (1 : ℝ) else 0) * c.get [j] * x.get [i, j]) (b / n) (b % n) := by
    intro b hb
    rw [(kron_right_shape hc').2, Arr.flat_two hx (mem_range.1 hb), Nat.div_one]; rfl
  rw [Finset.sum_congr rfl e,
    sum_range_mul m n (fun i j => (if a = i then (1 : ℝ) else 0) * c.get [j] * x.get [i, j]),
    sum_delta_left a ha (fun j => c.get [j]) (fun i j => x.get [i, j])]
  rfl

/-- Left multiplication of a matrix by a matrix. -/
theorem affine_left {m n p : ℕ} {c : Arr} (hc : c.shape = [p, m]) :
    AffineOp (fun x => c.matmul x) [m, n] [p, n] (fun a b => (kron c (identity n)).get [a, b]) fun _ => 0 := by
  intro x hx
  refine ⟨_, Arr.matmul_mm_eq hc hx, rfl, fun a ha => ?_⟩
  simp only [List.prod_cons, List.prod_nil, mul_one] at ha ⊢
  rw [Arr.flat_two rfl ha, add_zero]
  have e : ∀ b ∈ range (m * n), (kron c (identity n)).get [a, b] * x.flat b =
      (fun i j => c.get [a / n, i] * (if a % n = j then (1 : ℝ) else 0) * x.get [i, j]) (b / n) (b % n) := by
    intro b hb
    rw [(kron_left_shape hc).2, Arr.flat_two hx (mem_range.1 hb)]
  rw [Finset.sum_congr rfl e,
    sum_range_mul m n (fun i j => c.get [a / n, i] * (if a % n = j then (1 : ℝ) else 0) * x.get [i, j]),
    sum_delta_right (a % n) (mod_lt_of ha) (fun i => c.get [a / n, i]) (fun i j => x.get [i, j])]
  rfl

/-- Left multiplication of a matrix by a vector. -/
theorem affine_left_vec {m n : ℕ} {c : Arr} (hc : c.shape = [m]) :
    AffineOp (fun x => c.matmul x) [m, n] [n] (fun a b => (kron c.asRow (identity n)).get [a, b]) fun _ => 0 := by
  intro x hx
  have hc' : c.asRow.shape = [1, m] := by rw [Arr.asRow, hc]
  refine ⟨_, Arr.matmul_vm_eq hc hx, rfl, fun a ha => ?_⟩
  simp only [List.prod_cons, List.prod_nil, mul_one] at ha ⊢
  rw [Arr.flat_one rfl ha, add_zero]
  have e : ∀ b ∈ range (m * n), (kron c.asRow (identity n)).get [a, b] * x.flat b =
      (fun i j => c.get [i] * (if a = j then (1 : ℝ) else 0) * x.get [i, j]) (b / n) (b % n) := by
    intro b hb
    rw [(kron_left_shape hc').2, Arr.flat_two hx (mem_range.1 hb), Nat.mod_eq_of_lt ha]; rfl
  rw [Finset.sum_congr rfl e,
    sum_range_mul m n (fun i j => c.get [i] * (if a = j then (1 : ℝ) else 0) * x.get [i, j]),
    sum_delta_right a ha (fun i => c.get [i]) (fun i j => x.get [i, j])]
  rfl

/-- The first branch of `X @ A`. -/
theorem matmulVector_law {Q : QR} (hN : N.WF) (hX : Law P X N) {c : Arr} {R : RV} {n : ℕ}
    (hs : N.mean.shape = [n] ∨ N.mean.shape = [1, n]) (h : matmulVector Q N c = .ok R) :
    ∃ S, R = .normal S ∧ S.WF ∧ (∃ Z : Ω → Arr, (∀ ω, (X ω).matmul c = .ok (Z ω)) ∧ Law P Z S) ∧ (N.Root → S.Root) := by
  obtain ⟨L, hL, h⟩ := bind_ok h
  obtain ⟨m, hm, h⟩ := bind_ok h
  obtain ⟨C, hC, h⟩ := bind_ok h
  obtain ⟨S, hS, rfl⟩ := map_ok h
  obtain ⟨rfl, hW, _, hcov', _⟩ := mkNormal_ok hS
  have hn : N.mean.size = n := by rcases hs with h | h <;> rw [Arr.size, h] <;> simp
  have h0 : N.mean.shape ≠ [] := by rcases hs with h | h <;> rw [h] <;> simp
  have hcov : N.cov.shape = [n, n] := by
    rw [hN.cov]; rcases hs with h | h <;> rw [h] <;> simp [expectedCov]
  have hat : ∀ k < n, ∀ l < n, N.cov.get [k, l] = N.covAt k l := fun k hk l hl => (covAt_get hcov hn hk hl).symm
  refine ⟨_, rfl, hW, ?_⟩
  have hshape : c.shape = [n] ∨ ∃ p, c.shape = [n, p] := by
    rcases Arr.matmul_shapes hm with ⟨k, h1, h2⟩ | ⟨k, p, h1, h2⟩ | ⟨r, k, h1, h2⟩ | ⟨r, k, p, h1, h2⟩ <;>
      rcases hs with h3 | h3 <;> rw [h3] at h1 <;> simp at h1
    · left; rw [h2, ← h1]
    · right; exact ⟨p, by rw [h2, ← h1]⟩
    · left; rw [h2, ← h1.2]
    · right; exact ⟨p, by rw [h2, ← h1.2]⟩
  obtain ⟨D, hD, hC⟩ := bind_ok hC
  rcases hshape with hc | ⟨p, hc⟩
  · have ha := affine_row_vec (s := N.mean.shape) hs hc
    have hms := affine_shape ha rfl hm
    have hsz : m.size = 1 := by
      rw [Arr.size, hms]
      split <;> rfl
    obtain ⟨_, rfl⟩ := Arr.matmul_mv hcov hc hD
    obtain ⟨_, rfl⟩ := Arr.matmul_vv (show c.t.shape = [n] by rw [Arr.t, hc]; rfl) rfl hC
    have hflat : ∀ C' : Arr, (fixScalar m C').shape = expectedCov m.shape → C'.shape = [] →
        (fixScalar m C').flat 0 = C'.get [] := by
      intro C' h1 h2
      unfold fixScalar
      split
      · rw [Arr.withShape_flat (by simp), Arr.flat_nil h2]
      · rw [Arr.flat_nil h2]
    have hC0 : (fixScalar m ⟨[], fun _ => ∑ k ∈ range n, c.t.get [k] *
        (⟨[n], fun idx => ∑ l ∈ range n, N.cov.get [idx.getD 0 0, l] * c.get [l]⟩ : Arr).get [k]⟩).flat 0 =
        sandwich n (fun _ k => c.get [k]) N.covAt 0 0 := by
      rw [hflat _ hcov' rfl, ← sandwich_congr hat, ← sandwich_eq]; rfl
    constructor
    · rw [← hms] at ha
      refine law_core hX hn hsz ha hm fun i hi j hj => ?_
      obtain rfl : i = 0 := by omega
      obtain rfl : j = 0 := by omega
      exact hC0
    · refine root_vec hn hsz (factor_shape hN h0 hcov) hL (fun L₀ S h1 h2 => ?_) hC0
      obtain ⟨_, rfl⟩ := Arr.matmul_vm (show c.t.shape = [n] by rw [Arr.t, hc]; rfl) h1 h2
      exact ⟨rfl, fun k => rfl⟩
  · have ha := affine_row (s := N.mean.shape) hs hc
    have hms := affine_shape ha rfl hm
    have hsz : m.size = p := by
      rw [Arr.size, hms]
      split <;> simp
    obtain ⟨_, rfl⟩ := Arr.matmul_mm hcov hc hD
    obtain ⟨_, rfl⟩ := Arr.matmul_mm (show c.t.shape = [p, n] by rw [Arr.t, hc]; rfl) rfl hC
    have hfix : ∀ C' : Arr, C'.shape = [p, p] → fixScalar m C' = C' := by
      intro C' h1
      unfold fixScalar
      rw [if_neg]
      rintro ⟨h2, _⟩
      rw [h1] at h2; cases h2
    rw [hfix _ rfl]
    have hC0 : ∀ i < p, ∀ j < p, Arr.flat ⟨[p, p], fun idx => ∑ k ∈ range n, c.t.get [idx.getD 0 0, k] *
        (⟨[n, p], fun idx => ∑ l ∈ range n, N.cov.get [idx.getD 0 0, l] * c.get [l, idx.getD 1 0]⟩ : Arr).get
          [k, idx.getD 1 0]⟩ (i * p + j) = sandwich n (fun j k => c.get [k, j]) N.covAt i j := by
      intro i hi j hj
      rw [Arr.flat_sq rfl hi hj, ← sandwich_congr hat, ← sandwich_eq]; rfl
    constructor
    · rw [← hms] at ha
      exact law_core hX hn hsz ha hm hC0
    · refine root_mat (S := m) hn hsz hcov (factor_shape hN h0 hcov) hL (fun L₀ S h1 h2 => ?_) hC0
      obtain ⟨_, rfl⟩ := Arr.matmul_mm (show c.t.shape = [p, n] by rw [Arr.t, hc]; rfl) h1 h2
      exact ⟨rfl, fun i k => rfl⟩

/-- The first branch of `A @ X`. -/
theorem matmulVectorLeft_law {Q : QR} (hN : N.WF) (hX : Law P X N) {c : Arr} {R : RV} {n : ℕ}
    (hs : N.mean.shape = [n] ∨ N.mean.shape = [n, 1]) (h : matmulVectorLeft Q c N = .ok R) :
    ∃ S, R = .normal S ∧ S.WF ∧ (∃ Z : Ω → Arr, (∀ ω, c.matmul (X ω) = .ok (Z ω)) ∧ Law P Z S) ∧ (N.Root → S.Root) := by
  obtain ⟨L, hL, h⟩ := bind_ok h
  obtain ⟨m, hm, h⟩ := bind_ok h
  obtain ⟨C, hC, h⟩ := bind_ok h
  obtain ⟨S, hS, rfl⟩ := map_ok h
  obtain ⟨rfl, hW, _, hcov', _⟩ := mkNormal_ok hS
  have hn : N.mean.size = n := by rcases hs with h | h <;> rw [Arr.size, h] <;> simp
  have h0 : N.mean.shape ≠ [] := by rcases hs with h | h <;> rw [h] <;> simp
  have hcov : N.cov.shape = [n, n] := by
    rw [hN.cov]; rcases hs with h | h <;> rw [h] <;> simp [expectedCov]
  have hat : ∀ k < n, ∀ l < n, N.cov.get [k, l] = N.covAt k l := fun k hk l hl => (covAt_get hcov hn hk hl).symm
  refine ⟨_, rfl, hW, ?_⟩
  have hshape : c.shape = [n] ∨ ∃ p, c.shape = [p, n] := by
    rcases Arr.matmul_shapes hm with ⟨k, h1, h2⟩ | ⟨k, p, h1, h2⟩ | ⟨r, k, h1, h2⟩ | ⟨r, k, p, h1, h2⟩ <;>
      rcases hs with h3 | h3 <;> rw [h3] at h2 <;> simp at h2
    · left; rw [h1, h2]
    · left; rw [h1, h2.1]
    · right; exact ⟨r, by rw [h1, h2]⟩
    · right; exact ⟨r, by rw [h1, h2.1]⟩
  rcases hshape with hc | ⟨p, hc⟩
  · obtain ⟨_, hCs, hCg⟩ := conjugate_one hc hcov hC
    have hsv : N.mean.shape = [n] := by
      rcases hs with h | h
      · exact h
      · exfalso
        obtain ⟨_, rfl⟩ := Arr.matmul_vm hc h hm
        rw [hCs] at hcov'
        simp [expectedCov] at hcov'
    have ha := affine_col_vec hc
    have hms := affine_shape ha hsv hm
    have hsz : m.size = 1 := by rw [Arr.size, hms]; rfl
    have hC0 : C.flat 0 = sandwich n (fun _ k => c.get [k]) N.covAt 0 0 := by
      rw [Arr.flat_nil hCs, hCg, sandwich_congr hat]
    constructor
    · have ha' : AffineOp (fun x => c.matmul x) N.mean.shape m.shape (fun _ k => c.get [k]) fun _ => 0 := by
        rw [hms, hsv]; exact ha
      refine law_core hX hn hsz ha' hm fun i hi j hj => ?_
      obtain rfl : i = 0 := by omega
      obtain rfl : j = 0 := by omega
      exact hC0
    · refine root_vec hn hsz (factor_shape hN h0 hcov) hL (fun L₀ S h1 h2 => ?_) hC0
      obtain ⟨_, rfl⟩ := Arr.matmul_vm hc h1 h2
      exact ⟨rfl, fun k => rfl⟩
  · obtain ⟨_, hCs, hCg⟩ := conjugate_two hc hcov hC
    have ha := affine_col (s := N.mean.shape) hs hc
    have hms := affine_shape ha rfl hm
    have hsz : m.size = p := by
      rw [Arr.size, hms]
      split <;> simp
    have hC0 : ∀ i < p, ∀ j < p, C.flat (i * p + j) = sandwich n (fun i k => c.get [i, k]) N.covAt i j := by
      intro i hi j hj
      rw [Arr.flat_sq hCs hi hj, hCg, sandwich_congr hat]
    constructor
    · rw [← hms] at ha
      exact law_core hX hn hsz ha hm hC0
    · refine root_mat (S := m) hn hsz hcov (factor_shape hN h0 hcov) hL (fun L₀ S h1 h2 => ?_) hC0
      obtain ⟨_, rfl⟩ := Arr.matmul_mm hc h1 h2
      exact ⟨rfl, fun i k => rfl⟩


/-- The common part of the matrix branches: `K` is the matrix of the operation. -/
theorem kron_law {f : Arr → Res Arr} {K : Arr} (hN : N.WF) (hX : Law P X N) {m n q : ℕ} {mean C : Arr} {S : Normal}
    (hs : N.mean.shape = [m, n]) (hK : K.shape = [q, m * n]) {s' : List ℕ} (hq : s'.prod = q)
    (ha : AffineOp f [m, n] s' (fun a b => K.get [a, b]) fun _ => 0) (hm : f N.mean = .ok mean)
    (hC : conjugate K N.cov = .ok C) (hS : mkNormal mean C none = .ok S) :
    S.WF ∧ (∃ Z : Ω → Arr, (∀ ω, f (X ω) = .ok (Z ω)) ∧ Law P Z S) ∧ S.Root := by
  obtain ⟨rfl, hW, _, _, _⟩ := mkNormal_ok hS
  obtain ⟨hcov, hn⟩ := WF_mat hN hs
  have hat : ∀ k < m * n, ∀ l < m * n, N.cov.get [k, l] = N.covAt k l := fun k hk l hl => (covAt_get hcov hn hk hl).symm
  obtain ⟨_, hCs, hCg⟩ := conjugate_two hK hcov hC
  have hms := affine_shape ha hs hm
  refine ⟨hW, law_core (q := q) hX hn (by rw [Arr.size, hms, hq]) (by rw [hs, hms]; exact ha) hm fun i hi j hj => ?_, ?_⟩
  · rw [Arr.flat_sq hCs hi hj, hCg, sandwich_congr hat]
  · intro L hL; cases hL

theorem matmulMatrix_law (hN : N.WF) (hX : Law P X N) {c : Arr} {R : RV} {m n : ℕ} (hs : N.mean.shape = [m, n])
    (h : matmulMatrix N c = .ok R) :
    ∃ S, R = .normal S ∧ S.WF ∧ (∃ Z : Ω → Arr, (∀ ω, (X ω).matmul c = .ok (Z ω)) ∧ Law P Z S) ∧ S.Root := by
  unfold matmulMatrix at h
  simp only [hs] at h
  split at h
  · cases h
  obtain ⟨mean, hm, h⟩ := bind_ok h
  obtain ⟨C, hC, h⟩ := bind_ok h
  obtain ⟨S, hS, rfl⟩ := map_ok h
  rcases Arr.matmul_shapes hm with ⟨k, h1, h2⟩ | ⟨k, p, h1, h2⟩ | ⟨r, k, h1, h2⟩ | ⟨r, k, p, h1, h2⟩ <;>
    rw [hs] at h1 <;> simp at h1
  · obtain ⟨rfl, rfl⟩ := h1
    have e : asMatrixRight c = c.asColumn := by rw [asMatrixRight, if_pos (by rw [Arr.ndim, h2]; rfl)]
    rw [e] at hC
    have hc' : c.asColumn.shape = [n, 1] := by rw [Arr.asColumn, h2]; rfl
    exact ⟨S, rfl, kron_law hN hX hs (kron_right_shape hc').1 (by simp) (affine_right_vec h2) hm hC hS⟩
  · obtain ⟨rfl, rfl⟩ := h1
    have e : asMatrixRight c = c := by rw [asMatrixRight, if_neg (by rw [Arr.ndim, h2]; simp)]
    rw [e] at hC
    exact ⟨S, rfl, kron_law hN hX hs (kron_right_shape h2).1 (by simp) (affine_right h2) hm hC hS⟩

theorem matmulMatrixLeft_law (hN : N.WF) (hX : Law P X N) {c : Arr} {R : RV} {m n : ℕ} (hs : N.mean.shape = [m, n])
    (h : matmulMatrixLeft c N = .ok R) :
    ∃ S, R = .normal S ∧ S.WF ∧ (∃ Z : Ω → Arr, (∀ ω, c.matmul (X ω) = .ok (Z ω)) ∧ Law P Z S) ∧ S.Root := by
  unfold matmulMatrixLeft at h
  simp only [hs] at h
  split at h
  · cases h
  obtain ⟨mean, hm, h⟩ := bind_ok h
  obtain ⟨C, hC, h⟩ := bind_ok h
  obtain ⟨S, hS, rfl⟩ := map_ok h
  rcases Arr.matmul_shapes hm with ⟨k, h1, h2⟩ | ⟨k, p, h1, h2⟩ | ⟨r, k, h1, h2⟩ | ⟨r, k, p, h1, h2⟩ <;>
    rw [hs] at h2 <;> simp at h2
  · obtain ⟨rfl, rfl⟩ := h2
    have e : asMatrixLeft c = c.asRow := by rw [asMatrixLeft, if_pos (by rw [Arr.ndim, h1]; rfl)]
    rw [e] at hC
    have hc' : c.asRow.shape = [1, m] := by rw [Arr.asRow, h1]
    exact ⟨S, rfl, kron_law hN hX hs (kron_left_shape hc').1 (by simp) (affine_left_vec h1) hm hC hS⟩
  · obtain ⟨rfl, rfl⟩ := h2
    have e : asMatrixLeft c = c := by rw [asMatrixLeft, if_neg (by rw [Arr.ndim, h1]; simp)]
    rw [e] at hC
    exact ⟨S, rfl, kron_law hN hX hs (kron_left_shape h1).1 (by simp) (affine_left h1) hm hC hS⟩

end Probnum.RandVars
