import Verif.RandVars.IndexLemmas
import Verif.RandVars.PropsMatmul

/-!
# C31: slicing, reshaping and transposing normal random variables is marginalising or permuting entries

The statements have the form: if the random array `X` has the law described by the object `N` and the operation on the
object returns `N'`, then the same numpy operation succeeds on every value of `X`, and its result has the law described
by `N'`.
-/

namespace Probnum.RandVars

open MeasureTheory ProbabilityTheory Finset Gauss

variable {Ω : Type*} {mΩ : MeasurableSpace Ω} {P : Measure Ω} {X : Ω → Arr} {N N' : Normal}

/-- The result of an indexing expression that mentions every axis. -/
theorem getitem_full_eq (hN : N.WF) {key : List KeyEl} (hl : key.length = N.mean.ndim) {y : Arr}
    (hy : N.mean.index key = .ok y) :
    ∃ g N', gather key N.mean.shape = .ok g ∧ N.getitem key = .ok N' ∧ N'.mean = y ∧ y.shape = g.shape ∧
      ∀ i < g.shape.prod, ∀ j < g.shape.prod, N'.covAt i j =
        N.covAt (ravel N.mean.shape (g.src (unravel g.shape i))) (ravel N.mean.shape (g.src (unravel g.shape j))) := by
  have hy' := hy
  rw [Arr.index_full hl] at hy'
  obtain ⟨g, hg, hgy⟩ := map_ok hy'
  subst hgy
  obtain ⟨c, hc1, hc2, hc3⟩ := cov_reshape_eq hN
  obtain ⟨c1, c2, h1, h2, h3, h4⟩ := index_cov hc2 hl hg
  have hs : (N.mean.gatherFirst g N.mean.ndim).shape = g.shape := Arr.gatherFirst_shape
  obtain ⟨C, hC1, hC2, hC3⟩ := squareCov_eq (m := N.mean.gatherFirst g N.mean.ndim) (c := c2) (by rw [hs]; exact h3)
  refine ⟨g, ⟨N.mean.gatherFirst g N.mean.ndim, C, none⟩, hg, ?_, rfl, hs, ?_⟩
  · rw [Normal.getitem, hy]
    show (N.cov.reshapeTo _).bind _ = _
    rw [hc1]
    show (c.index key).bind _ = _
    rw [h1]
    show (c1.indexLast key).bind _ = _
    rw [h2]
    show (squareCov _ c2).bind _ = _
    rw [hC1]
    refine mkNormal_eq ?_ hC2
    rw [Arr.ndim, hs]
    exact (gather_length hl hg).trans hN.ndim
  · intro i hi j hj
    have hi' := ravel_lt (gather_valid hl hg (unravel_valid hi))
    have hj' := ravel_lt (gather_valid hl hg (unravel_valid hj))
    show C.flat (i * (N.mean.gatherFirst g N.mean.ndim).size + j) = _
    have hsz : (N.mean.gatherFirst g N.mean.ndim).size = g.shape.prod := by rw [Arr.size, hs]
    rw [hC3 _ (by rw [hsz]; exact mul_add_lt hi hj), hsz, h4 i hi j hj]
    exact hc3 _ (mul_add_lt hi' hj')

/-- Indexing with one entry per axis is marginalisation: `N[key]` describes the law of `X[key]`, for integers, slices,
integer lists and masks in any combination. -/
theorem getitem_law (hN : N.WF) (hX : Law P X N) {key : List KeyEl} (hl : key.length = N.mean.ndim)
    (h : N.getitem key = .ok N') : ∃ Y : Ω → Arr, (∀ ω, (X ω).index key = .ok (Y ω)) ∧ Law P Y N' := by
  obtain ⟨y, hy, _⟩ := bind_ok h
  obtain ⟨g, N'', hg, h1, h2, _, h3⟩ := getitem_full_eq hN hl hy
  obtain rfl : N'' = N' := Except.ok.inj (h1.symm.trans h)
  exact law_select hX (index_select hl hg) (by rw [h2]; exact hy) fun i hi j hj => by rw [h3 i hi j hj]; ring

/-- An index expression with one entry per axis is accepted exactly if numpy accepts it for the mean. -/
theorem getitem_accepts (hN : N.WF) {key : List KeyEl} (hl : key.length = N.mean.ndim) :
    (∃ N', N.getitem key = .ok N') ↔ ∃ y, N.mean.index key = .ok y := by
  constructor
  · rintro ⟨N', h⟩
    obtain ⟨y, hy, _⟩ := bind_ok h
    exact ⟨y, hy⟩
  · rintro ⟨y, hy⟩
    obtain ⟨g, N', _, h, _⟩ := getitem_full_eq hN hl hy
    exact ⟨N', h⟩

/-- `N[()]` leaves the law alone. -/
theorem getitem_empty (hN : N.WF) (hX : Law P X N) : ∃ N', N.getitem [] = .ok N' ∧
    ∃ Y : Ω → Arr, (∀ ω, (X ω).index [] = .ok (Y ω)) ∧ (∀ ω i, (Y ω).flat i = (X ω).flat i) ∧ Law P Y N' := by
  have key : ∀ a : Arr, a.index [] = .ok ⟨a.shape, a.get⟩ := fun a => by
    rw [Arr.index, if_pos (by simp)]; rfl
  have key2 : ∀ a : Arr, ∃ b, a.indexLast [] = .ok b ∧ b.shape = a.shape ∧ ∀ k, b.flat k = a.flat k := by
    intro a
    refine ⟨a.gatherLast ⟨[], fun _ => []⟩ 0, ?_, ?_, ?_⟩
    · rw [Arr.indexLast, if_pos (by simp)]; rfl
    · show a.shape.take (a.shape.length - 0) ++ [] = _
      simp
    · intro k
      have hs : (a.gatherLast ⟨[], fun _ => []⟩ 0).shape = a.shape := by
        show a.shape.take (a.shape.length - 0) ++ [] = _
        simp
      rw [Arr.flat, hs]
      show a.get ((unravel a.shape k).take (a.shape.length - 0) ++ []) = _
      rw [List.append_nil, Nat.sub_zero, ← unravel_length (s := a.shape) (k := k), List.take_length]
      rfl
  obtain ⟨c, hc1, hc2, hc3⟩ := cov_reshape_eq hN
  obtain ⟨c2, h1, h2, h3⟩ := key2 c
  obtain ⟨C, hC1, hC2, hC3⟩ := squareCov_eq (m := N.mean) (c := c2) (h2.trans hc2)
  refine ⟨⟨N.mean, C, none⟩, ?_, fun ω => X ω, fun ω => key (X ω), fun _ _ => rfl, hX.shape, ?_⟩
  · rw [Normal.getitem, key]
    show (N.cov.reshapeTo _).bind _ = _
    rw [hc1]
    have h0 : c.index [] = .ok c := key c
    simp only [Except.bind, h0, h1]
    have : squareCov ⟨N.mean.shape, N.mean.get⟩ c2 = .ok C := hC1
    simp only [this]
    exact mkNormal_eq hN.ndim hC2
  · have : (Matrix.of fun i j : Fin N.mean.size => Normal.covAt ⟨N.mean, C, none⟩ i j) =
        Matrix.of fun i j : Fin N.mean.size => N.covAt i j := by
      ext i j
      show C.flat _ = N.cov.flat _
      have hlt := mul_add_lt i.2 j.2
      exact (hC3 _ hlt).trans ((h3 _).trans (hc3 _ hlt))
    show IsNormal P (entries X N.mean.size) _ (Matrix.of fun i j : Fin N.mean.size => Normal.covAt ⟨N.mean, C, none⟩ i j)
    rw [this]
    exact hX.normal

/-! ### Violation: rows of matrix-variate variables -/

/-- `X[i]` for a matrix-variate `X` with as many rows as columns: the variances are not those of the row; entry `j` gets
the variance stored for the pair `(i, j)`, `(j, i)`. -/
theorem getitem_row (hN : N.WF) {n : ℕ} (hs : N.mean.shape = [n, n]) {i : ℕ} (hi : i < n) :
    ∃ N', N.getitem [.int i] = .ok N' ∧ N'.mean.shape = [n] ∧ (∀ j < n, N'.mean.get [j] = N.mean.get [i, j]) ∧
      ∀ j < n, ∀ k < n, N'.covAt j k = N.covAt (i * n + j) (k * n + i) := by
  have hg : gather [.int (i : ℤ)] [n] = .ok ⟨[], fun _ => [i]⟩ := by
    have : normAxis n (i : ℤ) = some i := by
      unfold normAxis
      rw [if_pos (by omega)]; simp
    simp only [gather, sels, axisSel, this]
    rfl
  have hm : N.mean.index [.int (i : ℤ)] = .ok (N.mean.gatherFirst ⟨[], fun _ => [i]⟩ 1) := by
    rw [Arr.index, if_pos (by rw [Arr.ndim, hs]; simp), hs]
    show (gather [.int (i : ℤ)] [n]).map _ = _
    rw [hg]; rfl
  obtain ⟨c, hc1, hc2, hc3⟩ := cov_reshape_eq hN
  rw [hs] at hc2
  have hc4 : c.index [.int (i : ℤ)] = .ok (c.gatherFirst ⟨[], fun _ => [i]⟩ 1) := by
    rw [Arr.index, if_pos (by rw [Arr.ndim, hc2]; simp), hc2]
    show (gather [.int (i : ℤ)] [n]).map _ = _
    rw [hg]; rfl
  have hs5 : (c.gatherFirst ⟨[], fun _ => [i]⟩ 1).shape = [n, n, n] := by
    show [] ++ c.shape.drop 1 = _
    rw [hc2]; rfl
  have hc5 : (c.gatherFirst ⟨[], fun _ => [i]⟩ 1).indexLast [.int (i : ℤ)] =
      .ok ((c.gatherFirst ⟨[], fun _ => [i]⟩ 1).gatherLast ⟨[], fun _ => [i]⟩ 1) := by
    rw [Arr.indexLast, Arr.ndim, hs5, if_pos (by simp)]
    show (gather [.int (i : ℤ)] [n]).map _ = _
    rw [hg]; rfl
  have hs6 : ((c.gatherFirst ⟨[], fun _ => [i]⟩ 1).gatherLast ⟨[], fun _ => [i]⟩ 1).shape = [n, n] := by
    show (c.gatherFirst ⟨[], fun _ => [i]⟩ 1).shape.take ((c.gatherFirst ⟨[], fun _ => [i]⟩ 1).shape.length - 1) ++ [] = _
    rw [hs5]; rfl
  have hms : (N.mean.gatherFirst ⟨[], fun _ => [i]⟩ 1).shape = [n] := by
    show [] ++ N.mean.shape.drop 1 = _
    rw [hs]; rfl
  obtain ⟨C, hC1, hC2, hC3⟩ := squareCov_eq (m := N.mean.gatherFirst ⟨[], fun _ => [i]⟩ 1)
    (c := (c.gatherFirst ⟨[], fun _ => [i]⟩ 1).gatherLast ⟨[], fun _ => [i]⟩ 1) (by rw [hs6, hms]; rfl)
  have hsz : (N.mean.gatherFirst ⟨[], fun _ => [i]⟩ 1).size = n := by rw [Arr.size, hms]; simp
  have hnsz : N.mean.size = n * n := by rw [Arr.size, hs]; simp
  refine ⟨⟨_, C, none⟩, ?_, hms, fun j _ => rfl, fun j hj k hk => ?_⟩
  · rw [Normal.getitem, hm]
    show (N.cov.reshapeTo _).bind _ = _
    rw [hc1]
    show (c.index _).bind _ = _
    rw [hc4]
    show (Arr.indexLast _ _).bind _ = _
    rw [hc5]
    show (squareCov _ _).bind _ = _
    rw [hC1]
    exact mkNormal_eq (by rw [Arr.ndim, hms]; simp) hC2
  · show C.flat (j * (N.mean.gatherFirst ⟨[], fun _ => [i]⟩ 1).size + k) = _
    have hlt : j * n + k < n * n := mul_add_lt hj hk
    rw [hC3 _ (by rw [hsz]; exact hlt), hsz, Arr.flat_two hs6 hlt]
    have hn : 0 < n := by omega
    have e1 : (j * n + k) / n = j := by
      rw [Nat.add_comm, Nat.add_mul_div_right _ _ hn, Nat.div_eq_of_lt hk, Nat.zero_add]
    have e2 : (j * n + k) % n = k := by
      rw [Nat.add_comm, Nat.add_mul_mod_self_right, Nat.mod_eq_of_lt hk]
    rw [e1, e2]
    have e3 : ((c.gatherFirst ⟨[], fun _ => [i]⟩ 1).gatherLast ⟨[], fun _ => [i]⟩ 1).get [j, k] = c.get [i, j, k, i] := by
      show c.get ([i] ++ (([j, k].take ((c.gatherFirst ⟨[], fun _ => [i]⟩ 1).shape.length - 1)) ++ [i])) = _
      rw [hs5]; rfl
    have hvv : Valid [n, n] [i, j] := .cons hi (.cons hj .nil)
    have hvw : Valid [n, n] [k, i] := .cons hk (.cons hi .nil)
    have hcv : Valid c.shape [i, j, k, i] := by rw [hc2]; exact hvv.append hvw
    rw [e3, Arr.get_flat hcv, hc2]
    have e4 : ravel ([n, n] ++ [n, n]) [i, j, k, i] = (i * n + j) * (n * n) + (k * n + i) := by
      have := ravel_append (s := [n, n]) (l := [i, j]) (t := [n, n]) (m := [k, i]) rfl
      rw [ravel_two, ravel_two] at this
      simp only [List.cons_append, List.nil_append, List.prod_cons, List.prod_nil, mul_one] at this ⊢
      rw [this]; ring
    rw [e4, hc3 _ (by rw [hnsz]; exact mul_add_lt (mul_add_lt hi hj) (mul_add_lt hk hi)), Normal.covAt, hnsz]

/-- A `2 × 2` matrix of independent entries with variances 1, 2, 3, 4. -/
noncomputable def diag4 : Normal :=
  ⟨⟨[2, 2], fun _ => 0⟩, ⟨[4, 4], fun idx => if idx.getD 0 0 = idx.getD 1 0 then (idx.getD 0 0 : ℝ) + 1 else 0⟩, none⟩

theorem diag4_wf : diag4.WF := mkNormal_eq (by simp [Arr.ndim, diag4]) (by simp [diag4, expectedCov])

theorem diag4_cov {i j : ℕ} (hi : i < 4) (hj : j < 4) : diag4.covAt i j = if i = j then (i : ℝ) + 1 else 0 := by
  have h : diag4.mean.size = 4 := by simp [Arr.size, diag4]
  rw [Normal.covAt, h, Arr.flat_two (m := 4) (n := 4) rfl (by omega), show (i * 4 + j) / 4 = i by omega,
    show (i * 4 + j) % 4 = j by omega]
  simp [diag4]

/-- Violation: indexing a matrix-variate normal random variable with a single integer does not return the law of the
row.  Of a `2 × 2` matrix of independent entries with variances 1, 2, 3, 4, the first row has variances 1 and 2 – the
object returned for `X[0]` says the second entry has variance 0. -/
theorem getitem_row_wrong : ∃ N', diag4.getitem [.int 0] = .ok N' ∧ N'.mean.shape = [2] ∧ N'.covAt 1 1 = 0 ∧
    diag4.covAt 1 1 = 2 := by
  obtain ⟨N', h1, h2, _, h3⟩ := getitem_row (N := diag4) diag4_wf (n := 2) rfl (i := 0) (by omega)
  refine ⟨N', h1, h2, ?_, ?_⟩
  · rw [h3 1 (by omega) 1 (by omega), diag4_cov (by omega) (by omega), if_neg (by omega)]
  · rw [diag4_cov (by omega) (by omega), if_pos rfl]; norm_num

/-- Violation: for a matrix that is not square, indexing with a single integer raises although numpy returns the row. -/
theorem getitem_row_raises (hN : N.WF) {m n : ℕ} (hs : N.mean.shape = [m, n]) {i : ℕ} (hi : i < m) (hi' : i < n)
    (hne : m ≠ n) : (∃ y, N.mean.index [.int i] = .ok y) ∧ N.getitem [.int i] = .error .valueError := by
  have hg : ∀ d, i < d → gather [.int (i : ℤ)] [d] = .ok ⟨[], fun _ => [i]⟩ := by
    intro d hd
    have : normAxis d (i : ℤ) = some i := by
      unfold normAxis
      rw [if_pos (by omega)]; simp
    simp only [gather, sels, axisSel, this]
    rfl
  have hm : N.mean.index [.int (i : ℤ)] = .ok (N.mean.gatherFirst ⟨[], fun _ => [i]⟩ 1) := by
    rw [Arr.index, if_pos (by rw [Arr.ndim, hs]; simp), hs]
    show (gather [.int (i : ℤ)] [m]).map _ = _
    rw [hg m hi]; rfl
  refine ⟨⟨_, hm⟩, ?_⟩
  obtain ⟨c, hc1, hc2, hc3⟩ := cov_reshape_eq hN
  rw [hs] at hc2
  have hc4 : c.index [.int (i : ℤ)] = .ok (c.gatherFirst ⟨[], fun _ => [i]⟩ 1) := by
    rw [Arr.index, if_pos (by rw [Arr.ndim, hc2]; simp), hc2]
    show (gather [.int (i : ℤ)] [m]).map _ = _
    rw [hg m hi]; rfl
  have hs5 : (c.gatherFirst ⟨[], fun _ => [i]⟩ 1).shape = [n, m, n] := by
    show [] ++ c.shape.drop 1 = _
    rw [hc2]; rfl
  have hc5 : (c.gatherFirst ⟨[], fun _ => [i]⟩ 1).indexLast [.int (i : ℤ)] =
      .ok ((c.gatherFirst ⟨[], fun _ => [i]⟩ 1).gatherLast ⟨[], fun _ => [i]⟩ 1) := by
    rw [Arr.indexLast, Arr.ndim, hs5, if_pos (by simp)]
    show (gather [.int (i : ℤ)] [n]).map _ = _
    rw [hg n hi']; rfl
  have hs6 : ((c.gatherFirst ⟨[], fun _ => [i]⟩ 1).gatherLast ⟨[], fun _ => [i]⟩ 1).shape = [n, m] := by
    show (c.gatherFirst ⟨[], fun _ => [i]⟩ 1).shape.take ((c.gatherFirst ⟨[], fun _ => [i]⟩ 1).shape.length - 1) ++ [] = _
    rw [hs5]; rfl
  have hms : (N.mean.gatherFirst ⟨[], fun _ => [i]⟩ 1).shape = [n] := by
    show [] ++ N.mean.shape.drop 1 = _
    rw [hs]; rfl
  rw [Normal.getitem, hm]
  show (N.cov.reshapeTo _).bind _ = _
  rw [hc1]
  show (c.index _).bind _ = _
  rw [hc4]
  show (Arr.indexLast _ _).bind _ = _
  rw [hc5]
  show (squareCov _ _).bind _ = _
  rw [squareCov, if_pos (by rw [Arr.ndim, hms]; simp), Arr.reshapeTo, Arr.size, Arr.size, hms, hs6,
    if_neg (by
      simp only [List.prod_cons, List.prod_nil, mul_one]
      intro h
      exact hne (Nat.eq_of_mul_eq_mul_left (by omega) h).symm)]
  rfl

/-! ### Reshaping -/

theorem newShape_prod {size : ℕ} {newshape : List ℤ} {s : List ℕ} (h : newShape size newshape = .ok s) : s.prod = size := by
  have key : ∀ (l : List ℤ) (q : ℕ), (∀ d ∈ l, -1 ≤ d) → l.countP (· = -1) ≤ 1 →
      (l.map fun d => if d = -1 then q else d.toNat).prod = knownSize l * if l.countP (· = -1) = 1 then q else 1 := by
    intro l q
    induction l with
    | nil => intro _ _; simp [knownSize]
    | cons d l ih =>
      intro h1 h2
      have h1' : ∀ e ∈ l, -1 ≤ e := fun e he => h1 e (by simp [he])
      have hd := h1 d (by simp)
      by_cases hd1 : d = -1
      · subst hd1
        have h0 : l.countP (· = -1) = 0 := by
          simp at h2
          simpa using h2
        have := ih h1' (by omega)
        rw [h0] at this
        simp only [List.map_cons, List.prod_cons, if_true, this]
        have e : (List.countP (fun x => decide (x = -1)) (-1 :: l)) = 1 := by
          rw [List.countP_cons]; simp only [h0]; simp
        rw [e]
        simp [knownSize, mul_comm]
      · have e : (List.countP (fun x => decide (x = -1)) (d :: l)) = l.countP (· = -1) := by
          rw [List.countP_cons]; simp [hd1]
        rw [e] at h2 ⊢
        have := ih h1' h2
        simp only [List.map_cons, List.prod_cons, if_neg hd1, this]
        have : knownSize (d :: l) = d.toNat * knownSize l := by
          have : ¬ d < 0 := by omega
          simp [knownSize, this]
        rw [this]; ring
  unfold newShape at h
  split at h
  · cases h
  · rename_i h0
    simp only [Bool.or_eq_true, not_or, List.any_eq_true, decide_eq_true_eq, not_exists, not_and, not_lt] at h0
    split at h
    · rename_i h1
      split at h
      · cases h
      · rename_i h2
        push Not at h2
        cases h
        rw [key _ _ h0.1 h0.2, if_pos h1]
        exact Nat.mul_div_cancel' (Nat.dvd_of_mod_eq_zero h2.2)
    · rename_i h1
      split at h
      · rename_i h2
        cases h
        have := key newshape 0 h0.1 h0.2
        rw [if_neg h1, mul_one, h2] at this
        rw [← this]
        congr 1
        refine List.map_congr_left fun d hd => ?_
        split
        · rename_i h3; subst h3; rfl
        · rfl
      · cases h

/-- Reshaping keeps every entry and all covariances: `N.reshape(shape)` describes the law of `X.reshape(shape)`. -/
theorem reshape_law (hN : N.WF) (hX : Law P X N) {newshape : List ℤ} (h : N.reshape newshape = .ok N') :
    ∃ Y : Ω → Arr, (∀ ω, (X ω).reshape newshape = .ok (Y ω)) ∧ Law P Y N' := by
  obtain ⟨y, hy, h⟩ := bind_ok h
  obtain ⟨s, hs, hys⟩ := map_ok hy
  obtain ⟨h1, h2, _, h3, _⟩ := mkNormal_ok h
  subst hys
  have hp := newShape_prod hs
  refine law_select (f := fun x => x.reshape newshape) (σ := fun k => k) (α := 1) (b := fun _ => 0) (s' := s) (N' := N')
    hX ?_ (by rw [h1]; exact hy) ?_
  · intro x hx
    refine ⟨x.withShape s, ?_, rfl, fun i hi => ⟨?_, ?_⟩⟩
    · show (newShape x.size newshape).map x.withShape = _
      rw [Arr.size, hx]
      have : newShape N.mean.shape.prod newshape = .ok s := hs
      rw [this]; rfl
    · rw [hp] at hi; exact hi
    · rw [Arr.withShape_flat hi]; ring
  · intro i hi j hj
    have hsz : N'.mean.size = N.mean.size := by rw [h1]; exact hp
    rw [Normal.covAt, Normal.covAt, hsz, one_pow, one_mul]
    have hlt : i * N.mean.size + j < N.mean.size * N.mean.size := mul_add_lt (hp ▸ hi) (hp ▸ hj)
    rw [h1]
    simp only
    split
    · rename_i hc
      have hs0 : N.cov.shape = [] := List.length_eq_zero_iff.1 hc.2
      have h1 : N.mean.size * N.mean.size = 1 := by rw [← hN.cov_size, Arr.size, hs0]; rfl
      rw [Arr.withShape_flat (lt_of_lt_of_eq (lt_of_lt_of_eq hlt h1) (by simp))]
    · rfl

/-- Which reshapes are accepted: those numpy accepts for the mean, to at most two axes, except from an array with axes
to a scalar. -/
theorem reshape_accepts (hN : N.WF) (newshape : List ℤ) :
    (∃ N', N.reshape newshape = .ok N') ↔
      ∃ y, N.mean.reshape newshape = .ok y ∧ y.ndim ≤ 2 ∧ (y.shape = [] → N.mean.shape = []) := by
  constructor
  · rintro ⟨N', h⟩
    obtain ⟨y, hy, h⟩ := bind_ok h
    obtain ⟨h1, h2, h3, h4, _⟩ := mkNormal_ok h
    refine ⟨y, hy, h3, fun h0 => ?_⟩
    rw [if_neg (by rw [Arr.ndim, h0]; simp), hN.cov, h0] at h4
    by_contra hne
    simp [expectedCov, hne] at h4
  · rintro ⟨y, hy, h1, h2⟩
    refine ⟨⟨y, if 0 < y.ndim ∧ N.cov.ndim = 0 then N.cov.withShape [1, 1] else N.cov, none⟩, ?_⟩
    rw [Normal.reshape, hy]
    refine mkNormal_eq h1 ?_
    obtain ⟨s, hs, hys⟩ := map_ok hy
    have hp := newShape_prod hs
    subst hys
    split
    · rename_i hc
      have hs0 : N.cov.shape = [] := List.length_eq_zero_iff.1 hc.2
      have h1 : N.mean.size * N.mean.size = 1 := by rw [← hN.cov_size, Arr.size, hs0]; rfl
      have h1 : N.mean.size = 1 := Nat.eq_one_of_mul_eq_one_left h1
      have hne : s ≠ [] := fun h => by have := hc.1; simp [Arr.ndim, Arr.withShape, h] at this
      show [1, 1] = expectedCov s
      rw [expectedCov, if_neg hne, hp, h1]
    · rename_i hc
      show N.cov.shape = expectedCov s
      rw [hN.cov]
      by_cases hne : s = []
      · rw [h2 hne, hne]
      · by_cases hN0 : N.mean.shape = []
        · refine absurd ⟨?_, ?_⟩ hc
          · exact List.length_pos_iff.2 hne
          · rw [Arr.ndim, hN.cov, hN0]; rfl
        · rw [expectedCov, expectedCov, if_neg hne, if_neg hN0, hp]; rfl

/-- Violation: a variable of shape `(1,)` cannot be reshaped to a scalar, although its values can. -/
theorem reshape_scalar_raises (hN : N.WF) (hs : N.mean.shape = [1]) :
    (∃ y, N.mean.reshape [] = .ok y) ∧ N.reshape [] = .error .valueError := by
  have hy : N.mean.reshape [] = .ok (N.mean.withShape []) := by
    rw [Arr.reshape, Arr.size, hs]; rfl
  refine ⟨⟨_, hy⟩, ?_⟩
  rw [Normal.reshape, hy]
  show mkNormal _ _ none = _
  rw [if_neg (by simp [Arr.ndim, Arr.withShape]), mkNormal, if_neg (by simp [Arr.ndim, Arr.withShape]),
    if_pos (by rw [hN.cov, hs]; simp [expectedCov, Arr.withShape])]

/-! ### Transposition -/

/-- Transposing with all axes nonnegative or all axes negative (in particular without arguments) permutes the entries:
`N.transpose(axes)` describes the law of `X.transpose(axes)`. -/
theorem transpose_law (hN : N.WF) (hX : Law P X N) {axes : Option (List ℤ)}
    (hax : (∀ a ∈ callAxes N axes, 0 ≤ a) ∨ ∀ a ∈ callAxes N axes, a < 0) (h : N.transpose axes = .ok N') :
    ∃ Y : Ω → Arr, (∀ ω, (X ω).transpose (callAxes N axes) = .ok (Y ω)) ∧ Law P Y N' := by
  have h : N.transposeAxes (callAxes N axes) = .ok N' := h
  generalize callAxes N axes = ax at h hax
  obtain ⟨mean, hm, h⟩ := bind_ok h
  obtain ⟨c, hc, h⟩ := bind_ok h
  obtain ⟨c', hc', h⟩ := bind_ok h
  obtain ⟨C, hC, h⟩ := bind_ok h
  obtain ⟨h1, h2, _, h3, _⟩ := mkNormal_ok h
  have hm0 := hm
  unfold Arr.transpose at hm
  split at hm
  · cases hm
  · rename_i l hl
    unfold Arr.permute at hm
    split at hm
    · rename_i hp
      have hsel := transpose_select (s := N.mean.shape) hl hp
      obtain ⟨c0, hc0, hcs, hcf⟩ := cov_reshape_eq hN
      obtain rfl : c0 = c := Except.ok.inj (hc0.symm.trans hc)
      have hlt : ∀ d ∈ l, d < N.mean.shape.length := forall₂_normAxis (mapM_normAxis hl)
      have hmem := mem_of_axes hp.1 hp.2 hlt
      have hms : mean.shape = l.map fun d => N.mean.shape.getD d 0 := by cases hm; rfl
      have hmd : mean.ndim = N.mean.shape.length := by rw [Arr.ndim, hms, List.length_map, hp.1]; rfl
      have hcn : c0.ndim = N.mean.shape.length + N.mean.shape.length := by rw [Arr.ndim, hcs, List.length_append]
      have hlen : l.length = N.mean.shape.length := hp.1
      have hget1 : ∀ d ∈ l, (N.mean.shape ++ N.mean.shape).getD d 0 = N.mean.shape.getD d 0 := fun d hd =>
        List.getD_append _ _ _ _ (hlt d hd)
      have hget2 : ∀ d ∈ l, (N.mean.shape ++ N.mean.shape).getD (N.mean.shape.length + d) 0 = N.mean.shape.getD d 0 :=
        fun d hd => by rw [List.getD_append_right _ _ _ _ (by omega), Nat.add_sub_cancel_left]
      refine law_select hX hsel (by rw [h1]; exact hm0) fun i hi j hj => ?_
      have hi' := scatter_valid hlen hp.2 hlt (unravel_valid hi)
      have hj' := scatter_valid hlen hp.2 hlt (unravel_valid hj)
      have hui : (unravel (l.map fun d => N.mean.shape.getD d 0) i).length = N.mean.shape.length := by
        rw [unravel_length, List.length_map, hlen]
      have hcs' : c'.shape = mean.shape ++ mean.shape := by
        unfold Arr.transpose at hc'
        rw [hmd, hcn] at hc'
        rcases hax with hax | hax
        · rw [normAxes_nonneg (show normAxes N.mean.shape.length ax = some l from hl) hax] at hc'
          simp only at hc'
          unfold Arr.permute at hc'
          split at hc'
          · cases hc'
            rw [hms, hcs, List.map_append, List.map_map]
            exact congrArg₂ (· ++ ·) (List.map_congr_left hget1) (List.map_congr_left hget2)
          · cases hc'
        · rw [normAxes_neg (show normAxes N.mean.shape.length ax = some l from hl) hax] at hc'
          simp only at hc'
          unfold Arr.permute at hc'
          split at hc'
          · cases hc'
            rw [hms, hcs, List.map_append, List.map_map]
            exact congrArg₂ (· ++ ·) (List.map_congr_left hget2) (List.map_congr_left hget1)
          · cases hc'
      obtain ⟨C0, hC0, _, hCf⟩ := squareCov_eq hcs'
      obtain rfl : C0 = C := Except.ok.inj (hC0.symm.trans hC)
      have hsz : mean.size = (l.map fun d => N.mean.shape.getD d 0).prod := by rw [Arr.size, hms]
      have e0 : N'.covAt i j = c'.get (unravel (l.map fun d => N.mean.shape.getD d 0) i ++
          unravel (l.map fun d => N.mean.shape.getD d 0) j) := by
        rw [h1]
        show C0.flat (i * mean.size + j) = _
        rw [hCf _ (by rw [hsz]; exact mul_add_lt hi hj), hsz, Arr.flat, hcs', hms, unravel_append hi hj]
      rw [e0, one_pow, one_mul]
      have fin : ∀ a b : List ℕ, Valid N.mean.shape a → Valid N.mean.shape b →
          c0.get (a ++ b) = N.covAt (ravel N.mean.shape a) (ravel N.mean.shape b) := by
        intro a b ha hb
        rw [Arr.get_flat (by rw [hcs]; exact ha.append hb), hcs, ravel_append hb.length,
          show ravel N.mean.shape b + N.mean.shape.prod * ravel N.mean.shape a =
            ravel N.mean.shape a * N.mean.shape.prod + ravel N.mean.shape b by ring]
        exact hcf _ (mul_add_lt (ravel_lt ha) (ravel_lt hb))
      unfold Arr.transpose at hc'
      rw [hmd, hcn] at hc'
      rcases hax with hax | hax
      · rw [normAxes_nonneg (show normAxes N.mean.shape.length ax = some l from hl) hax] at hc'
        simp only at hc'
        unfold Arr.permute at hc'
        split at hc'
        · cases hc'
          show c0.get (scatter c0.ndim _ _) = _
          rw [hcn, scatter_append hlen hlt hmem hui]
          exact fin _ _ hi' hj'
        · cases hc'
      · rw [normAxes_neg (show normAxes N.mean.shape.length ax = some l from hl) hax] at hc'
        simp only at hc'
        unfold Arr.permute at hc'
        split at hc'
        · cases hc'
          show c0.get (scatter c0.ndim _ _) = _
          rw [hcn, scatter_swap hlen hmem hui, fin _ _ hj' hi']
          exact hX.cov_symm (ravel_lt hj') (ravel_lt hi')
        · cases hc'
    · cases hm

/-- The transpose without arguments is always accepted. -/
theorem transpose_default_nonneg (N : Normal) : ∀ a ∈ callAxes N none, 0 ≤ a := by
  intro a ha
  simp only [callAxes, resolveAxes, reduceCtorEq, if_false, List.mem_map] at ha
  obtain ⟨k, _, rfl⟩ := ha
  omega

/-- Transposing without arguments reverses the axes: the values keep their entries, the multi-index is reversed. -/
theorem transpose_default_reverses (N : Normal) (x : Arr) (hx : x.shape = N.mean.shape) :
    ∃ y, x.transpose (callAxes N none) = .ok y ∧ y.shape = x.shape.reverse ∧
      ∀ idx : List ℕ, idx.length = x.ndim → y.get idx = x.get idx.reverse := by
  have hn : N.mean.ndim = x.ndim := by rw [Arr.ndim, Arr.ndim, hx]
  have hax : callAxes N none = (List.range x.ndim).reverse.map fun (k : ℕ) => (k : ℤ) := by
    simp [callAxes, resolveAxes, hn]
  have hno : ∀ l : List ℕ, (∀ d ∈ l, d < x.ndim) → normAxes x.ndim (l.map fun (k : ℕ) => (k : ℤ)) = some l := by
    intro l
    induction l with
    | nil => intro _; rfl
    | cons a l ih =>
      intro h
      have ha : normAxis x.ndim (a : ℤ) = some a := by
        rw [normAxis, if_pos ⟨by omega, by have := h a (by simp); omega⟩]; rfl
      have := ih fun d hd => h d (by simp [hd])
      rw [normAxes] at this ⊢
      simp only [List.map_cons, List.mapM_cons, ha, this]
      rfl
  refine ⟨⟨(List.range x.ndim).reverse.map fun d => x.shape.getD d 0,
    fun idx => x.get (scatter x.ndim (List.range x.ndim).reverse idx)⟩, ?_, ?_, ?_⟩
  · rw [hax, Arr.transpose, hno _ (by simp)]
    show Arr.permute x _ = _
    rw [Arr.permute, if_pos ⟨by simp, List.nodup_reverse.2 List.nodup_range⟩]
  · show (List.range x.ndim).reverse.map (fun d => x.shape.getD d 0) = _
    rw [List.map_reverse]
    congr 1
    apply List.ext_getElem
    · simp [Arr.ndim]
    · intro i h1 h2
      simp [h2]
  · intro idx hidx
    show x.get (scatter x.ndim (List.range x.ndim).reverse idx) = _
    congr 1
    apply List.ext_getElem
    · simp [scatter, hidx]
    · intro i h1 h2
      have hi : i < x.ndim := by simpa [scatter] using h1
      have hix : (List.range x.ndim).reverse.idxOf i = x.ndim - 1 - i := by
        have hlt : x.ndim - 1 - i < (List.range x.ndim).reverse.length := by simp; omega
        have hg : (List.range x.ndim).reverse[x.ndim - 1 - i] = i := by simp; omega
        have := (List.nodup_reverse.2 (List.nodup_range (n := x.ndim))).idxOf_getElem (x.ndim - 1 - i) hlt
        rwa [hg] at this
      simp only [scatter, List.getElem_map, List.getElem_range, hix, List.getElem_reverse]
      rw [List.getD_eq_getElem _ _ (by omega)]
      simp only [hidx]

/-- A `2 × 2` matrix whose diagonal entries are equal and whose other entries are independent. -/
noncomputable def corr4 : Normal :=
  ⟨⟨[2, 2], fun _ => 0⟩, ⟨[4, 4], fun idx => if idx.getD 0 0 % 3 = idx.getD 1 0 % 3 then 1 else 0⟩, none⟩

theorem corr4_wf : corr4.WF := mkNormal_eq (by simp [Arr.ndim, corr4]) (by simp [corr4, expectedCov])

theorem corr4_cov {i j : ℕ} (hi : i < 4) (hj : j < 4) : corr4.covAt i j = if i % 3 = j % 3 then 1 else 0 := by
  have h : corr4.mean.size = 4 := by simp [Arr.size, corr4]
  rw [Normal.covAt, h, Arr.flat_two (m := 4) (n := 4) rfl (by omega), show (i * 4 + j) / 4 = i by omega,
    show (i * 4 + j) % 4 = j by omega]
  simp [corr4]

/-- Violation: mixing nonnegative and negative axes.  `X.transpose(0, -1)` of a `2 × 2` matrix `X` leaves the values
alone, but the object returned says that the entries `(0, 1)` and `(1, 0)`, which are independent, are equal, and that
the entries `(0, 0)` and `(1, 1)`, which are equal, are independent. -/
theorem transpose_mixed_wrong : ∃ N', corr4.transpose (some [0, -1]) = .ok N' ∧
    (∀ x : Arr, x.shape = [2, 2] → ∃ y, x.transpose [0, -1] = .ok y ∧ y.shape = [2, 2] ∧
      ∀ i j, i < 2 → j < 2 → y.get [i, j] = x.get [i, j]) ∧
    N'.covAt 1 2 = 1 ∧ corr4.covAt 1 2 = 0 ∧ N'.covAt 0 3 = 0 ∧ corr4.covAt 0 3 = 1 := by
  obtain ⟨c, hc1, hc2, hc3⟩ := cov_reshape_eq corr4_wf
  have hc2 : c.shape = [2, 2, 2, 2] := hc2
  have hc3 : ∀ k < 16, c.flat k = corr4.cov.flat k := fun k hk => hc3 k (by simpa [corr4, Arr.size] using hk)
  have hx : ∀ x : Arr, x.shape = [2, 2] → x.transpose [0, -1] = .ok ⟨[2, 2], fun idx => x.get (scatter 2 [0, 1] idx)⟩ := by
    intro x hx
    rw [Arr.transpose, Arr.ndim, hx]
    show Arr.permute x [0, 1] = _
    rw [Arr.permute, Arr.ndim, hx, if_pos (by decide)]
    rfl
  have hct : c.transpose ([0, -1] ++ [2, 1]) = .ok ⟨[2, 2, 2, 2], fun idx => c.get (scatter 4 [0, 3, 2, 1] idx)⟩ := by
    rw [Arr.transpose, Arr.ndim, hc2]
    show Arr.permute c [0, 3, 2, 1] = _
    rw [Arr.permute, Arr.ndim, hc2, if_pos (by decide)]
    rfl
  obtain ⟨C, hC1, hC2, hC3⟩ := squareCov_eq (m := ⟨[2, 2], fun idx => corr4.mean.get (scatter 2 [0, 1] idx)⟩)
    (c := ⟨[2, 2, 2, 2], fun idx => c.get (scatter 4 [0, 3, 2, 1] idx)⟩) rfl
  have hC3 : ∀ k < 16, C.flat k = c.get (scatter 4 [0, 3, 2, 1] (unravel [2, 2, 2, 2] k)) := fun k hk =>
    hC3 k (by simpa [Arr.size] using hk)
  have hget : ∀ l, Valid [2, 2, 2, 2] l → c.get l = corr4.cov.flat (ravel [2, 2, 2, 2] l) := by
    intro l hl
    rw [Arr.get_flat (by rw [hc2]; exact hl), hc2, hc3 _ (ravel_lt hl)]
  refine ⟨⟨⟨[2, 2], fun idx => corr4.mean.get (scatter 2 [0, 1] idx)⟩, C, none⟩, ?_,
    fun x h => ⟨_, hx x h, rfl, fun i j _ _ => rfl⟩, ?_, ?_, ?_, ?_⟩
  · show corr4.transposeAxes [0, -1] = _
    rw [Normal.transposeAxes, hx _ rfl]
    have hct' : c.transpose ([0, -1] ++ List.map (fun x => (Arr.ndim ⟨[2, 2], fun idx =>
        corr4.mean.get (scatter 2 [0, 1] idx)⟩ : ℤ) + x) [0, -1]) = _ := hct
    simp only [Except.bind, hc1, hct', hC1]
    exact mkNormal_eq (by simp [Arr.ndim]) hC2
  · show C.flat (1 * (Arr.size ⟨[2, 2], _⟩) + 2) = 1
    rw [show Arr.size ⟨[2, 2], fun idx => corr4.mean.get (scatter 2 [0, 1] idx)⟩ = 4 by simp [Arr.size], hC3 _ (by omega)]
    show c.get [0, 0, 1, 1] = 1
    rw [hget _ (.cons (by omega) (.cons (by omega) (.cons (by omega) (.cons (by omega) .nil))))]
    show corr4.covAt 0 3 = 1
    rw [corr4_cov (by omega) (by omega), if_pos rfl]
  · rw [corr4_cov (by omega) (by omega), if_neg (by omega)]
  · show C.flat (0 * (Arr.size ⟨[2, 2], _⟩) + 3) = 0
    rw [zero_mul, hC3 _ (by omega)]
    show c.get [0, 1, 1, 0] = 0
    rw [hget _ (.cons (by omega) (.cons (by omega) (.cons (by omega) (.cons (by omega) .nil))))]
    show corr4.covAt 1 2 = 0
    rw [corr4_cov (by omega) (by omega), if_neg (by omega)]
  · rw [corr4_cov (by omega) (by omega), if_pos rfl]

/-- The hypotheses hold, for example, for the second column of a random `3 × 2` matrix. -/
example : ∃ (N N' : Normal) (Ω : Type) (_ : MeasurableSpace Ω) (P : Measure Ω) (X : Ω → Arr),
    N.WF ∧ Law P X N ∧ N.mean.shape = [3, 2] ∧ N.getitem [.slice none none none, .int 1] = .ok N' ∧ N'.mean.shape = [3] := by
  obtain ⟨N, h1, h2, _, _, Ω, mΩ, P, X, h4⟩ := law_exists ⟨[3, 2], fun _ => 1⟩ (by simp [Arr.ndim]) 1
  have hs : N.mean.shape = [3, 2] := by rw [h2]
  have hl : [KeyEl.slice none none none, .int 1].length = N.mean.ndim := by rw [Arr.ndim, hs]; rfl
  have hg : gather [KeyEl.slice none none none, .int 1] N.mean.shape = .ok
      (gatherOuter [.many 3 fun k => ((0 : ℤ) + (k : ℤ) * 1).toNat, .one 1]) := by
    rw [hs]; rfl
  have hy : ∃ y, N.mean.index [KeyEl.slice none none none, .int 1] = .ok y := by
    rw [Arr.index_full hl, hg]; exact ⟨_, rfl⟩
  obtain ⟨y, hy⟩ := hy
  obtain ⟨g, N', hg', hN', h5, h6, _⟩ := getitem_full_eq h1 hl hy
  refine ⟨N, N', Ω, mΩ, P, X, h1, h4, hs, hN', ?_⟩
  rw [h5, h6]
  have := Except.ok.inj (hg'.symm.trans hg)
  rw [this]; rfl

end Probnum.RandVars
