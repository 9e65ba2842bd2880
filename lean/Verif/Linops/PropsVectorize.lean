import Verif.Linops.Vectorize
import Verif.RandVars.IndexLemmas
import Verif.Posterior.EvalLemmas

/-!
# Functions of one vector or matrix become products with stacks of matrices
-/

namespace Probnum.Vectorize

open RandVars Finset

/-- `f(v)` is `A @ v` for all vectors of length `n`. -/
def IsMatvec (m n : ℕ) (A : ℕ → ℕ → ℝ) (f : Arr → Res Arr) : Prop :=
  ∀ v : Arr, v.shape = [n] → ∃ y, f v = .ok y ∧ y.shape = [m] ∧ ∀ i < m, y.get [i] = ∑ l ∈ range n, A i l * v.get [l]

/-- `f(X)` is `A @ X` for all matrices with `n` rows. -/
def IsMatmat (m n : ℕ) (A : ℕ → ℕ → ℝ) (f : Arr → Res Arr) : Prop :=
  ∀ (X : Arr) (k : ℕ), X.shape = [n, k] → ∃ Y, f X = .ok Y ∧ Y.shape = [m, k] ∧
    ∀ i < m, ∀ j < k, Y.get [i, j] = ∑ l ∈ range n, A i l * X.get [l, j]

/-- `y` is `A @ x` for a stack `x` of matrices: the matrix product at every index of the stack. -/
def IsProduct (m n : ℕ) (A : ℕ → ℕ → ℝ) (b : List ℕ) (k : ℕ) (x y : Arr) : Prop :=
  y.shape = b ++ [m, k] ∧ ∀ idx, Valid b idx → ∀ i < m, ∀ j < k,
    y.get (idx ++ [i, j]) = ∑ l ∈ range n, A i l * x.get (idx ++ [l, j])

theorem loop_ok {s r : List ℕ} {f : List ℕ → Res Arr} (hs : s.prod ≠ 0) {g : List ℕ → Arr} (h : ∀ i, Valid s i → f i = .ok (g i) ∧ (g i).shape = r) :
    ∃ F, loop s f = .ok (r, F) ∧ ∀ i, Valid s i → F i = g i := by
  have hm : ((List.range s.prod).mapM fun k => f (unravel s k)) = .ok ((List.range s.prod).map fun k => g (unravel s k)) := by
    rw [Posterior.mapM_ok_iff, List.forall₂_map_right_iff, List.forall₂_same]
    intro k hk
    exact (h _ (unravel_valid (List.mem_range.1 hk))).1
  obtain ⟨n, hn⟩ := Nat.exists_eq_succ_of_ne_zero hs
  have hl : ((List.range s.prod).map fun k => g (unravel s k)) =
      g (unravel s 0) :: (List.range n).map fun k => g (unravel s (k + 1)) := by
    rw [hn, Nat.succ_eq_add_one, List.range_succ_eq_map, List.map_cons, List.map_map]
    rfl
  have hsh : ∀ k < s.prod, (g (unravel s k)).shape = r := fun k hk => (h _ (unravel_valid hk)).2
  have hall : (((List.range n).map fun k => g (unravel s (k + 1))).all fun z => z.shape == (g (unravel s 0)).shape) = true := by
    rw [List.all_eq_true]
    intro z hz
    obtain ⟨k, hk, rfl⟩ := List.mem_map.1 hz
    rw [List.mem_range] at hk
    rw [hsh _ (by omega), hsh _ (by omega)]
    simp
  refine ⟨fun idx => ((List.range s.prod).map fun k => g (unravel s k)).getD (ravel s idx) (g (unravel s 0)), ?_, fun i hi => ?_⟩
  · unfold loop
    rw [if_neg hs, hm]
    show (match ((List.range s.prod).map fun k => g (unravel s k)) with | [] => _ | y :: l => _) = _
    rw [hl]
    simp only
    rw [if_pos hall, hsh 0 (by omega)]
  · beta_reduce
    rw [List.getD_eq_getElem _ _ (by simpa using ravel_lt hi), List.getElem_map, List.getElem_range, unravel_ravel hi]

/-- **C95 (a).**  A function that multiplies one matrix, as function or method, becomes one that multiplies stacks of matrices with any
number of axes. -/
theorem matmat_stacks {m n : ℕ} {A : ℕ → ℕ → ℝ} {f : Arr → Res Arr} (hf : IsMatmat m n A f) {x : Arr} {b : List ℕ} {k : ℕ}
    (hx : x.shape = b ++ [n, k]) (hb : b.prod ≠ 0) : ∃ y, vectorizeMatmat f x = .ok y ∧ IsProduct m n A b k x y := by
  have hnd : x.ndim = b.length + 2 := by simp [Arr.ndim, hx]
  have ht : x.shape.take (x.ndim - 2) = b := by rw [hnd, hx]; simp
  have hd : x.shape.drop (x.ndim - 2) = [n, k] := by rw [hnd, hx]; simp
  have hlast : x.shape.getLastD 0 = k := by rw [hx]; simp
  choose g hg using fun i : List ℕ => hf ⟨[n, k], fun idx => x.get (i ++ idx)⟩ k rfl
  obtain ⟨F, hF, hFg⟩ := loop_ok (s := b) (r := [m, k]) (g := g)
    (f := fun i => (f ⟨[n, k], fun idx => x.get (i ++ idx)⟩).bind fun y =>
        if y.ndim = 2 ∧ y.shape.getLastD 0 = k then .ok y else .error .valueError) hb (fun i _ => by
      refine ⟨?_, (hg i).2.1⟩
      rw [(hg i).1]
      show (if (g i).ndim = 2 ∧ _ then _ else _) = _
      rw [if_pos]
      simp [Arr.ndim, (hg i).2.1])
  refine ⟨⟨b ++ [m, k], fun idx => (F (idx.take b.length)).get (idx.drop b.length)⟩, ?_, rfl, fun idx hv i hi j hj => ?_⟩
  · unfold vectorizeMatmat
    rw [if_neg (by omega)]
    simp only [ht, hd, hlast, hF]
    rfl
  · have hlen := hv.length
    show (F ((idx ++ [i, j]).take b.length)).get ((idx ++ [i, j]).drop b.length) = _
    rw [hlen, List.take_left, List.drop_left, hFg idx hv, (hg idx).2.2 i hi j hj]

/-- **C95 (b), partial.**  A function that multiplies one vector becomes one that multiplies stacks of matrices.  (Missing: empty stacks and
methods, see `empty_stacks` and `matvec_method`.) -/
theorem matvec_stacks_partial {m n : ℕ} {A : ℕ → ℕ → ℝ} {f : Arr → Res Arr} (hf : IsMatvec m n A f) {x : Arr} {b : List ℕ} {k : ℕ}
    (hx : x.shape = b ++ [n, k]) (hb : b.prod ≠ 0) (hk : k ≠ 0) : ∃ y, vectorizeMatvec false f x = .ok y ∧ IsProduct m n A b k x y := by
  have hnd : x.ndim = b.length + 2 := by simp [Arr.ndim, hx]
  by_cases hone : x.ndim = 2 ∧ x.shape.getD 1 0 = 1
  · obtain rfl : b = [] := List.length_eq_zero_iff.1 (by omega)
    have hx' : x.shape = [n, k] := by simpa using hx
    obtain rfl : k = 1 := by simpa [hx'] using hone.2
    obtain ⟨y, h1, h2, h3⟩ := hf ⟨[n], fun idx => x.get [idx.headD 0, 0]⟩ rfl
    refine ⟨⟨[m, 1], fun idx => y.get (idx.headD 0 :: idx.drop 2)⟩, ?_, rfl, fun idx hv i hi j hj => ?_⟩
    · unfold vectorizeMatvec
      have e0 : x.shape.getD 0 0 = n := by simp [hx']
      simp only [Bool.false_eq_true, if_false]
      rw [if_pos hone, e0, h1]
      show (match y.shape with | [] => _ | m :: r => _) = _
      rw [h2]
    · have : idx = [] := List.length_eq_zero_iff.1 hv.length.symm
      subst this
      obtain rfl : j = 0 := by omega
      exact h3 i hi
  · have ht : x.shape.take (x.ndim - 2) = b := by rw [hnd, hx]; simp
    have hn : x.shape.getD (x.ndim - 2) 0 = n := by rw [hnd, hx]; simp [List.getD_eq_getElem?_getD]
    have hlast : x.shape.getLastD 0 = k := by rw [hx]; simp
    choose g hg using fun i : List ℕ => hf ⟨[n], fun idx => x.get (i.take b.length ++ [idx.headD 0, i.getLastD 0])⟩ rfl
    obtain ⟨F, hF, hFg⟩ := loop_ok (s := b ++ [k]) (r := [m]) (g := g)
      (f := fun i => f ⟨[n], fun idx => x.get (i.take b.length ++ [idx.headD 0, i.getLastD 0])⟩) (by simp [hb, hk])
      (fun i _ => ⟨(hg i).1, (hg i).2.1⟩)
    refine ⟨⟨b ++ [m] ++ [k], fun idx => (F (idx.take b.length ++ [idx.getLastD 0])).get ((idx.drop b.length).dropLast)⟩,
      ?_, by simp, fun idx hv i hi j hj => ?_⟩
    · unfold vectorizeMatvec
      simp only [Bool.false_eq_true, if_false]
      rw [if_neg hone, if_neg (by omega)]
      simp only [ht, hn, hlast, hF]
      rfl
    · have hlen := hv.length
      show (F ((idx ++ [i, j]).take b.length ++ [(idx ++ [i, j]).getLastD 0])).get (((idx ++ [i, j]).drop b.length).dropLast) = _
      have hv' : Valid (b ++ [k]) (idx ++ [j]) := hv.append (.cons hj .nil)
      have e1 : (idx ++ [i, j]).getLastD 0 = j := by simp
      rw [hlen, List.take_left, List.drop_left, e1, hFg _ hv']
      refine ((hg (idx ++ [j])).2.2 i hi).trans ?_
      refine sum_congr rfl fun l _ => ?_
      simp [hlen]

/-- **C95 (c), disagreement.**  A method that multiplies one vector does not become one that multiplies matrices: every call fails. -/
theorem matvec_method (f : Arr → Res Arr) (x : Arr) : ∃ e, vectorizeMatvec true f x = .error e ∧ (e = .typeError ∨ e = .valueError) := by
  unfold vectorizeMatvec
  simp only [if_true]
  by_cases h1 : x.ndim = 2 ∧ x.shape.getD 1 0 = 1
  · rw [if_pos h1]
    exact ⟨_, rfl, .inl rfl⟩
  · rw [if_neg h1]
    by_cases h2 : x.ndim < 2
    · rw [if_pos h2]
      exact ⟨_, rfl, .inr rfl⟩
    · rw [if_neg h2]
      unfold loop
      by_cases h3 : (x.shape.take (x.ndim - 2) ++ [x.shape.getLastD 0]).prod = 0
      · rw [if_pos h3]
        exact ⟨_, rfl, .inr rfl⟩
      · rw [if_neg h3]
        obtain ⟨p, hp⟩ := Nat.exists_eq_succ_of_ne_zero h3
        rw [hp, Nat.succ_eq_add_one, List.range_succ_eq_map, List.mapM_cons]
        exact ⟨_, rfl, .inl rfl⟩

/-- **C95 (d), disagreement.**  Empty stacks, and for functions of a vector matrices without columns, raise ValueError; their products are
empty arrays. -/
theorem empty_stacks (f : Arr → Res Arr) {x : Arr} {b : List ℕ} {n k : ℕ} (hx : x.shape = b ++ [n, k]) :
    (b.prod = 0 → vectorizeMatmat f x = .error .valueError) ∧
    (b.prod = 0 ∨ k = 0 → vectorizeMatvec false f x = .error .valueError) := by
  have hnd : x.ndim = b.length + 2 := by simp [Arr.ndim, hx]
  have ht : x.shape.take (x.ndim - 2) = b := by rw [hnd, hx]; simp
  have hlast : x.shape.getLastD 0 = k := by rw [hx]; simp
  constructor
  · intro hb
    unfold vectorizeMatmat
    rw [if_neg (by omega)]
    simp only [ht, loop, if_pos hb]
    rfl
  · intro h
    unfold vectorizeMatvec
    simp only [Bool.false_eq_true, if_false]
    have hone : ¬(x.ndim = 2 ∧ x.shape.getD 1 0 = 1) := by
      rintro ⟨h1, h2⟩
      obtain rfl : b = [] := List.length_eq_zero_iff.1 (by omega)
      rcases h with h | rfl
      · simp at h
      · simp [hx] at h2
    rw [if_neg hone, if_neg (by omega)]
    have h0 : (b ++ [k]).prod = 0 := by
      rw [List.prod_append]
      rcases h with h | h <;> simp [h]
    simp only [ht, hlast, loop, if_pos h0]
    rfl

/-- **C95 (e).**  Arrays with fewer than two axes are rejected with ValueError. -/
theorem vectors_rejected (f : Arr → Res Arr) {x : Arr} (hx : x.ndim < 2) :
    vectorizeMatmat f x = .error .valueError ∧ vectorizeMatvec false f x = .error .valueError := by
  unfold vectorizeMatmat vectorizeMatvec
  constructor
  · rw [if_pos hx]
  · simp only [Bool.false_eq_true, if_false]
    rw [if_neg (by omega), if_pos hx]

/-! ### Concrete cases -/

/-- The function `v ↦ (v₀ + v₁, 2 v₁)` is the product with `[[1, 1], [0, 2]]`. -/
theorem example_matvec : IsMatvec 2 2 (fun i l => if i = 0 then 1 else if l = 0 then 0 else 2)
    fun v => .ok ⟨[2], fun idx => if idx.headD 0 = 0 then v.get [0] + v.get [1] else 2 * v.get [1]⟩ := by
  intro v _
  refine ⟨_, rfl, rfl, fun i hi => ?_⟩
  have : i = 0 ∨ i = 1 := by omega
  rcases this with rfl | rfl
  · simp [sum_range_succ]
  · simp [sum_range_succ]

/-- A stack of three 2 × 2 matrices. -/
example : ∃ y, vectorizeMatvec false
    (fun v => .ok ⟨[2], fun idx => if idx.headD 0 = 0 then v.get [0] + v.get [1] else 2 * v.get [1]⟩)
    ⟨[3, 2, 2], fun idx => idx.headD 0⟩ = .ok y ∧ y.shape = [3, 2, 2] ∧ y.get [1, 0, 1] = 2 := by
  obtain ⟨y, h1, h2, h3⟩ := matvec_stacks_partial example_matvec (x := ⟨[3, 2, 2], fun idx => idx.headD 0⟩) (b := [3]) (k := 2) rfl
    (by decide) (by decide)
  refine ⟨y, h1, h2, ?_⟩
  have := h3 [1] (.cons (by decide) .nil) 0 (by decide) 1 (by decide)
  simp only [List.cons_append, List.nil_append] at this
  rw [this]
  simp [sum_range_succ]

/-- The function `X ↦ 3 X` on stacks of 1 × k matrices. -/
example : ∃ y, vectorizeMatmat (fun X => .ok ⟨X.shape, fun idx => 3 * X.get idx⟩) ⟨[2, 1, 4], fun idx => idx.headD 0⟩ = .ok y ∧
    y.shape = [2, 1, 4] ∧ y.get [1, 0, 3] = 3 := by
  have hf : IsMatmat 1 1 (fun _ _ => 3) fun X => .ok ⟨X.shape, fun idx => 3 * X.get idx⟩ := by
    intro X k hX
    refine ⟨_, rfl, hX, fun i hi j _ => ?_⟩
    obtain rfl : i = 0 := by omega
    simp
  obtain ⟨y, h1, h2, h3⟩ := matmat_stacks hf (x := ⟨[2, 1, 4], fun idx => idx.headD 0⟩) (b := [2]) (k := 4) rfl (by decide)
  refine ⟨y, h1, h2, ?_⟩
  have := h3 [1] (.cons (by decide) .nil) 0 (by decide) 3 (by decide)
  simp only [List.cons_append, List.nil_append] at this
  rw [this]
  simp

end Probnum.Vectorize
