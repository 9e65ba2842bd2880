import Verif.Linops.CallLemmas

/-!
# Property C104: linear operators applied to arrays with any number of axes
-/

namespace Probnum.Linops.Call

open RandVars (Arr)
open Finset

/-- `A(x, axis)` applies the dense matrix along the given axis, counted from the front or (negative) from the back, of an
array of any shape; without an axis along the last one. -/
theorem call_eq_dense {a : Op} (ha : Valid False a) (hc : Calm a) : ∃ N, ∀ n ≥ N, ∃ D, todense n a = .ok D ∧
    ∀ (x : Arr) (s q : List ℕ) (axis : Option ℤ), x.shape = s ++ a.cols :: q →
      (axis = some (s.length : ℤ) ∨ axis = some (-(q.length : ℤ) - 1) ∨ axis = none ∧ q = []) →
      ∃ y, call n a x axis = .ok y ∧ Along D a.rows a.cols s q x y := by
  refine ⟨4 * depth a + 6, fun n hn => ?_⟩
  obtain ⟨D, h1, h2⟩ := dense_entries ha hc hn
  refine ⟨D, h1, fun x s q axis hx hax => ?_⟩
  obtain ⟨y, h3, h4⟩ := call_along ha hc hn hx hax
  exact ⟨y, h3, h4.congr h2⟩

/-- A Kronecker product along the first axis of an array of shape `(4, 2, 3)`. -/
example : ∃ N, ∀ n ≥ N, ∃ D y, todense n exK = .ok D ∧ call n exK ⟨[4, 2, 3], fun idx => idx.sum⟩ (some 0) = .ok y ∧
    Along D 4 4 [] [2, 3] ⟨[4, 2, 3], fun idx => idx.sum⟩ y := by
  obtain ⟨N, h⟩ := call_eq_dense built_exK.valid calm_exK
  refine ⟨N, fun n hn => ?_⟩
  obtain ⟨D, h1, h2⟩ := h n hn
  obtain ⟨y, h3, h4⟩ := h2 ⟨[4, 2, 3], fun idx => idx.sum⟩ [] [2, 3] (some 0) rfl (.inl rfl)
  exact ⟨D, y, h1, h3, h4⟩

/-- `A @ x` for a vector, a matrix or a stack of matrices of any shape. -/
theorem matmul_arrays {a : Op} (ha : Valid False a) (hc : Calm a) : ∃ N, ∀ n ≥ N, ∃ D, todense n a = .ok D ∧
    (∀ x : Arr, x.shape = [a.cols] → ∃ y, matmul n a x = .ok y ∧ Along D a.rows a.cols [] [] x y) ∧
    (∀ (x : Arr) (s : List ℕ) (k : ℕ), x.shape = s ++ [a.cols, k] →
      ∃ y, matmul n a x = .ok y ∧ Along D a.rows a.cols s [k] x y) := by
  refine ⟨4 * depth a + 6, fun n hn => ?_⟩
  obtain ⟨D, h1, h2⟩ := dense_entries ha hc hn
  refine ⟨D, h1, fun x hx => ?_, fun x s k hx => ?_⟩
  · obtain ⟨y, h3, h4⟩ := matmul_vec ha hc hn hx
    exact ⟨y, h3, h4.congr h2⟩
  · obtain ⟨y, h3, h4⟩ := matmul_stack ha hc hn hx
    exact ⟨y, h3, h4.congr h2⟩

example : ∃ N, ∀ n ≥ N, ∃ D y, todense n exK = .ok D ∧ matmul n exK ⟨[5, 2, 4, 3], fun idx => idx.sum⟩ = .ok y ∧
    Along D 4 4 [5, 2] [3] ⟨[5, 2, 4, 3], fun idx => idx.sum⟩ y := by
  obtain ⟨N, h⟩ := matmul_arrays built_exK.valid calm_exK
  refine ⟨N, fun n hn => ?_⟩
  obtain ⟨D, h1, -, h2⟩ := h n hn
  obtain ⟨y, h3, h4⟩ := h2 ⟨[5, 2, 4, 3], fun idx => idx.sum⟩ [5, 2] 3 rfl
  exact ⟨D, y, h1, h3, h4⟩

/-- `x @ A` for an array of any shape multiplies along its last axis from the right. -/
theorem rmatmul_arrays {a : Op} (ha : Valid False a) (hc : Calm a) : ∃ N, ∀ n ≥ N, ∃ D, todense n a = .ok D ∧
    ∀ (x : Arr) (s : List ℕ), x.shape = s ++ [a.rows] → ∃ y, rmatmul n a x = .ok y ∧ FromRight D a.rows a.cols s x y := by
  refine ⟨4 * depth a + 10, fun n hn => ?_⟩
  obtain ⟨D, h1, h2⟩ := dense_entries ha hc (n := n) (by omega)
  refine ⟨D, h1, fun x s hx => ?_⟩
  obtain ⟨y, h3, h4, h5⟩ := rmatmul_right ha hc hn hx
  exact ⟨y, h3, h4, fun l j hl hj => (h5 l j hl hj).trans
    (sum_congr rfl fun i hi => by rw [h2 i (mem_range.1 hi) j hj])⟩

example : ∃ N, ∀ n ≥ N, ∃ D y, todense n exK = .ok D ∧ rmatmul n exK ⟨[3, 2, 4], fun idx => idx.sum⟩ = .ok y ∧
    FromRight D 4 4 [3, 2] ⟨[3, 2, 4], fun idx => idx.sum⟩ y := by
  obtain ⟨N, h⟩ := rmatmul_arrays built_exK.valid calm_exK
  refine ⟨N, fun n hn => ?_⟩
  obtain ⟨D, h1, h2⟩ := h n hn
  obtain ⟨y, h3, h4⟩ := h2 ⟨[3, 2, 4], fun idx => idx.sum⟩ [3, 2] rfl
  exact ⟨D, y, h1, h3, h4⟩

/-- Axes that do not exist, axes of the wrong length and arrays without axes raise ValueError. -/
theorem call_rejects (n : ℕ) (a : Op) (x : Arr) (axis : Option ℤ) :
    (x.shape = [] → call n a x axis = .error .valueError) ∧
    (∀ z, axis = some z → z < -(x.ndim : ℤ) ∨ (x.ndim : ℤ) ≤ z → call n a x axis = .error .valueError) ∧
    (∀ s q r, x.shape = s ++ r :: q → r ≠ a.cols →
      (axis = some (s.length : ℤ) ∨ axis = some (-(q.length : ℤ) - 1) ∨ axis = none ∧ q = []) →
      call n a x axis = .error .valueError) := by
  refine ⟨fun h => ?_, fun z hz h => ?_, fun s q r hx hr hax => ?_⟩
  · have h0 : x.ndim = 0 := by rw [Arr.ndim, h]; rfl
    rw [call, h0]
    split
    · rfl
    · rfl
  · subst hz
    rw [call, if_pos (by simpa [Option.any_some] using h)]
  · have hnd : x.ndim = s.length + q.length + 1 := by rw [Arr.ndim, hx]; simp; omega
    rw [call]
    split
    · rfl
    split
    · next h1 =>
      obtain rfl : s = [] := List.eq_nil_of_length_eq_zero (by omega)
      obtain rfl : q = [] := List.eq_nil_of_length_eq_zero (by simp at hnd; omega)
      rw [matmul, hx]
      exact if_neg hr
    split
    · have hat : (if axis.getD (-1) < 0 then axis.getD (-1) + (x.ndim : ℤ) else axis.getD (-1)).toNat = s.length := by
        rcases hax with rfl | rfl | ⟨rfl, rfl⟩
        · rw [Option.getD_some, if_neg (by omega)]
          omega
        · rw [Option.getD_some, if_pos (by omega)]
          omega
        · simp only [List.length_nil] at hnd
          rw [Option.getD_none, if_pos (by omega)]
          omega
      dsimp only
      rw [hat, hx, List.getD_append_right _ _ _ _ le_rfl, Nat.sub_self]
      exact if_pos hr
    · rfl

example : call 9 exK ⟨[4, 2, 3], fun _ => 0⟩ (some 3) = .error .valueError ∧
    call 9 exK ⟨[4, 2, 3], fun _ => 0⟩ none = .error .valueError :=
  ⟨(call_rejects 9 exK ⟨[4, 2, 3], fun _ => 0⟩ (some 3)).2.1 3 rfl (by decide),
    (call_rejects 9 exK ⟨[4, 2, 3], fun _ => 0⟩ none).2.2 [4, 2] [] 3 rfl (by decide) (.inr (.inr ⟨rfl, rfl⟩))⟩

/-- `A @ x` and `x @ A` raise ValueError unless the length of the axis that is summed over fits. -/
theorem matmul_rejects (n : ℕ) (a : Op) (x : Arr) :
    (x.shape = [] → matmul n a x = .error .valueError ∧ rmatmul n a x = .error .valueError) ∧
    (∀ r, x.shape = [r] → r ≠ a.cols → matmul n a x = .error .valueError) ∧
    (∀ s r k, x.shape = s ++ [r, k] → r ≠ a.cols → matmul n a x = .error .valueError) ∧
    (∀ s r, x.shape = s ++ [r] → r ≠ a.rows → rmatmul n a x = .error .valueError) := by
  refine ⟨fun h => ⟨by rw [matmul, h]; rfl, by rw [rmatmul, h]; rfl⟩, fun r h hr => ?_, fun s r k h hr => ?_,
    fun s r h hr => ?_⟩
  · rw [matmul, h]
    exact if_neg hr
  · rw [matmul, h, List.reverse_append]
    exact if_neg hr
  · rw [rmatmul, h, List.getLast?_concat]
    exact if_neg hr

example : matmul 9 exK ⟨[3, 5], fun _ => 0⟩ = .error .valueError ∧ rmatmul 9 exK ⟨[3, 5], fun _ => 0⟩ = .error .valueError :=
  ⟨(matmul_rejects 9 exK ⟨[3, 5], fun _ => 0⟩).2.2.1 [] 3 5 rfl (by decide),
    (matmul_rejects 9 exK ⟨[3, 5], fun _ => 0⟩).2.2.2 [3] 5 rfl (by decide)⟩

/-- Applications along two different axes can be exchanged. -/
theorem call_comm {a b : Op} (ha : Valid False a) (hb : Valid False b) (hca : Calm a) (hcb : Calm b) : ∃ N, ∀ n ≥ N,
    ∀ (x : Arr) (s q t : List ℕ), x.shape = s ++ a.cols :: (q ++ b.cols :: t) → ∃ y z y' z',
      call n a x (some (s.length : ℤ)) = .ok y ∧ call n b y (some (-(t.length : ℤ) - 1)) = .ok z ∧
      call n b x (some (-(t.length : ℤ) - 1)) = .ok y' ∧ call n a y' (some (s.length : ℤ)) = .ok z' ∧ Same z z' := by
  refine ⟨max (4 * depth a + 6) (4 * depth b + 6), fun n hn x s q t hx => ?_⟩
  have hx' : x.shape = (s ++ a.cols :: q) ++ b.cols :: t := by rw [hx]; simp
  obtain ⟨y, h1, h2, h3⟩ := call_along ha hca (n := n) (by omega) hx (.inl rfl)
  have hy : y.shape = (s ++ a.rows :: q) ++ b.cols :: t := by rw [h2]; simp
  obtain ⟨z, h4, h5, h6⟩ := call_along hb hcb (n := n) (by omega) hy (.inr (.inl rfl))
  obtain ⟨y', k1, k2, k3⟩ := call_along hb hcb (n := n) (by omega) hx' (.inr (.inl rfl))
  have hy' : y'.shape = s ++ a.cols :: (q ++ b.rows :: t) := by rw [k2]; simp
  obtain ⟨z', k4, k5, k6⟩ := call_along ha hca (n := n) (by omega) hy' (.inl rfl)
  refine ⟨y, z, y', z', h1, h4, k1, k4, by rw [h5, k5]; simp, fun idx hi => ?_⟩
  rw [h5, List.append_assoc] at hi
  obtain ⟨l, m, v1, v2, rfl⟩ := valid_split s hi
  rw [List.cons_append] at v2
  cases v2 with
  | @cons _ i _ m vi v2 =>
    obtain ⟨l₁, m, v3, v4, rfl⟩ := valid_split q v2
    cases v4 with
    | @cons _ j _ m vj v5 =>
      have e1 : l ++ i :: (l₁ ++ j :: m) = (l ++ i :: l₁) ++ j :: m := by simp
      have va : ∀ {d i}, i < d → RandVars.Valid (s ++ d :: q) (l ++ i :: l₁) := fun h => v1.append (List.Forall₂.cons h v3)
      have vb : ∀ {d j}, j < d → RandVars.Valid (q ++ d :: t) (l₁ ++ j :: m) := fun h => v3.append (List.Forall₂.cons h v5)
      have hz : z.get (l ++ i :: (l₁ ++ j :: m)) = ∑ u ∈ range b.cols, ∑ w ∈ range a.cols,
          den b j u * (den a i w * x.get (l ++ w :: (l₁ ++ u :: m))) := by
        rw [e1, h6 _ m j (va vi) v5 vj]
        refine sum_congr rfl fun u hu => ?_
        rw [List.append_assoc, List.cons_append, h3 l _ i v1 (vb (mem_range.1 hu)) vi, mul_sum]
      have hz' : z'.get (l ++ i :: (l₁ ++ j :: m)) = ∑ w ∈ range a.cols, ∑ u ∈ range b.cols,
          den a i w * (den b j u * x.get (l ++ w :: (l₁ ++ u :: m))) := by
        rw [k6 l _ i v1 (vb vj) vi]
        refine sum_congr rfl fun w hw => ?_
        have e2 : l ++ w :: (l₁ ++ j :: m) = (l ++ w :: l₁) ++ j :: m := by simp
        rw [e2, k3 _ m j (va (mem_range.1 hw)) v5 vj, mul_sum]
        refine sum_congr rfl fun u _ => ?_
        simp
      rw [hz, hz', sum_comm]
      exact sum_congr rfl fun w _ => sum_congr rfl fun u _ => mul_left_comm _ _ _

example : ∃ N, ∀ n ≥ N, ∃ y z y' z', call n exK ⟨[4, 7, 4], fun idx => idx.sum⟩ (some 0) = .ok y ∧
    call n exI y (some (-1)) = .ok z ∧ call n exI ⟨[4, 7, 4], fun idx => idx.sum⟩ (some (-1)) = .ok y' ∧
    call n exK y' (some 0) = .ok z' ∧ Same z z' := by
  obtain ⟨N, h⟩ := call_comm built_exK.valid built_exI.valid calm_exK calm_exI
  exact ⟨N, fun n hn => h n hn ⟨[4, 7, 4], fun idx => idx.sum⟩ [] [7] [] rfl⟩

/-- `Kronecker(A, B) @ X.ravel()` is `Y.ravel()`, where `Y` is `A` applied along the rows and `B` along the columns of the
matrix `X`. -/
theorem kronecker_call {a b : Op} (ha : Valid False a) (hb : Valid False b) (hca : Calm a) (hcb : Calm b) :
    ∃ k, mkKron a b = .ok k ∧ ∃ N, ∀ n ≥ N, ∀ x : Arr, x.shape = [a.cols, b.cols] → ∃ v y z,
      matmul n k (x.withShape [a.cols * b.cols]) = .ok v ∧ call n a x (some 0) = .ok y ∧ call n b y (some 1) = .ok z ∧
      Same v (z.withShape [a.rows * b.rows]) := by
  refine ⟨_, mkKron_eq ha.coh hb.coh ⟨none, none, none, none⟩, ?_⟩
  have hV := valid_kron ha hb ⟨none, none, none, none⟩
  have hC : Calm (build (.kron ⟨a.rows * b.rows, a.cols * b.cols, ⟨none, none, none, none⟩⟩ a b)) := by
    simp [build, Op.withFl, Op.withHdr, Calm, hca, hcb]
  have hd : den (build (.kron ⟨a.rows * b.rows, a.cols * b.cols, ⟨none, none, none, none⟩⟩ a b)) =
      kronM b.rows b.cols (den a) (den b) := by
    rw [build, den_withFl, den]
  generalize hk : build (.kron ⟨a.rows * b.rows, a.cols * b.cols, ⟨none, none, none, none⟩⟩ a b) = k at hV hC hd
  have hr : k.rows = a.rows * b.rows := by rw [← hk]; rfl
  have hc : k.cols = a.cols * b.cols := by rw [← hk]; rfl
  refine ⟨max (4 * depth k + 6) (max (4 * depth a + 6) (4 * depth b + 6)), fun n hn x hx => ?_⟩
  obtain ⟨v, h1, h2, h3⟩ := matmul_vec hV hC (n := n) (by omega) (x := x.withShape [a.cols * b.cols]) (by rw [hc]; rfl)
  obtain ⟨y, h4, h5, h6⟩ := call_along ha hca (n := n) (by omega) (s := []) (q := [b.cols]) hx (.inl rfl)
  obtain ⟨z, h7, h8, h9⟩ := call_along hb hcb (n := n) (by omega) (x := y) (s := [a.rows]) (q := []) h5 (.inl rfl)
  refine ⟨v, y, z, h1, h4, h7, by rw [h2, hr]; rfl, fun idx hi => ?_⟩
  rw [h2] at hi
  cases hi with
  | @cons _ i _ l hi h =>
    cases h
    have hbr : 0 < b.rows := hb.node.rows
    have hi' : i < a.rows * b.rows := hr ▸ hi
    have hid : i / b.rows < a.rows := Nat.div_lt_of_lt_mul (by rwa [Nat.mul_comm])
    have him : i % b.rows < b.rows := Nat.mod_lt _ hbr
    have hv : v.get [i] = ∑ w ∈ range a.cols, ∑ u ∈ range b.cols,
        den a (i / b.rows) w * den b (i % b.rows) u * x.get [w, u] := by
      refine (h3 [] [] i List.Forall₂.nil List.Forall₂.nil hi).trans ?_
      rw [hd, hc, ← sum_range_mul a.cols b.cols fun w u => den a (i / b.rows) w * den b (i % b.rows) u * x.get [w, u]]
      refine sum_congr rfl fun j hj => ?_
      have hj := mem_range.1 hj
      have e : (x.withShape [a.cols * b.cols]).get [j] = x.get [j / b.cols, j % b.cols] := by
        show x.flat (RandVars.ravel [a.cols * b.cols] [j]) = _
        have : RandVars.ravel [a.cols * b.cols] [j] = j := by simp [RandVars.ravel, RandVars.rav]
        rw [this, Arr.flat_two hx hj]
      exact congrArg _ e
    have hz : (z.withShape [a.rows * b.rows]).get [i] = z.get [i / b.rows, i % b.rows] := by
      show z.flat (RandVars.ravel [a.rows * b.rows] [i]) = _
      have : RandVars.ravel [a.rows * b.rows] [i] = i := by simp [RandVars.ravel, RandVars.rav]
      rw [this, Arr.flat_two h8 hi']
    refine hv.trans (Eq.trans ?_ hz.symm)
    have ez : z.get [i / b.rows, i % b.rows] = ∑ u ∈ range b.cols, ∑ w ∈ range a.cols,
        den b (i % b.rows) u * (den a (i / b.rows) w * x.get [w, u]) := by
      refine (h9 [i / b.rows] [] (i % b.rows) (List.Forall₂.cons hid List.Forall₂.nil) List.Forall₂.nil him).trans ?_
      refine sum_congr rfl fun u hu => ?_
      have := h6 [] [u] (i / b.rows) List.Forall₂.nil (List.Forall₂.cons (mem_range.1 hu) List.Forall₂.nil) hid
      exact (congrArg _ this).trans (mul_sum _ _ _)
    rw [ez, sum_comm]
    exact sum_congr rfl fun u _ => sum_congr rfl fun w _ => by ring

example : ∃ k, mkKron exK exI = .ok k ∧ ∃ N, ∀ n ≥ N, ∃ v y z,
    matmul n k ((⟨[4, 4], fun idx => idx.sum⟩ : Arr).withShape [16]) = .ok v ∧
      call n exK ⟨[4, 4], fun idx => idx.sum⟩ (some 0) = .ok y ∧ call n exI y (some 1) = .ok z ∧
      Same v (z.withShape [16]) := by
  obtain ⟨k, h1, N, h2⟩ := kronecker_call built_exK.valid built_exI.valid calm_exK calm_exI
  exact ⟨k, h1, N, fun n hn => h2 n hn ⟨[4, 4], fun idx => idx.sum⟩ rfl⟩

end Probnum.Linops.Call
