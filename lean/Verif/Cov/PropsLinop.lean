import Verif.Cov.Linop
import Verif.Cov.PropsPsd
import Verif.Cov.PropsAlgebra
import Verif.Posterior.EvalLemmas

/-!
# C89: covariance matrices as linear operators
-/

namespace Probnum.Cov

open Finset RandVars Functions

/-! ## Specification -/

/-- The operator behaves as the `m × n` matrix `K`: its shape, its dense form, and its products with vectors and with stacks
of matrices; operands of other shapes are rejected. -/
structure Represents (A : KOp) (m n : ℕ) (K : ℕ → ℕ → ℝ) : Prop where
  shape : A.rows = m ∧ A.cols = n
  dense : ∃ M, A.todense = .ok M ∧ M.shape = [m, n] ∧ ∀ p < m, ∀ q < n, M.get [p, q] = K p q
  vec : ∀ x : Arr, x.shape = [n] → ∃ y, A.apply x = .ok y ∧ y.shape = [m] ∧
    ∀ p < m, y.get [p] = ∑ q ∈ range n, K p q * x.get [q]
  mat : ∀ (x : Arr) (s : List ℕ) (k : ℕ), x.shape = s ++ [n, k] → ∃ y, A.apply x = .ok y ∧ y.shape = s ++ [m, k] ∧
    ∀ a, Valid s a → ∀ p < m, ∀ c < k, y.get (a ++ [p, c]) = ∑ q ∈ range n, K p q * x.get (a ++ [q, c])
  other : ∀ x : Arr, x.shape ≠ [n] → (¬∃ s k, x.shape = s ++ [n, k]) → A.apply x = .error .valueError

/-! ## Lemmas -/

/-- What the constructor establishes. -/
structure KOp.Holds (A : KOp) (m n : ℕ) (K : ℕ → ℕ → ℝ) : Prop where
  shape : A.rows = m ∧ A.cols = n
  dense : ∃ M, A.dense = .ok M ∧ M.shape = [m, n] ∧ ∀ p < m, ∀ q < n, M.get [p, q] = K p q
  lazy : ∀ l, A.lazy = some l → ∀ p < m, ∀ q < n, l p q = K p q

theorem KOp.Holds.transpose {A : KOp} {m n : ℕ} {K : ℕ → ℕ → ℝ} (h : A.Holds m n K) :
    A.transpose.Holds n m fun p q => K q p := by
  obtain ⟨M, h1, h2, h3⟩ := h.dense
  refine ⟨⟨h.shape.2, h.shape.1⟩, ⟨_, by rw [KOp.transpose, h1]; rfl, by simp [h2], fun p hp q hq => ?_⟩, fun l hl p hp q hq => ?_⟩
  · show M.get [q, p] = _
    exact h3 q hq p hp
  · simp only [KOp.transpose, Option.map_eq_some_iff] at hl
    obtain ⟨l', hl', rfl⟩ := hl
    exact h.lazy l' hl' q hq p hp

theorem KOp.Holds.matmul {A : KOp} {m n : ℕ} {K : ℕ → ℕ → ℝ} (h : A.Holds m n K) (x : Arr) :
    ∃ L : ℕ → ℕ → ℝ, A.matmul x = .ok (matmulStack m n L x) ∧ ∀ p < m, ∀ q < n, L p q = K p q := by
  rw [KOp.matmul, h.shape.1, h.shape.2]
  cases hl : A.lazy with
  | some l => exact ⟨l, rfl, h.lazy l hl⟩
  | none =>
    obtain ⟨M, h1, h2, h3⟩ := h.dense
    exact ⟨fun p q => M.get [p, q], by simp only [KOp.todense, h1, Except.map], h3⟩

theorem KOp.Holds.represents {A : KOp} {m n : ℕ} {K : ℕ → ℕ → ℝ} (h : A.Holds m n K) : Represents A m n K where
  shape := h.shape
  dense := h.dense
  vec x hx := by
    obtain ⟨L, hL, hv⟩ := h.matmul ⟨[n, 1], fun idx => x.get [idx.headD 0]⟩
    refine ⟨⟨[m], fun idx => (matmulStack m n L ⟨[n, 1], fun idx => x.get [idx.headD 0]⟩).get [idx.headD 0, 0]⟩, ?_, rfl, fun p hp => ?_⟩
    · rw [KOp.apply, h.shape.1, h.shape.2, if_pos hx, hL]; rfl
    · show ∑ q ∈ range n, L p q * x.get [q] = _
      exact sum_congr rfl fun q hq => by rw [hv p hp q (mem_range.1 hq)]
  mat x s k hx := by
    have hlen : x.shape.length = s.length + 2 := by rw [hx]; simp
    obtain ⟨L, hL, hv⟩ := h.matmul x
    refine ⟨matmulStack m n L x, ?_, ?_, ?_⟩
    · rw [KOp.apply, h.shape.1, h.shape.2, if_neg, if_pos, hL]
      · refine ⟨by omega, ?_⟩
        rw [hlen, hx]; simp
      · intro h1
        rw [h1] at hlen
        simp at hlen
    · show x.shape.take (x.shape.length - 2) ++ [m, x.shape.getLastD 0] = _
      rw [hlen, hx]; simp
    · intro a ha p hp c hc
      have hal : a.length = s.length := ha.length.symm
      show ∑ j ∈ range n, L ((a ++ [p, c]).getD (x.shape.length - 2) 0) j
        * x.get ((a ++ [p, c]).take (x.shape.length - 2) ++ [j, (a ++ [p, c]).getD (x.shape.length - 1) 0]) = _
      have e1 : (a ++ [p, c]).getD (x.shape.length - 2) 0 = p := by rw [hlen, ← hal]; simp
      have e2 : (a ++ [p, c]).getD (x.shape.length - 1) 0 = c := by
        rw [hlen, ← hal, show a.length + 2 - 1 = a.length + 1 by omega]; simp [List.getD_eq_getElem?_getD]
      have e3 : (a ++ [p, c]).take (x.shape.length - 2) = a := by rw [hlen, ← hal]; simp
      rw [e1, e2, e3]
      exact sum_congr rfl fun q hq => by rw [hv p hp q (mem_range.1 hq)]
  other x h1 h2 := by
    rw [KOp.apply, h.shape.1, h.shape.2, if_neg h1, if_neg]
    rintro ⟨h3, h4⟩
    apply h2
    refine ⟨x.shape.take (x.shape.length - 2), x.shape.getD (x.shape.length - 1) 0, ?_⟩
    have hd : x.shape.drop (x.shape.length - 2) = [x.shape.getD (x.shape.length - 2) 0, x.shape.getD (x.shape.length - 1) 0] := by
      apply List.ext_getElem
      · simp; omega
      · intro k hk hk'
        have hk2 : k < 2 := by simpa using hk'
        simp only [List.getElem_drop]
        interval_cases k
        · simp [List.getD_eq_getElem?_getD, List.getElem?_eq_getElem (show x.shape.length - 2 < x.shape.length by omega)]
        · simp only [List.getElem_cons_succ, List.getElem_cons_zero, List.getD_eq_getElem?_getD,
            show x.shape.length - 1 = x.shape.length - 2 + 1 by omega]
          rw [List.getElem?_eq_getElem (by omega)]; rfl
    rw [← h4, ← hd, List.take_append_drop]

theorem sum_map_range (g : ℕ → ℝ) : ∀ n, ((List.range n).map g).sum = ∑ p ∈ range n, g p
  | 0 => rfl
  | n + 1 => by rw [List.range_succ, List.map_append, List.sum_append, sum_map_range g n, sum_range_succ]; simp

theorem mapM_range_ok {f : ℕ → Res ℝ} {g : ℕ → ℝ} {n : ℕ} (h : ∀ i < n, f i = .ok (g i)) :
    (List.range n).mapM f = .ok ((List.range n).map g) := by
  rw [Posterior.mapM_ok_iff]
  rw [List.forall₂_map_right_iff]
  exact List.forall₂_same.2 fun i hi => h i (List.mem_range.1 hi)

theorem KOp.Holds.diag {A : KOp} {m n : ℕ} {K : ℕ → ℕ → ℝ} (h : A.Holds m n K) :
    A.diagonal = .ok ((List.range (min m n)).map fun p => store A.int (K p p)) := by
  rw [KOp.diagonal, h.shape.1, h.shape.2]
  refine mapM_range_ok fun i hi => ?_
  obtain ⟨y, h1, h2, h3⟩ := h.represents.vec ⟨[n], fun idx => if idx.headD 0 = i then 1 else 0⟩ rfl
  have him : i < m := lt_of_lt_of_le hi (min_le_left _ _)
  have hin : i < n := lt_of_lt_of_le hi (min_le_right _ _)
  rw [h1]
  show Except.ok (store A.int (y.get [i])) = _
  rw [h3 i him, sum_eq_single_of_mem i (mem_range.2 hin)]
  · simp
  · intro q _ hq
    simp [hq]

theorem viEntry_at {i : List ℕ} (hi : i.length ≤ 1) (N : ℕ) (x : Arr) (p j : ℕ) (hj : j < i.prod) :
    viEntry (x.withShape (N :: i)) p j = Point.at i (fun k => (x.withShape (N :: i)).get (p :: k)) j := by
  match i, hi with
  | [], _ => rfl
  | [d], _ =>
    have hj' : j < d := by simpa using hj
    rw [viEntry, Point.at, unravel_one d j hj']
    exact if_neg (by simp [Arr.withShape])

theorem viDim_eq {i : List ℕ} (hi : i.length ≤ 1) (N : ℕ) (x : Arr) : viDim (x.withShape (N :: i)) = i.prod := by
  match i, hi with
  | [], _ => rfl
  | [d], _ => rw [viDim, if_neg (by simp [Arr.withShape])]; simp [Arr.withShape]

theorem bget_vi {i : List ℕ} (hi : i.length ≤ 1) {a : Arr} (ha : bshape a.shape i = .ok i) {j : ℕ} (hj : j < i.prod) :
    a.bget [j] = a.bget (unravel i j) := by
  match i, hi with
  | [d], _ => rw [unravel_one d j (by simpa using hj)]
  | [], _ =>
    have : a.shape = [] := by
      rw [bshape_nil] at ha
      exact Except.ok.inj ha
    simp [Arr.bget, this, bir]

theorem sqDistsKeops_ok {i : List ℕ} (hi : i.length ≤ 1) {ls : Arr} (hl : bshape ls.shape i = .ok i) (c : ℝ) {x0 : Inp}
    {x1 : Option Inp} {y0 y1 : Arr} {N M : ℕ} (h0 : x0.arr = y0.withShape (N :: i)) (h1 : (x1.getD x0).arr = y1.withShape (M :: i)) :
    ∃ d, sqDistsKeops (ls.map fun l => c / l) x0 x1 = .ok d ∧ ∀ p q, d p q = c ^ 2 *
      scaledSq i ls (fun k => (y0.withShape (N :: i)).get (p :: k)) (fun k => (y1.withShape (M :: i)).get (q :: k)) := by
  refine ⟨fun p q => ∑ j ∈ range (viDim (y0.withShape (N :: i))), ((viEntry (y0.withShape (N :: i)) p j -
    viEntry (y1.withShape (M :: i)) q j) * (ls.map fun l => c / l).bget [j]) ^ 2, ?_, fun p q => ?_⟩
  · unfold sqDistsKeops
    rw [h0, h1, if_neg]
    simp only [Arr.withShape, List.length_cons]; omega
  · beta_reduce
    rw [viDim_eq hi, ← scaled_sum i ls]
    refine sum_congr rfl fun j hj => ?_
    have hj' := mem_range.1 hj
    rw [viEntry_at hi N y0 p j hj', viEntry_at hi M y1 q j hj',
      bget_vi hi (a := ls.map fun l => c / l) hl hj']
    rfl

theorem Kernel.keops_ok {i : List ℕ} (hi : i.length ≤ 1) (k : Kernel) (hk : k.check i = .ok ()) {x0 : Inp} {x1 : Option Inp}
    {y0 y1 : Arr} {N M : ℕ} (h0 : x0.arr = y0.withShape (N :: i)) (h1 : (x1.getD x0).arr = y1.withShape (M :: i)) :
    ∃ o, k.keops x0 x1 = .ok o ∧ ∀ l, o = some l → ∀ p q, l p q =
      k.value i (fun k => (y0.withShape (N :: i)).get (p :: k)) (fun k => (y1.withShape (M :: i)).get (q :: k)) := by
  cases k with
  | expQuad ls =>
    obtain ⟨d, hd, hv⟩ := sqDistsKeops_ok hi (checkLengthscales_ok hk).2 (Real.sqrt (1 / 2)) h0 h1
    refine ⟨_, by rw [Kernel.keops, hd]; rfl, ?_⟩
    rintro l ⟨⟩ p q
    beta_reduce
    rw [hv, Real.sq_sqrt (by norm_num)]
    simp only [Kernel.value]
    congr 1; ring
  | matern ν ls =>
    obtain ⟨hν, hl⟩ := maternCheck_ok hk
    obtain ⟨d, hd, hv⟩ := sqDistsKeops_ok hi (checkLengthscales_ok hl).2 (Real.sqrt (2 * ν)) h0 h1
    refine ⟨_, by rw [Kernel.keops, hd]; rfl, fun l hl p q => ?_⟩
    beta_reduce at hl
    by_cases hh : ν - 1 / 2 = (⌊ν - 1 / 2⌋₊ : ℕ)
    · rw [if_pos hh] at hl
      obtain rfl := Option.some.inj hl
      have := maternRadial_spec hν (u := Real.sqrt (2 * ν) * Real.sqrt (scaledSq i ls
        (fun k => (y0.withShape (N :: i)).get (p :: k)) (fun k => (y1.withShape (M :: i)).get (q :: k)))) (by positivity)
      rw [maternRadial, if_pos hh] at this
      rw [Kernel.value, ← this]
      beta_reduce
      rw [hv, Real.sqrt_mul (sq_nonneg _), Real.sqrt_sq (Real.sqrt_nonneg _)]
    · rw [if_neg hh] at hl; cases hl
  | _ => exact ⟨none, rfl, by rintro l ⟨⟩⟩

theorem KExpr.keops_ok {i : List ℕ} {avail : Bool} (hi : avail = true → i.length ≤ 1) (e : KExpr) (he : e.Admits i) {x0 : Inp}
    {x1 : Option Inp} {y0 y1 : Arr} {N M : ℕ} (h0 : x0.arr = y0.withShape (N :: i)) (h1 : (x1.getD x0).arr = y1.withShape (M :: i)) :
    ∃ o, e.keops avail x0 x1 = .ok o ∧ ∀ l, o = some l → ∀ p q, l p q =
      e.value (fun k => (y0.withShape (N :: i)).get (p :: k)) (fun k => (y1.withShape (M :: i)).get (q :: k)) := by
  cases e with
  | kernel j k =>
    obtain ⟨rfl, hk, _⟩ := he
    cases avail with
    | false => exact ⟨none, rfl, by rintro l ⟨⟩⟩
    | true => exact k.keops_ok (hi rfl) hk h0 h1
  | _ => exact ⟨none, rfl, by rintro l ⟨⟩⟩

theorem KExpr.shaped {i : List ℕ} {e : KExpr} (he : e.Admits i) : ∃ f, e.make = .ok f ∧ Shaped f i [] [] := by
  have hb : Batch i ⟨⟨i, fun _ => 0⟩, false⟩ none [] := rfl
  obtain ⟨l, _⟩ := KExpr.leaves hb rfl he
  obtain ⟨f, hmk, g⟩ := build_good valOf hb e.toExpr (KExpr.uniform he) l
  exact ⟨f, by rw [KExpr.make_eq he, hmk], g.shaped⟩

theorem library_holds {i : List ℕ} (hi : i.prod ≠ 0) (e : KExpr) (he : e.Admits i) {avail : Bool}
    (hk : avail = true → i.length ≤ 1) {x0 : Inp} {x1 : Option Inp} {b0 b1 : List ℕ}
    (h0 : x0.arr.shape = b0 ++ i) (h1 : (x1.getD x0).arr.shape = b1 ++ i) (hf : x0.int = false) :
    ∃ f A, e.make = .ok f ∧ linop (e.keops avail) f.core x0 x1 = .ok A ∧ A.todense = matrix f.core x0 x1 ∧ A.int = false ∧
      A.Holds b0.prod b1.prod fun p q => e.value (batchPoint b0 x0.arr p) (batchPoint b1 (x1.getD x0).arr q) := by
  obtain ⟨f, m, hf1, hm, hms, hmv⟩ := library_matrix hi e he h0 h1 hf
  obtain ⟨f', hf2, g⟩ := KExpr.shaped he
  obtain rfl : f = f' := Except.ok.inj (hf1.symm.trans hf2)
  have hin := g.inputShape
  have hp0 := preprocess_ok hin h0 hi
  have hagree : ∀ p < b0.prod, ∀ q < b1.prod,
      e.value (fun k => (x0.arr.withShape (b0.prod :: i)).get (p :: k))
        (fun k => ((x1.getD x0).arr.withShape (b1.prod :: i)).get (q :: k))
        = e.value (batchPoint b0 x0.arr p) (batchPoint b1 (x1.getD x0).arr q) := fun p hp q hq =>
    KExpr.value_agree (withShape_point h0 hp) (withShape_point h1 hq) he
  cases x1 with
  | none =>
    have hb : b1 = b0 := List.append_cancel_right (h1.symm.trans h0)
    obtain ⟨o, ho, hov⟩ := KExpr.keops_ok (x0 := ⟨x0.arr.withShape (b0.prod :: i), x0.int⟩) (x1 := none) (y0 := x0.arr)
      (y1 := x0.arr) hk e he rfl rfl
    have hmat : matrix f.core x0 none = evaluateMatrix f.core ⟨x0.arr.withShape (b0.prod :: i), x0.int⟩ none := by
      rw [matrix, g.in0, hp0]; rfl
    refine ⟨f, KOp.mk (f.core.out0.prod * b0.prod) (f.core.out1.prod * b0.prod) (x0.int && x0.int)
      (evaluateMatrix f.core ⟨x0.arr.withShape (b0.prod :: i), x0.int⟩ none) o, hf1, ?_, hmat.symm, ?_,
      ⟨?_, ⟨m, hmat.symm.trans hm, hms, fun p hp q hq => hmv p q hp hq⟩, ?_⟩⟩
    · rw [linop, g.in0, hp0]
      show evaluateLinop _ _ _ _ = _
      rw [evaluateLinop, ho]
      rfl
    · simp [hf]
    · simp [g.out0, g.out1, Arr.withShape, hb]
    · intro l hl p hp q hq
      subst hb
      rw [hov l hl p q]
      exact hagree p hp q hq
  | some x1 =>
    have h1' : x1.arr.shape = b1 ++ i := h1
    have hp1 := preprocess_ok hin h1' hi
    obtain ⟨o, ho, hov⟩ := KExpr.keops_ok (x0 := ⟨x0.arr.withShape (b0.prod :: i), x0.int⟩)
      (x1 := some ⟨x1.arr.withShape (b1.prod :: i), x1.int⟩) (y0 := x0.arr) (y1 := x1.arr) hk e he rfl rfl
    have hmat : matrix f.core x0 (some x1) = evaluateMatrix f.core ⟨x0.arr.withShape (b0.prod :: i), x0.int⟩
        (some ⟨x1.arr.withShape (b1.prod :: i), x1.int⟩) := by
      rw [matrix, g.in0, hp0]
      show (preprocess f.core f.core.in1 x1).bind _ = _
      rw [g.in1, hp1]; rfl
    refine ⟨f, KOp.mk (f.core.out0.prod * b0.prod) (f.core.out1.prod * b1.prod) (x0.int && x1.int)
      (evaluateMatrix f.core ⟨x0.arr.withShape (b0.prod :: i), x0.int⟩ (some ⟨x1.arr.withShape (b1.prod :: i), x1.int⟩)) o,
      hf1, ?_, hmat.symm, ?_, ⟨?_, ⟨m, hmat.symm.trans hm, hms, fun p hp q hq => hmv p q hp hq⟩, ?_⟩⟩
    · rw [linop, g.in0, hp0]
      show (preprocess f.core f.core.in1 x1).bind _ = _
      rw [g.in1, hp1]
      show evaluateLinop _ _ _ _ = _
      rw [evaluateLinop, ho]
      rfl
    · simp [hf]
    · simp [g.out0, g.out1, Arr.withShape]
    · intro l hl p hp q hq
      rw [hov l hl p q]
      exact hagree p hp q hq

/-! ## Theorems -/

/-- **C89.** `linop(x0, x1)` of every expression in the library's covariance functions, at all batches of float points, with
and without KeOps (which supports inputs with at most one axis): an operator that behaves as the matrix of the documented
values, whose dense form is what `matrix(x0, x1)` returns, whose transpose behaves as the transposed matrix (and the
transpose of that as the matrix again), and with the diagonal and, if it is square, the trace of the matrix. -/
theorem library_linop {i : List ℕ} (hi : i.prod ≠ 0) (e : KExpr) (he : e.Admits i) (avail : Bool)
    (hk : avail = true → i.length ≤ 1) {x0 : Inp} {x1 : Option Inp} {b0 b1 : List ℕ}
    (h0 : x0.arr.shape = b0 ++ i) (h1 : (x1.getD x0).arr.shape = b1 ++ i) (hf : x0.int = false) :
    let K p q := e.value (batchPoint b0 x0.arr p) (batchPoint b1 (x1.getD x0).arr q)
    ∃ f A, e.make = .ok f ∧ linop (e.keops avail) f.core x0 x1 = .ok A ∧ A.todense = matrix f.core x0 x1 ∧
      Represents A b0.prod b1.prod K ∧ Represents A.transpose b1.prod b0.prod (fun p q => K q p) ∧
      Represents A.transpose.transpose b0.prod b1.prod K ∧
      A.diagonal = .ok ((List.range (min b0.prod b1.prod)).map fun p => K p p) ∧
      (b0.prod = b1.prod → A.trace = .ok (∑ p ∈ range b0.prod, K p p)) ∧
      (b0.prod ≠ b1.prod → A.trace = .error .linAlgError) := by
  intro K
  obtain ⟨f, A, h2, h3, h4, h5, h6⟩ := library_holds hi e he hk h0 h1 hf
  have hd : A.diagonal = .ok ((List.range (min b0.prod b1.prod)).map fun p => K p p) := by
    rw [h6.diag, h5]; rfl
  refine ⟨f, A, h2, h3, h4, h6.represents, h6.transpose.represents, h6.transpose.transpose.represents, hd, ?_, ?_⟩
  · intro h
    rw [KOp.trace, h6.shape.1, h6.shape.2, if_neg (by simpa using h), hd, ← h, min_self]
    show Except.ok _ = _
    rw [sum_map_range]
  · intro h
    rw [KOp.trace, h6.shape.1, h6.shape.2, if_pos h]

/-- Matérn-3/2 at the points 1 and 3, with KeOps. -/
example : ∃ f A, (KExpr.kernel [] (.matern (3 / 2) ⟨[], fun _ => 1⟩)).make = .ok f ∧
    linop (KExpr.keops true (.kernel [] (.matern (3 / 2) ⟨[], fun _ => 1⟩))) f.core twoPoints none = .ok A ∧
    A.todense = matrix f.core twoPoints none := by
  obtain ⟨f, A, h1, h2, h3, -⟩ := library_linop (i := []) (by decide) (.kernel [] (.matern (3 / 2) ⟨[], fun _ => 1⟩))
    ⟨rfl, by rw [Kernel.check, if_neg (by norm_num)]; exact unit_lengthscale [], trivial⟩ true (fun _ => by simp)
    (x0 := twoPoints) (x1 := none) (b0 := [2]) (b1 := [2]) rfl rfl rfl
  exact ⟨f, A, h1, h2, h3⟩

/-- Inputs whose trailing axes are not the input shape are rejected with ValueError. -/
theorem linop_rejects {i : List ℕ} (e : KExpr) (he : e.Admits i) (avail : Bool) {x0 : Inp} {x1 : Option Inp}
    (h : (¬∃ b, x0.arr.shape = b ++ i) ∨
      ((∃ b, x0.arr.shape = b ++ i) ∧ i.prod ≠ 0 ∧ ∃ y1, x1 = some y1 ∧ ¬∃ b, y1.arr.shape = b ++ i)) :
    ∃ f, e.make = .ok f ∧ linop (e.keops avail) f.core x0 x1 = .error .valueError := by
  obtain ⟨f, hf, g⟩ := KExpr.shaped he
  have bad : ∀ x : Inp, (¬∃ b, x.arr.shape = b ++ i) → preprocess f.core i x = .error .valueError := by
    intro x hx
    rw [preprocess, if_pos]
    by_contra hc
    rw [not_or, not_not, sliceFrom_eq_iff] at hc
    exact hx hc.2
  refine ⟨f, hf, ?_⟩
  rcases h with h | ⟨⟨b, hb⟩, hi, y1, rfl, h⟩
  · rw [linop, g.in0, bad x0 h]; rfl
  · rw [linop, g.in0, preprocess_ok g.inputShape hb hi]
    show (preprocess f.core f.core.in1 y1).bind _ = _
    rw [g.in1, bad y1 h]; rfl

/-- With KeOps, operators of exponentiated quadratic and Matérn covariance functions whose inputs have two axes or more cannot be made:
ValueError, although `matrix` works.  (Without KeOps there is no such restriction, see `library_linop`.) -/
theorem keops_rejects_arrays {i : List ℕ} (hi : i.prod ≠ 0) (h2 : 2 ≤ i.length) (k : Kernel) (hk : ∃ ls, k = .expQuad ls ∨ ∃ ν, k = .matern ν ls)
    (he : (KExpr.kernel i k).Admits i) {x0 : Inp} {b0 : List ℕ} (h0 : x0.arr.shape = b0 ++ i) :
    ∃ f, (KExpr.kernel i k).make = .ok f ∧ linop ((KExpr.kernel i k).keops true) f.core x0 none = .error .valueError := by
  obtain ⟨f, hf, g⟩ := KExpr.shaped he
  refine ⟨f, hf, ?_⟩
  rw [linop, g.in0, preprocess_ok g.inputShape h0 hi]
  have hlen : ∀ sc : Arr, sqDistsKeops sc ⟨x0.arr.withShape (b0.prod :: i), x0.int⟩ none = .error .valueError := by
    intro sc
    rw [sqDistsKeops, if_pos]
    left
    show 2 < (b0.prod :: i).length
    rw [List.length_cons]
    omega
  obtain ⟨ls, rfl | ⟨ν, rfl⟩⟩ := hk
  all_goals
    show (Except.bind (KExpr.keops true _ _ none) _) = _
    simp only [KExpr.keops, if_true, Kernel.keops, hlen]
    rfl

/-- An exponentiated quadratic covariance function of 1 × 2 matrices. -/
example : ∃ f, (KExpr.kernel [1, 2] (.expQuad ⟨[], fun _ => 1⟩)).make = .ok f ∧
    linop ((KExpr.kernel [1, 2] (.expQuad ⟨[], fun _ => 1⟩)).keops true) f.core ⟨⟨[3, 1, 2], fun _ => 0⟩, false⟩ none = .error .valueError :=
  keops_rejects_arrays (by decide) (by decide) _ ⟨_, .inl rfl⟩ ⟨rfl, unit_lengthscale [1, 2], trivial⟩ (b0 := [3]) rfl

/-- For proper parameters the operator of a batch with itself is symmetric, and `v @ (A @ v)` is never negative. -/
theorem linop_psd {i : List ℕ} (hi : i.prod ≠ 0) (e : KExpr) (he : e.Admits i) (hp : e.Proper) (avail : Bool)
    (hk : avail = true → i.length ≤ 1) {x : Inp} {b : List ℕ} (hx : x.arr.shape = b ++ i) (hf : x.int = false) :
    ∃ f A, e.make = .ok f ∧ linop (e.keops avail) f.core x none = .ok A ∧
      ∀ v : Arr, v.shape = [b.prod] → ∃ y z, A.apply v = .ok y ∧ A.transpose.apply v = .ok z ∧
        (∀ p < b.prod, z.get [p] = y.get [p]) ∧ 0 ≤ ∑ p ∈ range b.prod, v.get [p] * y.get [p] := by
  obtain ⟨f, A, h1, h2, -, h4, h5, -⟩ := library_linop hi e he avail hk (x1 := none) hx hx hf
  refine ⟨f, A, h1, h2, fun v hv => ?_⟩
  obtain ⟨y, hy, -, hyv⟩ := h4.vec v hv
  obtain ⟨z, hz, -, hzv⟩ := h5.vec v hv
  have hpsd := KExpr.value_psd he hp b.prod fun p => batchPoint b x.arr p
  refine ⟨y, z, hy, hz, fun p hp => ?_, ?_⟩
  · rw [hyv p hp, hzv p hp]
    refine sum_congr rfl fun q hq => ?_
    have := hpsd.1.apply ⟨p, hp⟩ ⟨q, mem_range.1 hq⟩
    simp only [star_trivial, Matrix.of_apply] at this
    exact congrArg (· * v.get [q]) this
  · have := hpsd.dotProduct_mulVec_nonneg fun p => v.get [p]
    rw [sum_range fun p => v.get [p] * y.get [p]]
    refine this.trans_eq ?_
    rw [dotProduct]
    refine sum_congr rfl fun p _ => ?_
    rw [hyv p p.2, sum_range fun q => _ * v.get [q], Matrix.mulVec, dotProduct]
    rfl

example : ∃ f A, exampleTree.make = .ok f ∧ linop (exampleTree.keops true) f.core twoPoints none = .ok A ∧
    ∀ v : Arr, v.shape = [2] → ∃ y z, A.apply v = .ok y ∧ A.transpose.apply v = .ok z ∧
      (∀ p < 2, z.get [p] = y.get [p]) ∧ 0 ≤ ∑ p ∈ range 2, v.get [p] * y.get [p] :=
  linop_psd (i := []) (by decide) exampleTree exampleTree_admits exampleTree_proper true (fun _ => by simp) (b := [2]) rfl rfl

/-- The witness: one integer point. -/
def intPoint : Inp := ⟨⟨[1], fun _ => 1⟩, true⟩

/-- The operator has the data type of the inputs, not of the values, and `diagonal()` stores the values in an array of that
type.  At the integer point 1 the linear covariance function with constant 1/2 has the matrix `[[3/2]]`, but the diagonal
and the trace of the operator are 1. -/
theorem linop_diagonal_truncated : ∃ f A M, (KExpr.kernel [] (.linear (1 / 2))).make = .ok f ∧
    linop (KExpr.keops false (.kernel [] (.linear (1 / 2)))) f.core intPoint none = .ok A ∧
    A.todense = .ok M ∧ matrix f.core intPoint none = .ok M ∧ M.shape = [1, 1] ∧ M.get [0, 0] = 3 / 2 ∧
    A.diagonal = .ok [1] ∧ A.trace = .ok 1 := by
  obtain ⟨f, m, h1, h2, h3, h4⟩ := library_matrix (i := []) (by decide) (.kernel [] (.linear (1 / 2))) ⟨rfl, rfl, by simp [Kernel.Supports]⟩
    (x0 := ⟨⟨[1], fun _ => 1⟩, false⟩) (x1 := none) (b0 := [1]) (b1 := [1]) rfl rfl rfl
  obtain rfl : mkCov [] [] [] [] (linearEval [] (1 / 2)) = f := Except.ok.inj h1
  have h2' : matrix (mkCov [] [] [] [] (linearEval [] (1 / 2))).core intPoint none = .ok m := h2
  have hp : preprocess (mkCov [] [] [] [] (linearEval [] (1 / 2))).core [] intPoint = .ok ⟨intPoint.arr.withShape [1], true⟩ :=
    preprocess_ok (b := [1]) rfl rfl (by decide)
  have he : evaluateMatrix (mkCov [] [] [] [] (linearEval [] (1 / 2))).core ⟨intPoint.arr.withShape [1], true⟩ none = .ok m := by
    rw [matrix] at h2'
    rw [show (mkCov [] [] [] [] (linearEval [] (1 / 2))).core.in0 = [] from rfl, hp] at h2'
    exact h2'
  have hv : m.get [0, 0] = 3 / 2 := by
    rw [h4 0 0 (by decide) (by decide)]
    simp [KExpr.value, Kernel.value, Point.at, batchPoint]
    norm_num
  have hH : KOp.Holds ⟨1, 1, true, .ok m, none⟩ 1 1 fun _ _ => 3 / 2 :=
    ⟨⟨rfl, rfl⟩, ⟨m, rfl, h3, fun p hp q hq => by
      obtain rfl : p = 0 := by omega
      obtain rfl : q = 0 := by omega
      exact hv⟩, by rintro l ⟨⟩⟩
  have hs : store true (3 / 2) = 1 := by
    rw [store, if_pos rfl, if_pos (by norm_num), Int.floor_eq_iff.2 (by norm_num : ((1 : ℤ) : ℝ) ≤ 3 / 2 ∧ (3 / 2 : ℝ) < (1 : ℤ) + 1)]
    norm_num
  have hd := hH.diag
  simp only [hs] at hd
  refine ⟨_, ⟨1, 1, true, .ok m, none⟩, m, h1, ?_, rfl, h2', h3, hv, hd, ?_⟩
  · rw [linop, show (mkCov [] [] [] [] (linearEval [] (1 / 2))).core.in0 = [] from rfl, hp]
    simp only [Except.bind, evaluateLinop, he, KExpr.keops]
    rfl
  · rw [KOp.trace, if_neg (by simp), hd]
    simp [Except.map]

end Probnum.Cov
