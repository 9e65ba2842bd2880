import Verif.Cov.Psd
import Verif.Cov.MatrixLemmas
import Mathlib.Data.Matrix.Basic

/-!
# C45: covariance matrices are symmetric positive semidefinite
-/

namespace Probnum.Cov

open Finset RandVars Functions

/-- The smoothness parameter is a half-integer. -/
def HalfInteger (ν : ℝ) : Prop := ∃ p : ℕ, ν = p + 1 / 2

/-- Parameters for which the documented formula is a covariance function (beyond what the constructors check), and a
smoothness for which the closed form is used. -/
def Kernel.Proper : Kernel → Prop
  | .linear c => 0 ≤ c
  | .polynomial c _ => 0 ≤ c
  | .expQuad _ => True
  | .ratQuad _ _ => True
  | .whiteNoise _ => True
  | .matern ν _ => HalfInteger ν
  | .productMatern ms => ∀ m ∈ ms, HalfInteger m.1

/-- All covariance functions in the expression have proper parameters and all scalars are nonnegative. -/
def KExpr.Proper : KExpr → Prop
  | .kernel _ k => k.Proper
  | .add a b => a.Proper ∧ b.Proper
  | .mul a b => a.Proper ∧ b.Proper
  | .scale c a => 0 ≤ c ∧ a.Proper

/-! ## Entries of the matrix -/

theorem Kernel.value_agree {i : List ℕ} (k : Kernel) {x x' y y' : Point} (hx : Agree i x x') (hy : Agree i y y') :
    k.value i x y = k.value i x' y' := by
  have h1 : ∑ j ∈ range i.prod, x.at i j * y.at i j = ∑ j ∈ range i.prod, x'.at i j * y'.at i j :=
    sum_congr rfl fun j hj => by rw [hx.at (mem_range.mp hj), hy.at (mem_range.mp hj)]
  have h2 : ∀ ls, scaledSq i ls x y = scaledSq i ls x' y' := fun ls =>
    sum_congr rfl fun j hj => by rw [hx.at (mem_range.mp hj), hy.at (mem_range.mp hj)]
  have h3 : ∑ j ∈ range i.prod, (x.at i j - y.at i j) ^ 2 = ∑ j ∈ range i.prod, (x'.at i j - y'.at i j) ^ 2 :=
    sum_congr rfl fun j hj => by rw [hx.at (mem_range.mp hj), hy.at (mem_range.mp hj)]
  cases k with
  | linear c => simp only [Kernel.value, h1]
  | polynomial c q => simp only [Kernel.value, h1]
  | expQuad ls => simp only [Kernel.value, h2]
  | ratQuad l α => simp only [Kernel.value, h3]
  | whiteNoise σ2 =>
    simp only [Kernel.value]
    have : (∀ j < i.prod, x.at i j = y.at i j) ↔ ∀ j < i.prod, x'.at i j = y'.at i j :=
      forall₂_congr fun j hj => by rw [hx.at hj, hy.at hj]
    simp only [this]
  | matern ν ls => simp only [Kernel.value, h2]
  | productMatern ms =>
    exact prod_congr rfl fun j hj => by rw [hx.at (mem_range.mp hj), hy.at (mem_range.mp hj)]

theorem KExpr.value_agree {i : List ℕ} {x x' y y' : Point} (hx : Agree i x x') (hy : Agree i y y') :
    ∀ {e : KExpr}, e.Admits i → e.value x y = e.value x' y'
  | .kernel j k, h => by obtain ⟨rfl, _⟩ := h; exact k.value_agree hx hy
  | .add a b, h => by simp only [KExpr.value]; rw [KExpr.value_agree hx hy h.1, KExpr.value_agree hx hy h.2]
  | .mul a b, h => by simp only [KExpr.value]; rw [KExpr.value_agree hx hy h.1, KExpr.value_agree hx hy h.2]
  | .scale c a, h => by simp only [KExpr.value]; rw [KExpr.value_agree (e := a) hx hy h]

/-- `matrix(x0, x1)` of every expression, at all batches of float points: the entry in row `p` and column `q` is the
documented value at point `p` of `x0` and point `q` of `x1` (counted in C order); without `x1`, of `x0`. -/
theorem library_matrix {i : List ℕ} (hi : i.prod ≠ 0) (e : KExpr) (he : e.Admits i) {x0 : Inp} {x1 : Option Inp} {b0 b1 : List ℕ}
    (h0 : x0.arr.shape = b0 ++ i) (h1 : (x1.getD x0).arr.shape = b1 ++ i) (hf : x0.int = false) :
    ∃ f m, e.make = .ok f ∧ matrix f.core x0 x1 = .ok m ∧ m.shape = [b0.prod, b1.prod] ∧
      ∀ p q, p < b0.prod → q < b1.prod → m.get [p, q] = e.value (batchPoint b0 x0.arr p) (batchPoint b1 (x1.getD x0).arr q) := by
  have hb := outer_batch (i := i) (N := b0.prod) (M := b1.prod) (x := x0.arr.withShape (b0.prod :: i))
    (y := (x1.getD x0).arr.withShape (b1.prod :: i)) rfl rfl x0.int (x1.getD x0).int
  obtain ⟨l, v⟩ := KExpr.leaves hb hf he
  obtain ⟨f, hmk, g⟩ := build_good valOf hb e.toExpr (KExpr.uniform he) l
  obtain ⟨c, hc, hcs, hcv⟩ := g.comp
  have hin : f.core.inputShape = .ok i := g.shaped.inputShape
  have ho0 : f.core.out0 = [] := g.shaped.out0
  have ho1 : f.core.out1 = [] := g.shaped.out1
  have key : ∃ m, matrix f.core x0 x1 = .ok m ∧ m.shape = [f.core.out0.prod * b0.prod, f.core.out1.prod * b1.prod] ∧
      ∀ a d p q, Valid f.core.out0 a → Valid f.core.out1 d → p < b0.prod → q < b1.prod →
        m.get [ravel f.core.out0 a * b0.prod + p, ravel f.core.out1 d * b1.prod + q] = c.get (p :: q :: (a ++ d)) := by
    have hcs' : c.shape = b0.prod :: b1.prod :: (f.core.out0 ++ f.core.out1) := by rw [hcs, ho0, ho1]; rfl
    cases x1 with
    | none =>
      have h0' : b1.prod = b0.prod := by
        have h : b0 ++ i = b1 ++ i := by rw [← h0, ← h1]; rfl
        rw [List.append_cancel_right h]
      have hc' : f.core.call ⟨insertAxis (x0.arr.withShape (b0.prod :: i)), x0.int⟩
          (some ⟨(x0.arr.withShape (b0.prod :: i)).asRow, x0.int⟩) = .ok c := by rw [h0'] at hc; exact hc
      obtain ⟨m, hm, hms, hmv⟩ := evaluateMatrix_ok (k := f.core) (x0 := ⟨x0.arr.withShape (b0.prod :: i), x0.int⟩) (x1 := none) hc' hcs'
      refine ⟨m, ?_, hms, hmv⟩
      rw [matrix, g.shaped.in0, preprocess_ok hin h0 hi]
      exact hm
    | some x1 =>
      obtain ⟨m, hm, hms, hmv⟩ := evaluateMatrix_ok (k := f.core) (x0 := ⟨x0.arr.withShape (b0.prod :: i), x0.int⟩)
        (x1 := some ⟨x1.arr.withShape (b1.prod :: i), x1.int⟩) hc hcs'
      refine ⟨m, ?_, hms, hmv⟩
      rw [matrix, g.shaped.in0, preprocess_ok hin h0 hi]
      show (preprocess f.core f.core.in1 x1).bind _ = _
      rw [g.shaped.in1, preprocess_ok (x := x1) hin h1 hi]
      exact hm
  obtain ⟨m, hm, hms, hmv⟩ := key
  rw [ho0, ho1] at hms
  refine ⟨f, m, by rw [KExpr.make_eq he, hmk], hm, by simpa using hms, fun p q hp hq => ?_⟩
  have := hmv [] [] p q (by rw [ho0]; exact List.Forall₂.nil) (by rw [ho1]; exact List.Forall₂.nil) hp hq
  have hv : Valid [b0.prod, b1.prod] [p, q] := List.Forall₂.cons hp (List.Forall₂.cons hq List.Forall₂.nil)
  rw [ho0, ho1, show ravel [] [] = 0 from rfl, zero_mul, zero_mul, zero_add, zero_add] at this
  rw [this]
  show c.get [p, q] = _
  rw [hcv [p, q] (by simpa using hv), v [p, q] hv]
  show e.value (pointAt i (insertAxis (x0.arr.withShape (b0.prod :: i))) [p, q])
    (pointAt i ((x1.getD x0).arr.withShape (b1.prod :: i)).asRow [p, q]) = _
  rw [pointAt_insert (i := i) (N := b0.prod) (x := x0.arr.withShape (b0.prod :: i)) rfl hp q,
    pointAt_asRow (i := i) (M := b1.prod) (y := (x1.getD x0).arr.withShape (b1.prod :: i)) rfl hq p]
  exact KExpr.value_agree (withShape_point h0 hp) (withShape_point h1 hq) he

/-! ## Positive semidefiniteness -/

theorem HalfInteger.spec {ν : ℝ} (h : HalfInteger ν) (u : ℝ) : maternSpec ν u = maternDoc ν u := by
  obtain ⟨p, rfl⟩ := h
  rw [maternSpec, if_pos]
  rw [add_sub_cancel_right, Nat.floor_natCast]

theorem scaledSq_eq (i : List ℕ) (ls : Arr) (x y : Point) :
    scaledSq i ls x y = ∑ j ∈ range i.prod, (x.at i j / scaleAt i ls j - y.at i j / scaleAt i ls j) ^ 2 :=
  sum_congr rfl fun j _ => by rw [sub_div]

/-- The documented formulas are covariance functions. -/
theorem Kernel.value_psd {i : List ℕ} (k : Kernel) (hk : k.check i = .ok ()) (hs : k.Supports i) (hp : k.Proper) :
    IsPSD (k.value i) := by
  have hlin : ∀ c : ℝ, 0 ≤ c → IsPSD fun x y : Point => (∑ j ∈ range i.prod, x.at i j * y.at i j) + c := by
    intro c hc
    have h1 : ∀ j, IsPSD fun x y : Point => x.at i j * y.at i j := fun j => IsPSD.rankOne fun x : Point => x.at i j
    have h2 : IsPSD fun x y : Point => ∑ j ∈ range i.prod, x.at i j * y.at i j :=
      IsPSD.sum (k := fun j (x y : Point) => x.at i j * y.at i j) h1 i.prod
    exact h2.add (IsPSD.const hc)
  cases k with
  | linear c => exact hlin c hp
  | polynomial c q => exact (hlin c hp).pow q
  | expQuad ls =>
    refine (IsPSD.gaussian (g := 1 / 2) (by norm_num) (fun j (x : Point) => x.at i j / scaleAt i ls j) i.prod).congr fun x y => ?_
    rw [Kernel.value, scaledSq_eq]
    congr 1; ring
  | ratQuad l α =>
    have hα : 0 < α := by
      simp only [Kernel.check] at hk
      by_contra h
      rw [if_neg h] at hk
      cases hk
    refine (IsPSD.ratQuad (g := 1 / (2 * α * l ^ 2)) (by positivity) hα (fun j (x : Point) => x.at i j) i.prod).congr fun x y => ?_
    rw [Kernel.value]
    congr 2; ring
  | whiteNoise σ2 =>
    have hσ : 0 ≤ σ2 := by
      simp only [Kernel.check] at hk
      by_contra h
      rw [if_pos (not_le.mp h)] at hk
      cases hk
    refine (IsPSD.whiteNoise hσ fun (x : Point) (j : Fin i.prod) => x.at i j).congr fun x y => ?_
    rw [Kernel.value]
    have : (∀ j < i.prod, x.at i j = y.at i j) ↔ (fun j : Fin i.prod => x.at i j) = fun j : Fin i.prod => y.at i j :=
      ⟨fun h => funext fun j => h j j.2, fun h j hj => congrFun h ⟨j, hj⟩⟩
    by_cases h : ∀ j < i.prod, x.at i j = y.at i j
    · rw [if_pos h, if_pos (this.mp h)]
    · rw [if_neg h, if_neg fun h' => h (this.mpr h')]
  | matern ν ls =>
    obtain ⟨hν, _⟩ := maternCheck_ok hk
    refine (IsPSD.matern hν (Real.sqrt_nonneg (2 * ν)) (fun j (x : Point) => x.at i j / scaleAt i ls j) i.prod).congr fun x y => ?_
    rw [Kernel.value, HalfInteger.spec hp, scaledSq_eq]
  | productMatern ms =>
    obtain ⟨hlen, hpos⟩ := productCheck_ok hk
    have hN : (if i = [] then 1 else i.headD 0) = i.prod := by
      match i, hs.1 with
      | [], _ => rfl
      | [n], _ => simp
    rw [hN] at hlen hpos
    have hj : ∀ j < i.prod, IsPSD fun x y : Point => maternSpec (ms.getD j (1, 1)).1
        (Real.sqrt (2 * (ms.getD j (1, 1)).1) * (|x.at i j - y.at i j| / (ms.getD j (1, 1)).2)) := by
      intro j hj
      have hjl : j < ms.length := by omega
      have hg : ms.getD j (1, 1) = ms[j] := by simp [List.getD_eq_getElem?_getD, hjl]
      have hmem : ms[j] ∈ ms.take i.prod := by
        rw [List.mem_take_iff_getElem]
        exact ⟨j, by omega, rfl⟩
      have h0 := hpos _ hmem
      rw [hg]
      generalize hm : ms[j] = m at h0
      have hhalf : HalfInteger m.1 := hm ▸ hp _ (List.getElem_mem hjl)
      refine (IsPSD.matern h0.1 (Real.sqrt_nonneg (2 * m.1)) (fun _ (x : Point) => x.at i j / m.2) 1).congr fun x y => ?_
      rw [HalfInteger.spec hhalf, sum_range_one, Real.sqrt_sq_eq_abs, ← sub_div, abs_div, abs_of_pos h0.2]
    exact IsPSD.prod hj

theorem KExpr.value_psd {i : List ℕ} : ∀ {e : KExpr}, e.Admits i → e.Proper → IsPSD e.value
  | .kernel j k, h, hp => by obtain ⟨rfl, hk, hs⟩ := h; exact k.value_psd hk hs hp
  | .add a b, h, hp => (KExpr.value_psd h.1 hp.1).add (KExpr.value_psd h.2 hp.2)
  | .mul a b, h, hp => (KExpr.value_psd h.1 hp.1).mul (KExpr.value_psd h.2 hp.2)
  | .scale c a, h, hp => (KExpr.value_psd (e := a) h hp.2).smul hp.1

/-- The covariance matrix of every expression with proper parameters, at every batch of float points, is symmetric
positive semidefinite.  Missing: Matérn covariance functions whose smoothness is not a half-integer, see
`matern_bessel_not_psd`. -/
theorem matrix_psd_partial {i : List ℕ} (hi : i.prod ≠ 0) (e : KExpr) (he : e.Admits i) (hp : e.Proper) {x : Inp} {b : List ℕ}
    (hx : x.arr.shape = b ++ i) (hf : x.int = false) :
    ∃ f m, e.make = .ok f ∧ matrix f.core x none = .ok m ∧ m.shape = [b.prod, b.prod] ∧
      (Matrix.of fun p q : Fin b.prod => m.get [p, q]).PosSemidef := by
  obtain ⟨f, m, h1, h2, h3, h4⟩ := library_matrix hi e he (x1 := none) hx hx hf
  refine ⟨f, m, h1, h2, h3, ?_⟩
  have := KExpr.value_psd he hp b.prod fun p => batchPoint b x.arr p
  convert this using 1
  ext p q
  exact h4 p q p.2 q.2

theorem exampleTree_proper : exampleTree.Proper := ⟨⟨by norm_num, le_rfl, trivial⟩, trivial⟩

example : ∃ f m, exampleTree.make = .ok f ∧ matrix f.core twoPoints none = .ok m ∧ m.shape = [2, 2] ∧
    (Matrix.of fun p q : Fin 2 => m.get [p, q]).PosSemidef :=
  matrix_psd_partial (i := []) (by simp) exampleTree exampleTree_admits exampleTree_proper (x := twoPoints) (b := [2]) rfl rfl

/-! ## What is not covered -/

/-- Three points on a line, at steps of `h`. -/
def threePoints (h : ℝ) : Inp := ⟨⟨[3], fun idx => h * (idx.headD 0 : ℕ)⟩, false⟩

/-- With a smoothness that is not a half-integer, distances below machine precision are replaced by it.  So at three
points that are close enough the covariance matrix is not positive semidefinite, for every such smoothness. -/
theorem matern_bessel_not_psd {ν : ℝ} (hν : 0 < ν) (hh : ¬HalfInteger ν) :
    ∃ h f m, (Kernel.matern ν ⟨[], fun _ => 1⟩).make [] = .ok f ∧ matrix f.core (threePoints h) none = .ok m ∧ m.shape = [3, 3] ∧
      ¬(Matrix.of fun p q : Fin 3 => m.get [p, q]).PosSemidef := by
  have heps : 0 < machineEps := by unfold machineEps; positivity
  have hs : 0 < Real.sqrt (2 * ν) := Real.sqrt_pos.mpr (by positivity)
  have hcheck : (Kernel.matern ν ⟨[], fun _ => 1⟩).check [] = .ok () := by
    rw [Kernel.check, if_neg (not_le.mpr hν)]
    exact unit_lengthscale []
  have hsp : ∀ u, maternSpec ν u = maternDoc ν (max u machineEps) := fun u => by
    rw [maternSpec, if_neg fun h => hh ⟨⌊ν - 1 / 2⌋₊, by rw [← h]; ring⟩]
  obtain ⟨f, m, h1, h2, h3, h4⟩ := library_matrix (i := []) (by simp) (.kernel [] (.matern ν ⟨[], fun _ => 1⟩))
    ⟨rfl, hcheck, trivial⟩ (x0 := threePoints (3 / 4 * machineEps / Real.sqrt (2 * ν))) (x1 := none) (b0 := [3]) (b1 := [3]) rfl rfl rfl
  refine ⟨3 / 4 * machineEps / Real.sqrt (2 * ν), f, m, h1, h2, h3, fun hpsd => ?_⟩
  have hval : ∀ p q, p < 3 → q < 3 → m.get [p, q] = maternDoc ν (max (|(p : ℝ) - q| * (3 / 4 * machineEps)) machineEps) := by
    intro p q hp hq
    rw [h4 p q (by simpa using hp) (by simpa using hq)]
    show maternSpec ν (Real.sqrt (2 * ν) * Real.sqrt (scaledSq [] _ _ _)) = _
    rw [scaledSq_nil one_pos, hsp]
    have e : ∀ r, r < 3 → batchPoint [3] (threePoints (3 / 4 * machineEps / Real.sqrt (2 * ν))).arr r [] =
        3 / 4 * machineEps / Real.sqrt (2 * ν) * r := fun r hr => by
      show 3 / 4 * machineEps / Real.sqrt (2 * ν) * (((unravel [3] r ++ []).headD 0 : ℕ) : ℝ) = _
      rw [unravel_one 3 r hr]; rfl
    show maternDoc ν (max (Real.sqrt (2 * ν) * (|batchPoint [3] _ p [] - batchPoint [3] _ q []| / 1)) machineEps) = _
    rw [Option.getD_none, e p hp, e q hq, ← mul_sub, abs_mul, abs_of_pos (by positivity), div_one]
    congr 2
    field_simp
  have hab := maternDoc_lt hν heps.le (show machineEps < 2 * (3 / 4 * machineEps) by linarith)
  have hsame : ∀ d : ℝ, d ≤ 1 → max (d * (3 / 4 * machineEps)) machineEps = machineEps := fun d hd =>
    max_eq_right (by nlinarith)
  have hfar : max (2 * (3 / 4 * machineEps)) machineEps = 2 * (3 / 4 * machineEps) := max_eq_left (by linarith)
  have hq := hpsd.dotProduct_mulVec_nonneg ![1, -2, 1]
  simp only [dotProduct, Matrix.mulVec, Fin.sum_univ_three, Matrix.of_apply, Pi.star_apply, star_trivial, Matrix.cons_val_zero,
    Matrix.cons_val_one, Matrix.cons_val_two, Matrix.head_cons, Matrix.tail_cons, Fin.val_zero, Fin.val_one, Fin.val_two] at hq
  rw [hval 0 0 (by norm_num) (by norm_num), hval 0 1 (by norm_num) (by norm_num), hval 0 2 (by norm_num) (by norm_num),
    hval 1 0 (by norm_num) (by norm_num), hval 1 1 (by norm_num) (by norm_num), hval 1 2 (by norm_num) (by norm_num),
    hval 2 0 (by norm_num) (by norm_num), hval 2 1 (by norm_num) (by norm_num), hval 2 2 (by norm_num) (by norm_num)] at hq
  have n2 : |((0 : ℕ) : ℝ) - (2 : ℕ)| = 2 := by norm_num
  have n2' : |((2 : ℕ) : ℝ) - (0 : ℕ)| = 2 := by norm_num
  rw [n2, n2', hfar, hsame |((0 : ℕ) : ℝ) - (0 : ℕ)| (by norm_num), hsame |((0 : ℕ) : ℝ) - (1 : ℕ)| (by norm_num),
    hsame |((1 : ℕ) : ℝ) - (0 : ℕ)| (by norm_num), hsame |((1 : ℕ) : ℝ) - (1 : ℕ)| (by norm_num),
    hsame |((1 : ℕ) : ℝ) - (2 : ℕ)| (by norm_num), hsame |((2 : ℕ) : ℝ) - (1 : ℕ)| (by norm_num),
    hsame |((2 : ℕ) : ℝ) - (2 : ℕ)| (by norm_num)] at hq
  linarith

example : ∃ h f m, (Kernel.matern (1 / 3) ⟨[], fun _ => 1⟩).make [] = .ok f ∧ matrix f.core (threePoints h) none = .ok m ∧
    m.shape = [3, 3] ∧ ¬(Matrix.of fun p q : Fin 3 => m.get [p, q]).PosSemidef := by
  refine matern_bessel_not_psd (by norm_num) ?_
  rintro ⟨p, hp⟩
  have : (2 : ℝ) = ((6 * p + 3 : ℕ) : ℝ) := by push_cast; linarith
  have : 2 = 6 * p + 3 := by exact_mod_cast this
  omega

/-- The documented Matérn covariance function itself is positive semidefinite, for every smoothness. -/
theorem matern_documented_psd {ν : ℝ} (hν : 0 < ν) (i : List ℕ) (ls : Arr) :
    IsPSD fun x y : Point => maternDoc ν (Real.sqrt (2 * ν) * Real.sqrt (scaledSq i ls x y)) :=
  (IsPSD.matern hν (Real.sqrt_nonneg (2 * ν)) (fun j (x : Point) => x.at i j / scaleAt i ls j) i.prod).congr fun x y => by
    rw [scaledSq_eq]

/-- The closed form used for half-integer smoothness is the documented formula with the Bessel function. -/
theorem matern_closed_form (p : ℕ) {u : ℝ} (hu : 0 ≤ u) : maternValue p u = maternDoc (p + 1 / 2) u := maternValue_doc p hu

/-- Negative scalars are accepted and give a matrix that is not positive semidefinite. -/
theorem negative_scale_not_psd : ∃ f m, (KExpr.scale (-1) (.kernel [] (.expQuad ⟨[], fun _ => 1⟩))).make = .ok f ∧
    matrix f.core twoPoints none = .ok m ∧ ¬(Matrix.of fun p q : Fin 2 => m.get [p, q]).PosSemidef := by
  obtain ⟨f, m, h1, h2, _, h4⟩ := library_matrix (i := []) (by simp) (.scale (-1) (.kernel [] (.expQuad ⟨[], fun _ => 1⟩)))
    ⟨rfl, unit_lengthscale [], trivial⟩ (x0 := twoPoints) (x1 := none) (b0 := [2]) (b1 := [2]) rfl rfl rfl
  refine ⟨f, m, h1, h2, fun h => ?_⟩
  have hd := h.diag_nonneg (i := 0)
  have e := h4 0 0 (by simp) (by simp)
  have e' : m.get [0, 0] = -1 * Real.exp (-(scaledSq [] ⟨[], fun _ => 1⟩ _ _ / 2)) := e
  rw [Matrix.of_apply, Fin.val_zero, e'] at hd
  have := Real.exp_pos (-(scaledSq [] ⟨[], fun _ => 1⟩ (batchPoint [2] twoPoints.arr 0) (batchPoint [2] ((none : Option Inp).getD twoPoints).arr 0) / 2))
  linarith

/-- A linear covariance function with a negative constant is accepted and is not positive semidefinite. -/
theorem negative_constant_not_psd : ∃ f m, (Kernel.linear (-2)).make [] = .ok f ∧
    matrix f.core twoPoints none = .ok m ∧ ¬(Matrix.of fun p q : Fin 2 => m.get [p, q]).PosSemidef := by
  obtain ⟨f, m, h1, h2, _, h4⟩ := library_matrix (i := []) (by simp) (.kernel [] (.linear (-2)))
    ⟨rfl, rfl, by simp [Kernel.Supports]⟩ (x0 := twoPoints) (x1 := none) (b0 := [2]) (b1 := [2]) rfl rfl rfl
  refine ⟨f, m, h1, h2, fun h => ?_⟩
  have hd := h.diag_nonneg (i := 0)
  have e := h4 0 0 (by simp) (by simp)
  rw [Matrix.of_apply, Fin.val_zero, e] at hd
  have hv : KExpr.value (.kernel [] (.linear (-2))) (batchPoint [2] twoPoints.arr 0) (batchPoint [2] ((none : Option Inp).getD twoPoints).arr 0) = -1 := by
    simp [KExpr.value, Kernel.value, Point.at, unravel_nil, batchPoint, unravel_one, twoPoints]
    norm_num
  rw [hv] at hd
  linarith

end Probnum.Cov
