import Verif.Cov.KernelLemmas
import Mathlib.Tactic.NormNum

/-!
# C44: algebra of covariance functions
-/

namespace Probnum.Cov

open RandVars Functions

/-! ## Examples -/

/-- A float array of two points on the line. -/
def twoPoints : Inp := ⟨⟨[2], fun idx => if idx = [0] then 1 else 3⟩, false⟩

/-- `2 * (Linear + ExpQuad(lengthscale 1)) * WhiteNoise(1/2)` on scalars. -/
noncomputable def exampleTree : KExpr :=
  .mul (.scale 2 (.add (.kernel [] (.linear 0)) (.kernel [] (.expQuad ⟨[], fun _ => 1⟩)))) (.kernel [] (.whiteNoise (1 / 2)))

theorem unit_lengthscale (i : List ℕ) : checkLengthscales i ⟨[], fun _ => 1⟩ = .ok () := by
  have hb : bshape [] i = .ok i := by rw [bshape_comm]; exact bshape_nil i
  rw [checkLengthscales, if_neg, if_pos hb]
  rintro ⟨k, _, h⟩
  exact absurd h (by show ¬(1 : ℝ) ≤ 0; norm_num)

theorem exampleTree_admits : exampleTree.Admits [] := by
  refine ⟨⟨⟨rfl, rfl, ?_⟩, ⟨rfl, unit_lengthscale [], trivial⟩⟩, ⟨rfl, ?_, ?_⟩⟩
  · simp [Kernel.Supports]
  · rw [Kernel.check, if_neg (by norm_num)]
  · simp [Kernel.Supports]

/-! ## Any covariance functions -/

/-- Every expression whose covariance functions all have the same shapes can be built, and at all inputs at which its
leaves return arrays of the documented shape it evaluates to the entrywise sums, products and multiples. -/
theorem cov_pointwise (val : Eval → Inp → Option Inp → Arr) {i o0 o1 : List ℕ} (e : Expr) (hu : Uniform i o0 o1 e) {x0 : Inp}
    {x1 : Option Inp} {b : List ℕ} (hb : Batch i x0 x1 b) (hl : LeavesReturn val x0 x1 (b ++ o0 ++ o1) e) :
    ∃ f y, build e = .ok f ∧ f.core.call x0 x1 = .ok y ∧ y.shape = b ++ o0 ++ o1 ∧
      ∀ idx, Valid (b ++ o0 ++ o1) idx → y.get idx = denote val e x0 x1 idx := by
  obtain ⟨f, hf, g⟩ := build_good val hb e hu hl
  obtain ⟨y, h1, h2, h3⟩ := g.comp
  exact ⟨f, y, hf, h1, h2, h3⟩

example : ∃ f y, build (.add (.leaf [] [] [] [] fun x0 _ => .ok x0.arr) (.scale 3 (.leaf [] [] [] [] fun x0 _ => .ok x0.arr))) = .ok f ∧
    f.core.call twoPoints none = .ok y ∧ y.get [1] = 12 := by
  obtain ⟨f, y, h1, h2, _, h4⟩ := cov_pointwise (fun _ x0 _ => x0.arr) (i := []) (o0 := []) (o1 := [])
    (.add (.leaf [] [] [] [] fun x0 _ => .ok x0.arr) (.scale 3 (.leaf [] [] [] [] fun x0 _ => .ok x0.arr)))
    ⟨⟨rfl, rfl, rfl, rfl⟩, ⟨rfl, rfl, rfl, rfl⟩⟩ (x0 := twoPoints) (x1 := none) (b := [2]) rfl ⟨⟨rfl, rfl⟩, ⟨rfl, rfl⟩⟩
  refine ⟨f, y, h1, h2, ?_⟩
  rw [h4 [1] (List.Forall₂.cons (by norm_num) List.Forall₂.nil)]
  show (if ([1] : List ℕ) = [0] then (1 : ℝ) else 3) + 3 * (if ([1] : List ℕ) = [0] then (1 : ℝ) else 3) = 12
  norm_num

/-- A sum, product or multiple is accepted exactly if all covariance functions in it have the same input shape (for
both arguments) and the same output shapes; otherwise building it raises ValueError. -/
theorem cov_shapes (e : Expr) (he : ¬IsLeaf e) :
    ((∃ i o0 o1, Uniform i o0 o1 e) → ∃ f, build e = .ok f) ∧ ((∀ i o0 o1, ¬Uniform i o0 o1 e) → build e = .error .valueError) := by
  rcases build_shapes e with ⟨i, o0, o1, f, u, hf, _⟩ | ⟨u, hf | ⟨h, _⟩⟩
  · exact ⟨fun _ => ⟨f, hf⟩, fun h => absurd ((u i o0 o1).mpr ⟨rfl, rfl, rfl⟩) (h i o0 o1)⟩
  · exact ⟨fun ⟨i, o0, o1, h⟩ => absurd h (u i o0 o1), fun _ => hf⟩
  · exact absurd h he

example : build (.mul (.leaf [2] [2] [] [] fun x _ => .ok x.arr) (.scale 2 (.leaf [3] [3] [] [] fun x _ => .ok x.arr))) =
    .error .valueError := by
  refine (cov_shapes (.mul (.leaf [2] [2] [] [] fun x _ => .ok x.arr) (.scale 2 (.leaf [3] [3] [] [] fun x _ => .ok x.arr)))
    (by simp [IsLeaf])).2 fun i o0 o1 h => ?_
  have h1 : ([2] : List ℕ) = i := h.1.1
  have h2 : ([3] : List ℕ) = i := h.2.1
  rw [← h1] at h2
  simp at h2

/-- Whatever expression built it, an object raises ValueError if the shape of the first argument does not end with its
input shape, if that of the second does not, and if the batch shapes do not broadcast. -/
theorem cov_call_rejects (e : Expr) {f : CovFn} (hf : build e = .ok f) {x0 : Inp} {x1 : Option Inp}
    (h : (¬∃ b, x0.arr.shape = b ++ f.core.in0) ∨ ∃ y1, x1 = some y1 ∧
      ((¬∃ b, y1.arr.shape = b ++ f.core.in1) ∨
        ∃ b0 b1, x0.arr.shape = b0 ++ f.core.in0 ∧ y1.arr.shape = b1 ++ f.core.in1 ∧ ∀ b, bshape b0 b1 ≠ .ok b)) :
    f.core.call x0 x1 = .error .valueError := by
  obtain ⟨ev, hc⟩ := build_checked e hf
  have : checkShapes f.core.in0 f.core.in1 x0.arr.shape (x1.map fun x => x.arr.shape) = .error .valueError := by
    unfold checkShapes
    by_cases h0 : ∃ b, x0.arr.shape = b ++ f.core.in0
    · obtain ⟨b0, hb0⟩ := h0
      rw [if_neg (by rw [ne_eq, not_not, sliceFrom_eq_iff]; exact ⟨b0, hb0⟩)]
      rcases h with h | ⟨y1, rfl, h⟩
      · exact absurd ⟨b0, hb0⟩ h
      · show (if sliceFrom y1.arr.shape ((y1.arr.shape.length : ℤ) - f.core.in1.length) ≠ f.core.in1 then _ else
          bshape _ (sliceTo y1.arr.shape ((y1.arr.shape.length : ℤ) - f.core.in1.length))) = _
        rcases h with h | ⟨c0, c1, hc0, hc1, hn⟩
        · rw [if_pos (by rw [ne_eq, sliceFrom_eq_iff]; exact h)]
        · rw [if_neg (by rw [ne_eq, not_not, sliceFrom_eq_iff]; exact ⟨c1, hc1⟩), hc0, hc1, sliceTo_append, sliceTo_append]
          unfold bshape at hn ⊢
          split
          · rename_i u hu
            rw [hu] at hn
            exact absurd rfl (hn u.reverse)
          · rfl
    · rw [if_pos (by rw [ne_eq, sliceFrom_eq_iff]; exact h0)]
  rw [hc, covCall, this]; rfl

example : (mkCov [2] [2] [] [] fun x _ => .ok x.arr).core.call ⟨⟨[4, 2], fun _ => 0⟩, false⟩ (some ⟨⟨[3, 2], fun _ => 0⟩, false⟩) =
    .error .valueError := by
  refine cov_call_rejects (.leaf [2] [2] [] [] fun x _ => .ok x.arr) rfl
    (Or.inr ⟨_, rfl, Or.inr ⟨[4], [3], rfl, rfl, fun b h => ?_⟩⟩)
  simp [bshape, brev, bdim, consOpt] at h

/-! ## The library's covariance functions -/

/-- The array a `_evaluate` returns (anything if it raises). -/
noncomputable def valOf (ev : Eval) (x0 : Inp) (x1 : Option Inp) : Arr :=
  match ev x0 x1 with
  | .ok y => y
  | .error _ => ⟨[], fun _ => 0⟩

/-- The expression with the code of the library's covariance functions at its leaves. -/
noncomputable def KExpr.toExpr : KExpr → Expr
  | .kernel i k => .leaf i i [] [] (k.eval i)
  | .add a b => .add a.toExpr b.toExpr
  | .mul a b => .mul a.toExpr b.toExpr
  | .scale c a => .scale c a.toExpr

theorem KExpr.make_eq {i : List ℕ} : ∀ {e : KExpr}, e.Admits i → e.make = build e.toExpr
  | .kernel j k, h => by
    obtain ⟨rfl, hk, _⟩ := h
    show k.make j = _
    rw [Kernel.make, hk]; rfl
  | .add a b, h => by
    show a.make.bind _ = _
    rw [KExpr.make_eq h.1, KExpr.make_eq h.2]; rfl
  | .mul a b, h => by
    show a.make.bind _ = _
    rw [KExpr.make_eq h.1, KExpr.make_eq h.2]; rfl
  | .scale c a, h => by
    have h' : a.Admits i := h
    show a.make.bind _ = _
    rw [KExpr.make_eq h']; rfl

theorem KExpr.uniform {i : List ℕ} : ∀ {e : KExpr}, e.Admits i → Uniform i [] [] e.toExpr
  | .kernel j k, h => by obtain ⟨rfl, _⟩ := h; exact ⟨rfl, rfl, rfl, rfl⟩
  | .add a b, h => ⟨KExpr.uniform h.1, KExpr.uniform h.2⟩
  | .mul a b, h => ⟨KExpr.uniform h.1, KExpr.uniform h.2⟩
  | .scale c a, h => KExpr.uniform (e := a) h

theorem KExpr.leaves {i b : List ℕ} {x0 : Inp} {x1 : Option Inp} (hb : Batch i x0 x1 b) (hf : x0.int = false) :
    ∀ {e : KExpr}, e.Admits i → LeavesReturn valOf x0 x1 (b ++ [] ++ []) e.toExpr ∧ ∀ idx, Valid b idx →
      denote valOf e.toExpr x0 x1 idx = e.value (pointAt i x0.arr idx) (pointAt i (x1.getD x0).arr idx)
  | .kernel j k, h => by
    obtain ⟨rfl, hk, hs⟩ := h
    obtain ⟨y, hy, hys, hyv⟩ := k.eval_returns hk hs hb hf
    have hv : valOf (k.eval j) x0 x1 = y := by rw [valOf, hy]
    refine ⟨⟨by rw [hv]; exact hy, by rw [hv, hys]; simp⟩, fun idx hi => ?_⟩
    show (valOf (k.eval j) x0 x1).get idx = _
    rw [hv, hyv idx hi]; rfl
  | .add a c, h => by
    obtain ⟨l1, v1⟩ := KExpr.leaves hb hf h.1
    obtain ⟨l2, v2⟩ := KExpr.leaves hb hf h.2
    refine ⟨⟨l1, l2⟩, fun idx hi => ?_⟩
    show denote valOf a.toExpr x0 x1 idx + denote valOf c.toExpr x0 x1 idx = _
    rw [v1 idx hi, v2 idx hi]; rfl
  | .mul a c, h => by
    obtain ⟨l1, v1⟩ := KExpr.leaves hb hf h.1
    obtain ⟨l2, v2⟩ := KExpr.leaves hb hf h.2
    refine ⟨⟨l1, l2⟩, fun idx hi => ?_⟩
    show denote valOf a.toExpr x0 x1 idx * denote valOf c.toExpr x0 x1 idx = _
    rw [v1 idx hi, v2 idx hi]; rfl
  | .scale c a, h => by
    obtain ⟨l1, v1⟩ := KExpr.leaves (e := a) hb hf h
    refine ⟨l1, fun idx hi => ?_⟩
    show c * denote valOf a.toExpr x0 x1 idx = _
    rw [v1 idx hi]; rfl

/-- Every expression in the library's covariance functions (with parameters the constructors accept and an input shape
they support) can be built, and at every pair of float batches it returns, at every index of the broadcast batch shape,
the documented value at the two points there — with one argument: at the point and itself. -/
theorem library_pointwise {i : List ℕ} (e : KExpr) (he : e.Admits i) {x0 : Inp} {x1 : Option Inp} {b : List ℕ}
    (hb : Batch i x0 x1 b) (hf : x0.int = false) :
    ∃ f y, e.make = .ok f ∧ f.core.call x0 x1 = .ok y ∧ y.shape = b ∧
      ∀ idx, Valid b idx → y.get idx = e.value (pointAt i x0.arr idx) (pointAt i (x1.getD x0).arr idx) := by
  obtain ⟨l, v⟩ := KExpr.leaves hb hf he
  obtain ⟨f, y, h1, h2, h3, h4⟩ := cov_pointwise valOf e.toExpr (KExpr.uniform he) hb l
  refine ⟨f, y, by rw [KExpr.make_eq he, h1], h2, by simpa using h3, fun idx hi => ?_⟩
  rw [h4 idx (by simpa using hi), v idx hi]

example : ∃ f y, exampleTree.make = .ok f ∧ f.core.call twoPoints (some twoPoints) = .ok y ∧ y.get [1] = 10 := by
  obtain ⟨f, y, h1, h2, _, h4⟩ := library_pointwise exampleTree exampleTree_admits (x0 := twoPoints) (x1 := some twoPoints)
    (b := [2]) ⟨[2], [2], rfl, rfl, bshape_self [2]⟩ rfl
  refine ⟨f, y, h1, h2, ?_⟩
  rw [h4 [1] (List.Forall₂.cons (by norm_num) List.Forall₂.nil)]
  have hp : pointAt [] twoPoints.arr [1] [] = 3 := by
    simp [pointAt, twoPoints, bir]
  show 2 * ((∑ j ∈ Finset.range [].prod, Point.at [] _ j * Point.at [] _ j + 0) + Real.exp (-(scaledSq [] _ _ _ / 2))) *
    (if _ then (1 / 2 : ℝ) else 0) = 10
  simp only [Option.getD_some, implies_true, if_true, scaledSq_self, List.prod_nil, Finset.range_one, Finset.sum_singleton, Point.at, unravel_nil, hp]
  norm_num

/-- For float inputs the one-argument form agrees with passing the argument twice. -/
theorem one_argument_partial {i : List ℕ} (e : KExpr) (he : e.Admits i) {x : Inp} {b : List ℕ} (hx : x.arr.shape = b ++ i)
    (hf : x.int = false) : ∃ f y y', e.make = .ok f ∧ f.core.call x none = .ok y ∧ f.core.call x (some x) = .ok y' ∧
      y.shape = y'.shape ∧ ∀ idx, Valid b idx → y.get idx = y'.get idx := by
  obtain ⟨f, y, h1, h2, h3, h4⟩ := library_pointwise e he (x1 := none) (b := b) hx hf
  obtain ⟨f', y', h1', h2', h3', h4'⟩ := library_pointwise e he (x1 := some x) (b := b) ⟨b, b, hx, hx, bshape_self b⟩ hf
  have : f = f' := Except.ok.inj (h1.symm.trans h1')
  subst this
  exact ⟨f, y, y', h1, h2, h2', by rw [h3, h3'], fun idx hi => by rw [h4 idx hi, h4' idx hi]; rfl⟩

example : exampleTree.Admits [] ∧ twoPoints.arr.shape = [2] ++ [] := ⟨exampleTree_admits, rfl⟩

/-- For integer inputs it does not: the exponentiated quadratic (and the Matérn) covariance function raises TypeError
for two integer batches, because the differences are rescaled in place, while the one-argument form returns ones. -/
theorem integer_inputs_raise : ∃ (x : Inp) (f : CovFn) (y : Arr), (Kernel.expQuad ⟨[], fun _ => 1⟩).make [] = .ok f ∧
    f.core.call x none = .ok y ∧ y.get [0] = 1 ∧ f.core.call x (some x) = .error .typeError := by
  refine ⟨⟨⟨[2], fun _ => 1⟩, true⟩, mkCov [] [] [] [] (expQuadEval [] ⟨[], fun _ => 1⟩), ⟨[2], fun _ => 1⟩, ?_, rfl, rfl, ?_⟩
  · show (checkLengthscales [] ⟨[], fun _ => 1⟩).map _ = _
    rw [unit_lengthscale]; rfl
  · have h : expQuadEval [] ⟨[], fun _ => 1⟩ ⟨⟨[2], fun _ => 1⟩, true⟩ (some ⟨⟨[2], fun _ => 1⟩, true⟩) = .error .typeError := by
      simp [expQuadEval, sqDists, Arr.sub, Arr.bin, bshape_self, Except.map, Except.bind, applyScale, imul]
    have hb : Batch [] ⟨⟨[2], fun _ => 1⟩, true⟩ (some ⟨⟨[2], fun _ => 1⟩, true⟩) [2] := ⟨[2], [2], rfl, rfl, bshape_self [2]⟩
    simp only [mkCov, covCall, checkShapes_ok hb, Except.bind, h]

/-- With integer inputs the one-argument form of white noise truncates the noise level: a variance of 1/2 is reported
as 0, while passing the same array twice gives 1/2. -/
theorem white_noise_truncated : ∃ (x : Inp) (f : CovFn) (y y' : Arr), (Kernel.whiteNoise (1 / 2)).make [] = .ok f ∧
    f.core.call x none = .ok y ∧ y.get [0] = 0 ∧ f.core.call x (some x) = .ok y' ∧ y'.get [0] = 1 / 2 := by
  have hb : Batch [] ⟨⟨[2], fun _ => 1⟩, true⟩ (some ⟨⟨[2], fun _ => 1⟩, true⟩) [2] := ⟨[2], [2], rfl, rfl, bshape_self [2]⟩
  refine ⟨⟨⟨[2], fun _ => 1⟩, true⟩, mkCov [] [] [] [] (whiteNoiseEval [] (1 / 2)), ⟨[2], fun _ => (⌊(1 / 2 : ℝ)⌋ : ℤ)⟩,
    ⟨[2], fun _ => 1 / 2 * 1⟩, ?_, ?_, ?_, ?_, ?_⟩
  · show ((Kernel.whiteNoise (1 / 2)).check []).map _ = _
    rw [Kernel.check, if_neg (by norm_num)]; rfl
  · have hb' : Batch [] ⟨⟨[2], fun _ => 1⟩, true⟩ none [2] := rfl
    refine covCall_ok (o0 := []) (o1 := []) (ev := whiteNoiseEval [] (1 / 2)) hb' ?_ rfl
    simp [whiteNoiseEval, fullBatch, sliceTo]
  · norm_num
  · refine covCall_ok (o0 := []) (o1 := []) (ev := whiteNoiseEval [] (1 / 2)) hb ?_ rfl
    simp [whiteNoiseEval, Arr.bin, bshape_self, Except.map, Arr.map, Arr.bget]
  · norm_num

end Probnum.Cov
