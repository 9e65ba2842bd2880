import Verif.Functions.Lemmas
import Mathlib.Tactic.NormNum

/-!
# C48: function algebra
-/

namespace Probnum.Functions

open RandVars

/-- Entry `idx` of `2x`, the example function below. -/
noncomputable def twice (x : Arr) : Res Arr := .ok (x.map fun v => 2 * v)

/-- Entry `idx` of `x²`, the example function below. -/
noncomputable def square (x : Arr) : Res Arr := .ok (x.map fun v => v * v)

/-- Every expression whose functions all have the same shapes can be built, and at every input of shape
`batch + input_shape` at which the functions at its leaves return arrays of shape `batch + output_shape` it evaluates to
an array of that shape whose entries are the pointwise sums, differences and multiples. -/
theorem algebra_pointwise (val : (Arr → Res Arr) → Arr → Arr) {i o : List ℕ} (e : Expr) (hu : Uniform i o e) {b : List ℕ} {x : Arr}
    (hx : x.shape = b ++ i) (hl : LeavesReturn val x (b ++ o) e) :
    ∃ f y, build e = .ok f ∧ f.core.inS = i ∧ f.core.outS = o ∧ f.core.call x = .ok y ∧ y.shape = b ++ o ∧
      ∀ idx, Valid (b ++ o) idx → y.get idx = denote val e x idx := by
  obtain ⟨f, hf, g⟩ := build_good val hx e hu hl
  obtain ⟨y, h1, h2, h3⟩ := g.comp
  exact ⟨f, y, hf, g.inS, g.outS, h1, h2, h3⟩

/-- `3 * (twice - square) + Zero - twice` on a batch of two scalars. -/
noncomputable def exampleExpr : Expr :=
  .sub (.add (.rmul 3 (.sub (.fn twice [] []) (.fn square [] []))) (.zero [] [])) (.fn twice [] [])

example : ∃ f y, build exampleExpr = .ok f ∧ f.core.call ⟨[2], fun idx => if idx = [0] then 5 else 7⟩ = .ok y ∧
    y.get [0] = -55 := by
  obtain ⟨f, y, h1, _, _, h2, _, h3⟩ := algebra_pointwise
    (fun f x => match f x with | .ok y => y | .error _ => x) (i := []) (o := []) exampleExpr
    (by simp [exampleExpr, Uniform]) (b := [2]) (x := ⟨[2], fun idx => if idx = [0] then 5 else 7⟩) rfl
    ⟨⟨⟨⟨rfl, rfl⟩, ⟨rfl, rfl⟩⟩, trivial⟩, ⟨rfl, rfl⟩⟩
  refine ⟨f, y, h1, h2, ?_⟩
  rw [h3 [0] (List.Forall₂.cons (by norm_num) List.Forall₂.nil)]
  show 3 * ((2 * (if [0] = [0] then (5 : ℝ) else 7)) - (if [0] = [0] then (5 : ℝ) else 7) * (if [0] = [0] then (5 : ℝ) else 7)) + 0 -
    2 * (if [0] = [0] then (5 : ℝ) else 7) = -55
  norm_num

/-- Whatever expression built it, an object raises ValueError at every input whose shape does not end with its input
shape, before evaluating anything. -/
theorem call_rejects (e : Expr) {f : Fn} (hf : build e = .ok f) {x : Arr} (hx : ¬∃ b, x.shape = b ++ f.core.inS) :
    f.core.call x = .error .valueError := by
  obtain ⟨ev, h⟩ := build_checked e hf
  rw [h, checkedCall, if_pos]
  rwa [Ne, sliceFrom_eq_iff]

example : (mkLambda twice [2, 3] [2, 3]).core.call ⟨[3], fun _ => 0⟩ = .error .valueError :=
  call_rejects (.fn twice [2, 3] [2, 3]) rfl (by
    rintro ⟨b, h⟩
    have h' : ([3] : List ℕ) = b ++ [2, 3] := h
    simpa using congrArg List.length h')

/-- Whatever expression built it, what an object returns has shape `batch + output_shape`. -/
theorem call_shape (e : Expr) {f : Fn} (hf : build e = .ok f) {x y : Arr} (hy : f.core.call x = .ok y) :
    ∃ b, x.shape = b ++ f.core.inS ∧ y.shape = b ++ f.core.outS := by
  obtain ⟨ev, h⟩ := build_checked e hf
  rw [h, checkedCall] at hy
  split at hy
  · cases hy
  · rename_i hs
    obtain ⟨b, hb⟩ := (sliceFrom_eq_iff _ _).mp (not_not.mp hs)
    refine ⟨b, hb, ?_⟩
    obtain ⟨z, hz, hy⟩ := bind_ok hy
    split at hy
    · rename_i hsh
      cases hy
      rw [hsh, hb, sliceTo_append]
    · cases hy

example : ∃ b, ([4, 2] : List ℕ) = b ++ [2] ∧ ([4, 2] : List ℕ) = b ++ [2] :=
  call_shape (.fn twice [2] [2]) (f := mkLambda twice [2] [2]) rfl (x := ⟨[4, 2], fun _ => 1⟩)
    (y := (⟨[4, 2], fun _ => 1⟩ : Arr).map fun v => 2 * v) rfl

/-- An expression without `Zero` is accepted exactly if all its functions have the same input and output shapes;
otherwise building it raises ValueError. -/
theorem algebra_shapes_partial (e : Expr) (hz : NoZero e) :
    ((∃ i o, Uniform i o e) → ∃ f, build e = .ok f) ∧ ((∀ i o, ¬Uniform i o e) → build e = .error .valueError) := by
  rcases build_shapes e hz with ⟨i, o, f, u, hf, _⟩ | ⟨u, hf⟩
  · exact ⟨fun _ => ⟨f, hf⟩, fun h => absurd ((u i o).mpr ⟨rfl, rfl⟩) (h i o)⟩
  · exact ⟨fun ⟨i, o, h⟩ => absurd h (u i o), fun _ => hf⟩

example : build (.add (.rmul 2 (.fn twice [2] [2])) (.neg (.fn square [3] [3]))) = .error .valueError :=
  (algebra_shapes_partial (.add (.rmul 2 (.fn twice [2] [2])) (.neg (.fn square [3] [3]))) ⟨trivial, trivial⟩).2 fun i o h => by
    have h1 : ([2] : List ℕ) = i := h.1.1
    have h2 : ([3] : List ℕ) = i := h.2.1
    rw [← h1] at h2
    simp at h2

/-- The full statement fails: with `Zero` as an operand no shapes are compared.  Here a `Zero` on 3-vectors with 7
outputs is added to (and has subtracted from it) a function on 2-vectors: the result is the other function alone. -/
theorem zero_ignores_shapes (i o i' o' : List ℕ) (f : Arr → Res Arr) :
    build (.add (.zero i o) (.fn f i' o')) = build (.fn f i' o') ∧
      build (.add (.fn f i' o') (.zero i o)) = build (.fn f i' o') ∧
      build (.sub (.fn f i' o') (.zero i o)) = build (.fn f i' o') ∧
      build (.sub (.zero i o) (.fn f i' o')) = build (.neg (.fn f i' o')) := ⟨rfl, rfl, rfl, rfl⟩

theorem zero_shapes_accepted : ∃ e f, build e = .ok f ∧ ∀ i o, ¬Uniform i o e := by
  refine ⟨.add (.zero [3] [7]) (.fn twice [2] [2]), mkLambda twice [2] [2], rfl, fun i o h => ?_⟩
  have h1 : ([3] : List ℕ) = i := h.1.1
  have h2 : ([2] : List ℕ) = i := h.2.1
  rw [← h1] at h2
  simp at h2

/-- A sum that already has two summands does compare the shapes of a further `Zero`. -/
theorem sum_checks_zero (f : Arr → Res Arr) (i o i' o' : List ℕ) (h : ¬(i = i' ∧ o = o')) :
    build (.add (.add (.fn f i o) (.fn f i o)) (.zero i' o')) = .error .valueError := by
  have hs : build (.add (.fn f i o) (.fn f i o)) = mkSum [(mkLambda f i o).core, (mkLambda f i o).core] := rfl
  have h2 : mkSum [(mkLambda f i o).core, (mkLambda f i o).core] =
      .ok ⟨⟨i, o, checkedCall i o (sumEval (mkLambda f i o).core [(mkLambda f i o).core])⟩,
        .sum [(mkLambda f i o).core, (mkLambda f i o).core]⟩ := by
    simp [mkSum, mkLambda]
  rw [build, hs, h2]
  refine mkSum_mixed (i := i) (o := o) (i' := i') (o' := o') (l := [(mkLambda f i o).core, (mkLambda f i o).core])
    (l' := [(mkZero i' o').core]) (by simp) (by simp) ?_ ?_ h
  · intro g hg; simp only [List.mem_cons, List.not_mem_nil, or_false, or_self] at hg; subst hg; exact ⟨rfl, rfl⟩
  · intro g hg; rw [List.mem_singleton] at hg; subst hg; exact ⟨rfl, rfl⟩

example : ¬(([2] : List ℕ) = [3] ∧ ([] : List ℕ) = []) := by simp

end Probnum.Functions
