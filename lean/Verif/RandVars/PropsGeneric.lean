import Verif.RandVars.GenericLemmas
import Mathlib.Probability.Distributions.Gaussian.Real

/-!
# Generic random variables: slicing, reshaping, transposition and arithmetic

What the random variables returned by these operations report, against `GenericSpec`.
-/

namespace Probnum.RandVars

open MeasureTheory ProbabilityTheory

variable {Ω : Type*} {mΩ : MeasurableSpace Ω} {P : Measure Ω} {ρ : Type} {mρ : MeasurableSpace ρ} {Q : Measure ρ}
  {g h : Generic ρ} {X Y : Ω → Arr} {n m : ℕ} {μ : Measure (Fin n → ℝ)} {ν : Measure (Fin m → ℝ)} {size : List ℕ}

/-! ## Moments -/

/-- Mean, variance and standard deviation of a slice are those of the sliced random array, and it has them if `g` has. -/
theorem getitem_describes {key : List KeyEl} (hX : Describes P X g) (hg : g.getitem key = .ok h) :
    ∃ Y : Ω → Arr, (∀ ω, (X ω).index key = .ok (Y ω)) ∧ Describes P Y h ∧
      ((∃ a, g.meanP = .ok a) → ∃ a, h.meanP = .ok a) ∧ ((∃ a, g.varP = .ok a) → ∃ a, h.varP = .ok a) ∧
      ((∃ a, g.stdP = .ok a) → ∃ a, h.stdP = .ok a) := by
  obtain ⟨e, he, rfl⟩ := map_ok hg
  obtain ⟨σ, hσ⟩ := index_select_any he
  exact Selected.describes (f := fun a => a.index key) (σ := σ) ⟨hσ, rfl, rfl, rfl⟩ hX

/-- The same for transposition. -/
theorem transpose_describes {axes : Option (List ℤ)} (hX : Describes P X g) (hg : g.transpose axes = .ok h) :
    ∃ Y : Ω → Arr, (∀ ω, Generic.transposeArr axes (X ω) = .ok (Y ω)) ∧ Describes P Y h ∧
      ((∃ a, g.meanP = .ok a) → ∃ a, h.meanP = .ok a) ∧ ((∃ a, g.varP = .ok a) → ∃ a, h.varP = .ok a) ∧
      ((∃ a, g.stdP = .ok a) → ∃ a, h.stdP = .ok a) := by
  obtain ⟨e, he, rfl⟩ := map_ok hg
  obtain ⟨σ, hσ⟩ := transpose_select_any he
  exact Selected.describes (σ := σ) ⟨hσ, rfl, rfl, rfl⟩ hX

/-- The same for reshaping; the covariance is right, too. -/
theorem reshape_describes {s : List ℕ} (hX : Describes P X g) (hs : s.prod = g.shape.prod) :
    ∃ Y : Ω → Arr, (∀ ω, (X ω).reshapeTo s = .ok (Y ω)) ∧ Describes P Y (g.reshape s) ∧
      (CovRight P X g → CovRight P Y (g.reshape s)) ∧
      ((∃ a, g.meanP = .ok a) → ∃ a, (g.reshape s).meanP = .ok a) ∧ ((∃ a, g.varP = .ok a) → ∃ a, (g.reshape s).varP = .ok a) ∧
      ((∃ a, g.stdP = .ok a) → ∃ a, (g.reshape s).stdP = .ok a) ∧
      ((g.shape = [] ↔ s = []) → (∃ a, g.covP = .ok a) → ∃ a, (g.reshape s).covP = .ok a) := by
  have hop : SelectOp (fun x => x.reshapeTo s) g.shape s id 1 (fun _ => 0) := fun x hx => by
    refine ⟨x.withShape s, ?_, rfl, fun i hi => ⟨by rw [← hs]; exact hi, ?_⟩⟩
    · show x.reshapeTo s = _
      rw [Arr.reshapeTo, Arr.size, hx, if_pos hs]
    · rw [Arr.withShape_flat hi, one_mul, add_zero]
      rfl
  obtain ⟨Y, h1, h2, h3, h4, h5⟩ := Selected.describes (h := g.reshape s) (σ := id) ⟨hop, rfl, rfl, rfl⟩ hX
  refine ⟨Y, h1, h2, fun hC C hc i hi j hj => ?_, h3, h4, h5, fun hns ⟨a, ha⟩ => ⟨a, ?_⟩⟩
  · have hi' : i < s.prod := hi
    have hj' : j < s.prod := hj
    obtain ⟨e1, _⟩ := property_ok hc
    have e2 : g.covP = .ok C := Option.some.inj e1
    have hY : ∀ i < s.prod, (fun ω => (Y ω).flat i) = fun ω => (X ω).flat i := fun i hi => by
      funext ω
      have := h1 ω
      rw [Arr.reshapeTo] at this
      split at this
      · rw [← Except.ok.inj this, Arr.withShape_flat hi]
      · cases this
    rw [hY i hi', hY j hj', hC C e2 i (hs ▸ hi') j (hs ▸ hj')]
    show _ = C.flat (i * s.prod + j)
    rw [hs]
  · have h0 := (property_ok ha).2
    show (g.covP).bind (checkShape (expectedCov s)) = _
    rw [ha]
    refine checkShape_eq ?_
    rw [h0]
    unfold expectedCov
    by_cases hg : g.shape = []
    · rw [hg, hns.1 hg]
    · rw [if_neg hg, if_neg fun e => hg (hns.2 e), hs]

/-- Negation. -/
theorem neg_describes (hX : Describes P X g) (hC : CovRight P X g) :
    Describes P (fun ω => (X ω).neg) g.neg ∧ CovRight P (fun ω => (X ω).neg) g.neg ∧
      ((∃ a, g.meanP = .ok a) → ∃ a, g.neg.meanP = .ok a) ∧ ((∃ a, g.varP = .ok a) → ∃ a, g.neg.varP = .ok a) ∧
      ((∃ a, g.stdP = .ok a) → ∃ a, g.neg.stdP = .ok a) ∧ ((∃ a, g.covP = .ok a) → ∃ a, g.neg.covP = .ok a) := by
  have hf : ∀ i, (fun ω => ((X ω).neg).flat i) = fun ω => -(X ω).flat i := fun i => rfl
  refine ⟨⟨hX.shape, fun a ha => ?_, fun a ha => ?_, fun a ha => ?_⟩, fun C hc i hi j hj => ?_, ?_, ?_, ?_, ?_⟩
  · obtain ⟨e, _⟩ := property_ok ha
    obtain ⟨b, hb, rfl⟩ := map_ok (Option.some.inj e)
    obtain ⟨q1, q2⟩ := hX.mean b hb
    refine ⟨q1, fun i hi => ?_⟩
    rw [hf, integral_neg, q2 i hi]
    rfl
  · obtain ⟨b, hb, hc⟩ := bind_ok (show g.varP.bind (checkShape g.shape) = .ok a from ha)
    obtain ⟨rfl, _⟩ := checkShape_ok hc
    obtain ⟨q1, q2⟩ := hX.var _ hb
    refine ⟨q1, fun i hi => ?_⟩
    rw [hf, variance_fun_neg, q2 i hi]
  · obtain ⟨b, hb, hc⟩ := bind_ok (show g.stdP.bind (checkShape g.shape) = .ok a from ha)
    obtain ⟨rfl, _⟩ := checkShape_ok hc
    obtain ⟨q1, q2⟩ := hX.std _ hb
    refine ⟨q1, fun i hi => ?_⟩
    rw [hf, variance_fun_neg, q2 i hi]
  · obtain ⟨e1, _⟩ := property_ok hc
    rw [hf, hf, covariance_fun_neg_left, covariance_fun_neg_right, neg_neg]
    exact hC C (Option.some.inj e1) i hi j hj
  · rintro ⟨a, ha⟩
    refine ⟨a.neg, ?_⟩
    show (g.meanP.map Arr.neg).bind (checkShape g.shape) = _
    rw [ha]
    exact checkShape_eq (show a.neg.shape = g.shape from Generic.meanP_shape (v := a) ha)
  · rintro ⟨a, ha⟩
    refine ⟨a, ?_⟩
    show g.varP.bind (checkShape g.shape) = _
    rw [ha]
    exact checkShape_eq (Generic.varP_shape ha)
  · rintro ⟨a, ha⟩
    refine ⟨a, ?_⟩
    show g.stdP.bind (checkShape g.shape) = _
    rw [ha]
    exact checkShape_eq (Generic.stdP_shape ha)
  · rintro ⟨a, ha⟩
    refine ⟨a, ?_⟩
    show g.covP.bind (checkShape (expectedCov g.shape)) = _
    rw [ha]
    exact checkShape_eq (property_ok ha).2

/-- Unary plus. -/
theorem pos_describes (hX : Describes P X g) (hC : CovRight P X g) :
    Describes P X g.pos ∧ CovRight P X g.pos ∧
      ((∃ a, g.meanP = .ok a) → ∃ a, g.pos.meanP = .ok a) ∧ ((∃ a, g.varP = .ok a) → ∃ a, g.pos.varP = .ok a) ∧
      ((∃ a, g.stdP = .ok a) → ∃ a, g.pos.stdP = .ok a) ∧ ((∃ a, g.covP = .ok a) → ∃ a, g.pos.covP = .ok a) := by
  refine ⟨⟨hX.shape, fun a ha => ?_, fun a ha => ?_, fun a ha => ?_⟩, fun C hc i hi j hj => ?_, ?_, ?_, ?_, ?_⟩
  · exact hX.mean a (Option.some.inj (property_ok ha).1)
  · obtain ⟨b, hb, hc⟩ := bind_ok (show g.varP.bind (checkShape g.shape) = .ok a from ha)
    obtain ⟨rfl, _⟩ := checkShape_ok hc
    exact hX.var _ hb
  · obtain ⟨b, hb, hc⟩ := bind_ok (show g.stdP.bind (checkShape g.shape) = .ok a from ha)
    obtain ⟨rfl, _⟩ := checkShape_ok hc
    exact hX.std _ hb
  · exact hC C (Option.some.inj (property_ok hc).1) i hi j hj
  · rintro ⟨a, ha⟩
    refine ⟨a, ?_⟩
    show g.meanP.bind (checkShape g.shape) = _
    rw [ha]
    exact checkShape_eq (Generic.meanP_shape (v := a) ha)
  · rintro ⟨a, ha⟩
    refine ⟨a, ?_⟩
    show g.varP.bind (checkShape g.shape) = _
    rw [ha]
    exact checkShape_eq (Generic.varP_shape ha)
  · rintro ⟨a, ha⟩
    refine ⟨a, ?_⟩
    show g.stdP.bind (checkShape g.shape) = _
    rw [ha]
    exact checkShape_eq (Generic.stdP_shape ha)
  · rintro ⟨a, ha⟩
    refine ⟨a, ?_⟩
    show g.covP.bind (checkShape (expectedCov g.shape)) = _
    rw [ha]
    exact checkShape_eq (property_ok ha).2

/-- A random variable that is not a number and is given a right mean and a right covariance, but no variance and no standard
deviation, derives these from the covariance, and they are right. -/
theorem derived_describes (hsh : ∀ ω, (X ω).shape = g.shape) (hv : g.var = none) (hs : g.std = none) (hns : g.shape ≠ [])
    (hm : ∀ m, g.meanP = .ok m → m.shape = g.shape ∧ ∀ i < g.shape.prod, ∫ ω, (X ω).flat i ∂P = m.flat i)
    (hC : CovRight P X g) (hX : ∀ i < g.shape.prod, AEMeasurable (fun ω => (X ω).flat i) P) :
    Describes P X g ∧ ((∃ C, g.covP = .ok C) → (∃ v, g.varP = .ok v) ∧ ∃ s, g.stdP = .ok s) := by
  have key : ∀ C, g.covP = .ok C → ∃ v, g.varP = .ok v ∧ v.shape = g.shape ∧
      ∀ i < g.shape.prod, Var[fun ω => (X ω).flat i; P] = v.flat i := fun C hc => by
    have h0 : C.shape = [g.shape.prod, g.shape.prod] := by
      rw [(property_ok hc).2, expectedCov, if_neg hns]
    refine ⟨(⟨[g.shape.prod], fun idx => C.get [idx.headD 0, idx.headD 0]⟩ : Arr).withShape g.shape, ?_, rfl, fun i hi => ?_⟩
    · unfold Generic.varP
      rw [hv]
      show g.covP.bind _ = _
      rw [hc]
      simp only [Except.bind, h0]
      rw [Arr.reshapeTo, if_pos (by simp [Arr.size])]
      exact checkShape_eq rfl
    · rw [Arr.withShape_flat hi, Arr.flat_one rfl hi, ← covariance_self (hX i hi), hC C hc i hi i hi]
      have hlt : i * g.shape.prod + i < g.shape.prod * g.shape.prod := by nlinarith
      rw [Arr.flat_two h0 hlt]
      have hpos : 0 < g.shape.prod := lt_of_le_of_lt (Nat.zero_le i) hi
      rw [mul_comm i, Nat.mul_add_div hpos, Nat.div_eq_of_lt hi, Nat.mul_add_mod, Nat.mod_eq_of_lt hi]
      rfl
  have hstd : ∀ v, g.varP = .ok v → v.shape = g.shape → g.stdP = .ok (v.map Real.sqrt) := fun v hv' hsv => by
    unfold Generic.stdP
    rw [hs]
    show g.varP.bind _ = _
    rw [hv']
    exact checkShape_eq hsv
  have hcov : ∀ v, g.varP = .ok v → ∃ C, g.covP = .ok C := fun v hv' => by
    unfold Generic.varP at hv'
    rw [hv] at hv'
    obtain ⟨C, hc, -⟩ := bind_ok hv'
    exact ⟨C, hc⟩
  have hvar : ∀ v, g.varP = .ok v → v.shape = g.shape ∧ ∀ i < g.shape.prod, Var[fun ω => (X ω).flat i; P] = v.flat i :=
    fun v hv' => by
      obtain ⟨C, hc⟩ := hcov v hv'
      obtain ⟨w, h1, h2⟩ := key C hc
      obtain rfl := Except.ok.inj (h1.symm.trans hv')
      exact h2
  refine ⟨⟨hsh, hm, hvar, fun s hs' => ?_⟩, fun ⟨C, hc⟩ => ?_⟩
  · unfold Generic.stdP at hs'
    rw [hs] at hs'
    obtain ⟨v, hv', hc⟩ := bind_ok hs'
    obtain ⟨h1, h2⟩ := hvar v hv'
    obtain ⟨rfl, -⟩ := checkShape_ok hc
    exact ⟨h1, fun i hi => by rw [h2 i hi, map_flat]⟩
  · obtain ⟨v, h1, h2, -⟩ := key C hc
    exact ⟨⟨v, h1⟩, _, hstd v h1 h2⟩

/-- The mean of a sum, for equal shapes. -/
theorem add_mean {r₀ : ρ} {R : Generic ρ} (hX : Describes P X g) (hY : Describes P Y h) (hs : g.shape = h.shape)
    (hXi : ∀ i < g.shape.prod, Integrable (fun ω => (X ω).flat i) P) (hYi : ∀ i < g.shape.prod, Integrable (fun ω => (Y ω).flat i) P)
    (hR : Generic.add r₀ g h = .ok R) {a : Arr} (ha : R.meanP = .ok a) :
    a.shape = g.shape ∧ ∀ i < g.shape.prod, ∫ ω, ((X ω).flat i + (Y ω).flat i) ∂P = a.flat i := by
  obtain ⟨p, _, rfl⟩ := map_ok hR
  obtain ⟨e, _⟩ := property_ok ha
  obtain ⟨b, hb, e⟩ := bind_ok (Option.some.inj e)
  obtain ⟨c, hc, e⟩ := bind_ok e
  obtain ⟨p1, p2⟩ := hX.mean b hb
  obtain ⟨q1, q2⟩ := hY.mean c hc
  have hbc : bshape b.shape c.shape = .ok b.shape := by rw [p1, q1, ← hs, bshape_self]
  have e' : Arr.bin (· + ·) b c = .ok a := e
  rw [Arr.bin_eq hbc] at e'
  obtain rfl := Except.ok.inj e'
  refine ⟨p1, fun i hi => ?_⟩
  have hcb : bshape c.shape b.shape = .ok b.shape := by rw [p1, q1, ← hs, bshape_self]
  rw [integral_add (hXi i hi) (hYi i hi), p2 i hi, q2 i (hs ▸ hi)]
  show _ = b.bget (unravel b.shape i) + c.bget (unravel b.shape i)
  rw [Arr.bget_flat hbc rfl (by rw [Arr.size, p1]; exact hi), Arr.bget_flat hcb (by rw [Arr.size, p1, q1, hs]) (by rw [Arr.size, q1, ← hs]; exact hi)]

/-! ## Samples -/

/-- Samples of a reshaped random variable, of any size. -/
theorem reshape_draws [IsProbabilityMeasure Q] [IsProbabilityMeasure μ] {s : List ℕ} (hd : DrawsAt Q g n μ size) (hs : s.prod = n) :
    DrawsAt Q (g.reshape s) n μ size := by
  have := onSample_draws (h := g.reshape s) hd rfl hs (φ := id) measurable_id (fun a ha => ?_)
  · rwa [Measure.map_id] at this
  · refine ⟨a.withShape (size ++ s), ?_, rfl, fun c i => ?_⟩
    · show a.reshapeTo (size ++ s) = _
      rw [Arr.reshapeTo, Arr.size, ha, List.prod_append, List.prod_append, hs, hd.1, if_pos rfl]
    · show (a.withShape (size ++ s)).flat _ = a.flat _
      refine Arr.withShape_flat ?_
      rw [List.prod_append, hs]
      exact block_lt c i

/-- Samples of `-rv`, of any size. -/
theorem neg_draws [IsProbabilityMeasure Q] [IsProbabilityMeasure μ] (hd : DrawsAt Q g n μ size) :
    DrawsAt Q g.neg n (μ.map fun x i => -x i) size :=
  onSample_draws (h := g.neg) hd rfl hd.1 (φ := fun x i => -x i) (by fun_prop) fun a ha => ⟨a.neg, rfl, ha, fun _ _ => rfl⟩

/-- Samples of `+rv`, of any size. -/
theorem pos_draws [IsProbabilityMeasure Q] [IsProbabilityMeasure μ] (hd : DrawsAt Q g n μ size) : DrawsAt Q g.pos n μ size := by
  have := onSample_draws (h := g.pos) hd rfl hd.1 (φ := id) measurable_id fun a ha => ⟨a, rfl, ha, fun _ _ => rfl⟩
  rwa [Measure.map_id] at this

/-- Samples of `abs(rv)`, of any size. -/
theorem abs_draws [IsProbabilityMeasure Q] [IsProbabilityMeasure μ] (hd : DrawsAt Q g n μ size) :
    DrawsAt Q g.abs n (μ.map fun x i => |x i|) size :=
  onSample_draws (h := g.abs) hd rfl hd.1 (φ := fun x i => |x i|) (measurable_pi_lambda _ fun i => (measurable_pi_apply i).abs)
    fun a ha => ⟨a.map fun x => |x|, rfl, ha, fun _ _ => rfl⟩

theorem select_draws [IsProbabilityMeasure Q] [IsProbabilityMeasure μ] {f : Arr → Res Arr} {σ : ℕ → ℕ}
    (hop : SelectOp f g.shape h.shape σ 1 (fun _ => 0)) (hs : h.sample = some (Generic.onSample (fun _ a => f a) g))
    (hd : DrawsAt Q g n μ []) (hm : h.shape.prod = m) :
    ∃ τ : Fin m → Fin n, (∀ a : Arr, a.shape = g.shape → ∃ y, f a = .ok y ∧ y.shape = h.shape ∧ ∀ i : Fin m, y.flat i = a.flat (τ i)) ∧
      DrawsAt Q h m (μ.map fun x i => x (τ i)) [] := by
  have hσ : ∀ i : Fin m, σ i < n := fun i => by
    obtain ⟨_, _, _, e3⟩ := hop ⟨g.shape, fun _ => 0⟩ rfl
    rw [← hd.1]
    exact (e3 i (by rw [hm]; exact i.2)).1
  have hsel : ∀ a : Arr, a.shape = g.shape → ∃ y, f a = .ok y ∧ y.shape = h.shape ∧ ∀ i : Fin m, y.flat i = a.flat (σ i) := fun a ha => by
    obtain ⟨y, e1, e2, e3⟩ := hop a ha
    exact ⟨y, e1, e2, fun i => by rw [(e3 i (by rw [hm]; exact i.2)).2, one_mul, add_zero]⟩
  refine ⟨fun i => ⟨σ i, hσ i⟩, hsel, onSample_draws hd hs hm (by fun_prop) fun a ha => ?_⟩
  obtain ⟨y, e1, e2, e3⟩ := hsel a ha
  refine ⟨y, e1, e2, fun c i => ?_⟩
  have hc : (c : ℕ) = 0 := by
    have := c.2
    simp only [List.prod_nil] at this
    omega
  show y.flat (c * m + i) = a.flat (c * n + σ i)
  rw [hc, Nat.zero_mul, Nat.zero_mul, Nat.zero_add, Nat.zero_add, e3]

/-- One sample of a slice: the sliced sample. -/
theorem getitem_draws_partial [IsProbabilityMeasure Q] [IsProbabilityMeasure μ] {key : List KeyEl} (hg : g.getitem key = .ok h)
    (hd : DrawsAt Q g n μ []) (hm : h.shape.prod = m) :
    ∃ τ : Fin m → Fin n,
      (∀ a : Arr, a.shape = g.shape → ∃ y, a.index key = .ok y ∧ y.shape = h.shape ∧ ∀ i : Fin m, y.flat i = a.flat (τ i)) ∧
      DrawsAt Q h m (μ.map fun x i => x (τ i)) [] := by
  obtain ⟨e, he, rfl⟩ := map_ok hg
  obtain ⟨σ, hσ⟩ := index_select_any he
  exact select_draws hσ rfl hd hm

/-- One sample of a transposed random variable: the transposed sample. -/
theorem transpose_draws_partial [IsProbabilityMeasure Q] [IsProbabilityMeasure μ] {axes : Option (List ℤ)} (hg : g.transpose axes = .ok h)
    (hd : DrawsAt Q g n μ []) (hm : h.shape.prod = m) :
    ∃ τ : Fin m → Fin n,
      (∀ a : Arr, a.shape = g.shape → ∃ y, Generic.transposeArr axes a = .ok y ∧ y.shape = h.shape ∧ ∀ i : Fin m, y.flat i = a.flat (τ i)) ∧
      DrawsAt Q h m (μ.map fun x i => x (τ i)) [] := by
  obtain ⟨e, he, rfl⟩ := map_ok hg
  obtain ⟨σ, hσ⟩ := transpose_select_any he
  exact select_draws hσ rfl hd hm

/-- Entrywise binary operations of random variables of the same shape: samples of any size are functions of independent draws. -/
theorem binOp_draws [IsProbabilityMeasure Q] {ν : Measure (Fin n → ℝ)} [IsProbabilityMeasure μ] [IsProbabilityMeasure ν]
    {f : ℝ → ℝ → ℝ} (hf : Measurable fun p : ℝ × ℝ => f p.1 p.2) (hs : g.shape = h.shape) (r₀ : ρ)
    (h0 : DrawsAt Q g n μ []) (h0' : DrawsAt Q h n ν []) (hd : DrawsAt Q g n μ size) (hd' : DrawsAt Q h n ν size) :
    ∃ R, Generic.binOp (Arr.bin f) r₀ g h = .ok R ∧ R.shape = g.shape ∧
      DrawsAt Q R n ((μ.prod ν).map fun p i => f (p.1 i) (p.2 i)) size := by
  obtain ⟨_, S, T, h1, _⟩ := h0
  obtain ⟨_, S', T', h1', _⟩ := h0'
  have hsame : ∀ a b : Arr, ∀ s, a.shape = s → b.shape = s → ∃ y, a.bin f b = .ok y ∧ y.shape = s ∧
      ∀ i < s.prod, y.flat i = f (a.flat i) (b.flat i) := by
    rintro a b s ha hb
    have hab : bshape a.shape b.shape = .ok s := by rw [ha, hb, bshape_self]
    have hba : bshape b.shape a.shape = .ok s := by rw [ha, hb, bshape_self]
    refine ⟨_, Arr.bin_eq hab, rfl, fun i hi => ?_⟩
    show f (a.bget (unravel s i)) (b.bget (unravel s i)) = _
    rw [Arr.bget_flat hab (by rw [Arr.size, ha]) (by rw [Arr.size, ha]; exact hi),
      Arr.bget_flat hba (by rw [Arr.size, hb]) (by rw [Arr.size, hb]; exact hi)]
  obtain ⟨y, e1, e2, _⟩ := hsame (S r₀) (S' (T r₀)) g.shape (h1 r₀).2 ((h1' (T r₀)).2.trans hs.symm)
  refine ⟨{ shape := y.shape, sample := some (Generic.binSample (Arr.bin f) g h) }, ?_, e2, ?_⟩
  · have : Generic.binSample (Arr.bin f) g h [] r₀ = .ok (y, T' (T r₀)) := by
      unfold Generic.binSample
      rw [(h1 r₀).1]
      show (h.sampleP [] (T r₀)).bind _ = _
      rw [(h1' (T r₀)).1]
      show (Arr.bin f (S r₀) (S' (T r₀))).map _ = _
      rw [e1]
      rfl
    rw [Generic.binOp, this]
    rfl
  · refine binSample_draws hd hd' rfl (by rw [← hd.1]; exact congrArg List.prod e2) ?_ fun a b ha hb => ?_
    · refine measurable_pi_lambda _ fun i => ?_
      have : Measurable fun c : (Fin n → ℝ) × (Fin n → ℝ) => (c.1 i, c.2 i) :=
        ((measurable_pi_apply i).comp measurable_fst).prodMk ((measurable_pi_apply i).comp measurable_snd)
      exact hf.comp this
    · obtain ⟨z, z1, z2, z3⟩ := hsame a b (size ++ g.shape) ha (by rw [hs]; exact hb)
      refine ⟨z, z1, by rw [z2]; exact congrArg (size ++ ·) e2.symm, fun c i => z3 _ ?_⟩
      rw [List.prod_append, hd.1]
      exact block_lt c i

/-- `rv + rv`, like every other operation. -/
theorem add_draws [IsProbabilityMeasure Q] {ν : Measure (Fin n → ℝ)} [IsProbabilityMeasure μ] [IsProbabilityMeasure ν]
    (hs : g.shape = h.shape) (r₀ : ρ)
    (h0 : DrawsAt Q g n μ []) (h0' : DrawsAt Q h n ν []) (hd : DrawsAt Q g n μ size) (hd' : DrawsAt Q h n ν size) :
    ∃ R, Generic.add r₀ g h = .ok R ∧ R.shape = g.shape ∧
      DrawsAt Q R n ((μ.prod ν).map fun p i => p.1 i + p.2 i) size := by
  obtain ⟨R, e1, e2, e3⟩ := binOp_draws (f := (· + ·)) (measurable_fst.add measurable_snd) hs r₀ h0 h0' hd hd'
  obtain ⟨p, e4, rfl⟩ := map_ok e1
  refine ⟨{ shape := p.1.shape
            sample := some (Generic.binSample Arr.add g h)
            mean := some (g.meanP.bind fun a => h.meanP.bind fun b => a.add b) }, ?_, e2, e3⟩
  rw [Generic.add, show Generic.binSample Arr.add g h [] r₀ = _ from e4]
  rfl

/-! ## Mode, median and support of `-rv` -/

/-- The mode of `-rv` maximises the density (or mass) function of the negated random array. -/
theorem neg_mode {p : Arr → ℝ} {a b : Arr} (ha : g.modeP = .ok a) (hp : ∀ x : Arr, x.shape = g.shape → p x ≤ p a)
    (hb : g.neg.modeP = .ok b) : b.shape = g.shape ∧ ∀ x : Arr, x.shape = g.shape → p x.neg ≤ p b.neg := by
  obtain ⟨e, h1⟩ := property_ok hb
  obtain ⟨c, hc, rfl⟩ := map_ok (Option.some.inj e)
  obtain rfl : a = c := Except.ok.inj (ha.symm.trans hc)
  refine ⟨h1, fun x hx => ?_⟩
  have : a.neg.neg = a := by
    show (⟨a.shape, fun idx => - -a.get idx⟩ : Arr) = a
    simp only [neg_neg]
  rw [this]
  exact hp _ hx

/-- The median of `-rv` is a median of the negated random number. -/
theorem neg_median {Z : Ω → ℝ} {a b : Arr} (ha : g.medianP = .ok a)
    (hm : 1 / 2 ≤ P.real {ω | Z ω ≤ a.flat 0} ∧ 1 / 2 ≤ P.real {ω | a.flat 0 ≤ Z ω}) (hb : g.neg.medianP = .ok b) :
    1 / 2 ≤ P.real {ω | -Z ω ≤ b.flat 0} ∧ 1 / 2 ≤ P.real {ω | b.flat 0 ≤ -Z ω} := by
  have hs : g.shape = [] := by
    by_contra hne
    rw [Generic.medianP, if_pos hne] at ha
    cases ha
  have e : (g.medianP.map Arr.neg).bind (checkShape g.shape) = .ok b := by
    rw [← hb]
    unfold Generic.medianP
    rw [if_neg (show ¬ g.neg.shape ≠ [] from not_not.2 hs)]
    rfl
  rw [ha] at e
  obtain ⟨rfl, _⟩ := checkShape_ok (show checkShape g.shape a.neg = .ok b from e)
  have h0 : a.neg.flat 0 = -a.flat 0 := rfl
  rw [h0]
  simp only [neg_le_neg_iff]
  exact ⟨hm.2, hm.1⟩

/-- The support of `-rv` is the negated support. -/
theorem neg_support {U : Set Arr} (hU : ∀ x b, g.inSupportP x = .ok b → (b = true ↔ x ∈ U)) {x : Arr} {b : Bool}
    (hb : g.neg.inSupportP x = .ok b) : b = true ↔ x.neg ∈ U := by
  refine hU x.neg b ?_
  unfold Generic.inSupportP at *
  cases hg : g.inSupport with
  | none =>
    have : g.neg.inSupport = none := by show g.inSupport.map _ = none; rw [hg]; rfl
    rw [this] at hb
    cases hb
  | some f =>
    have : g.neg.inSupport = some fun x => f x.neg := by show g.inSupport.map _ = _; rw [hg]; rfl
    rw [this] at hb
    exact hb

/-! ## Where the results are wrong -/

/-- ★ A transposed random variable keeps the covariance of the original: if the entries at `[0, 1]` and `[1, 0]` have different
variances, it is wrong (and disagrees with the reported variance). -/
theorem transpose_cov_wrong (hX : Describes P X g) (hC : CovRight P X g) (hs : g.shape = [2, 2]) {C : Arr} (hc : g.covP = .ok C)
    (hne : C.flat 5 ≠ C.flat 10) (hg : g.transpose none = .ok h) :
    h.covP = .ok C ∧ ∃ Y : Ω → Arr, (∀ ω, Generic.transposeArr none (X ω) = .ok (Y ω)) ∧ ¬ CovRight P Y h := by
  obtain ⟨e, he, rfl⟩ := map_ok hg
  have hT : ∀ a : Arr, a.shape = [2, 2] → Generic.transposeArr none a = .ok ⟨[2, 2], fun idx => a.get (scatter 2 [1, 0] idx)⟩ := fun a ha => by
    unfold Generic.transposeArr Arr.transpose Arr.permute Arr.ndim
    rw [ha]
    rfl
  rw [hT _ hs] at he
  obtain rfl := Except.ok.inj he
  have hcov : ∀ R : Generic ρ, R.shape = [2, 2] → R.cov = some g.covP → R.covP = .ok C := fun R h1 h2 => by
    rw [Generic.covP, h2, h1, hc]
    refine checkShape_eq ?_
    have := (property_ok hc).2
    rwa [hs] at this
  refine ⟨hcov _ rfl rfl, fun ω => ⟨[2, 2], fun idx => (X ω).get (scatter 2 [1, 0] idx)⟩, fun ω => hT _ ((hX.shape ω).trans hs), fun hR => hne ?_⟩
  have h1 := hR C (hcov _ rfl rfl) 1 (show 1 < 2 * (2 * 1) by decide) 1
    (show 1 < 2 * (2 * 1) by decide)
  have h2 := hC C hc 2 (by rw [hs]; decide) 2 (by rw [hs]; decide)
  have h3 : (fun ω => (⟨[2, 2], fun idx => (X ω).get (scatter 2 [1, 0] idx)⟩ : Arr).flat 1) = fun ω => (X ω).flat 2 := by
    funext ω
    show (X ω).get (scatter 2 [1, 0] (unravel [2, 2] 1)) = (X ω).get (unravel (X ω).shape 2)
    rw [hX.shape ω, hs]
    rfl
  rw [h3, h2, hs] at h1
  exact h1.symm

/-- ★ Reshaping between a number and an array with one entry: the covariance of the result raises ValueError. -/
theorem reshape_scalar_cov {s : List ℕ} {C : Arr} (hc : g.covP = .ok C) (hs : ¬ (g.shape = [] ↔ s = [])) :
    (g.reshape s).covP = .error .valueError := by
  have h0 := (property_ok hc).2
  show g.covP.bind (checkShape (expectedCov s)) = _
  rw [hc]
  show checkShape _ C = _
  rw [checkShape, if_neg]
  rw [h0]
  unfold expectedCov
  by_cases hg : g.shape = []
  · rw [if_pos hg, if_neg fun e => hs ⟨fun _ => e, fun _ => hg⟩]
    simp
  · by_cases hs' : s = []
    · rw [if_neg hg, if_pos hs']
      simp
    · exact absurd ⟨fun e => absurd e hg, fun e => absurd e hs'⟩ hs

/-- ★ `rv[i]` of a vector, sampled with size `(k,)`: the index is applied to the axis of the samples.  The result is sample `i`
(of the whole vector), or an IndexError if there are not that many samples. -/
theorem getitem_sample_wrong {i k : ℕ} {r r' : ρ} {a : Arr} (hs : g.shape = [n]) (hg : g.getitem [.int i] = .ok h)
    (ha : g.sampleP [k] r = .ok (a, r')) (has : a.shape = [k, n]) :
    (k ≤ i → h.sampleP [k] r = .error .indexError) ∧
      (i < k → ∃ y, h.sampleP [k] r = .ok (y, r') ∧ y.shape = [n] ∧ ∀ j < n, y.flat j = a.flat (i * n + j)) := by
  obtain ⟨e, he, rfl⟩ := map_ok hg
  have key : ∀ R : Generic ρ, R.sample = some (Generic.onSample (fun _ a => a.index [.int i]) g) →
      R.sampleP [k] r = (a.index [.int i]).map fun y => (y, r') := fun R hR => by
    rw [Generic.sampleP, hR]
    show (g.sampleP [k] r).bind _ = _
    rw [ha]
    rfl
  rw [key _ rfl]
  have hidx : a.index [.int i] = (gather [.int i] [k]).map fun g => a.gatherFirst g 1 := by
    rw [Arr.index, Arr.ndim, has, if_pos (by simp)]
    rfl
  constructor
  · intro hk
    have : normAxis k i = none := by
      unfold normAxis
      rw [if_neg (by omega), if_neg (by omega)]
    have hax : axisSel k (.int i) = .error .indexError := by
      unfold axisSel
      simp only [this]
    rw [hidx]
    unfold gather sels
    rw [hax]
    rfl
  · intro hk
    have : normAxis k i = some i := by
      unfold normAxis
      rw [if_pos (by omega)]
      rfl
    have hgat : gather [.int i] [k] = .ok ⟨[], fun _ => [i]⟩ := by
      have hax : axisSel k (.int i) = .ok (.one i) := by
        unfold axisSel
        simp only [this]
      unfold gather sels
      rw [hax]
      rfl
    rw [hidx, hgat]
    refine ⟨a.gatherFirst ⟨[], fun _ => [i]⟩ 1, rfl, ?_, fun j hj => ?_⟩
    · show [] ++ a.shape.drop 1 = _
      rw [has]
      rfl
    · have hlt : i * n + j < k * n := block_lt ⟨i, hk⟩ ⟨j, hj⟩
      have hsh : (a.gatherFirst ⟨[], fun _ => [i]⟩ 1).shape = [n] := by
        show [] ++ a.shape.drop 1 = _
        rw [has]
        rfl
      rw [Arr.flat_one hsh hj, Arr.flat_two has hlt]
      show a.get ([i] ++ [j].drop 0) = _
      have hn : 0 < n := by omega
      rw [Nat.add_comm (i * n), Nat.add_mul_div_right _ _ hn, Nat.div_eq_of_lt hj, Nat.zero_add, Nat.add_mul_mod_self_right,
        Nat.mod_eq_of_lt hj]
      rfl

/-- ★ Samples of a random variable transposed with explicit axes raise ValueError, unless the size is `()`. -/
theorem transpose_axes_raises {axes : List ℤ} {r r' : ρ} {a : Arr} (hg : g.transpose (some axes) = .ok h)
    (ha : g.sampleP size r = .ok (a, r')) (has : a.shape = size ++ g.shape) (hne : size ≠ []) :
    h.sampleP size r = .error .valueError := by
  obtain ⟨e, he, rfl⟩ := map_ok hg
  have key : ∀ R : Generic ρ, R.sample = some (Generic.onSample (fun _ => Generic.transposeArr (some axes)) g) →
      R.sampleP size r = (Generic.transposeArr (some axes) a).map fun y => (y, r') := fun R hR => by
    rw [Generic.sampleP, hR]
    show (g.sampleP size r).bind _ = _
    rw [ha]
    rfl
  rw [key _ rfl]
  have hlen : axes.length = g.shape.length := by
    unfold Generic.transposeArr Arr.transpose at he
    split at he
    · cases he
    · rename_i l hl
      unfold Arr.permute at he
      split at he
      · rename_i hp
        exact (mapM_normAxis hl).length_eq.trans hp.1
      · cases he
  have : Generic.transposeArr (some axes) a = .error .valueError := by
    unfold Generic.transposeArr Arr.transpose
    split
    · rfl
    · rename_i l hl
      rw [Arr.permute, if_neg]
      rintro ⟨h1, _⟩
      rw [Arr.ndim, has, List.length_append] at h1
      have h2 := (mapM_normAxis hl).length_eq
      have h3 : size.length ≠ 0 := fun e => hne (List.length_eq_zero_iff.1 e)
      have h4 : (resolveAxes a.ndim (some axes)).length = axes.length := rfl
      omega
  rw [this]
  rfl

/-- ★ Samples of `rv.transpose()` have all axes reversed, those of the samples included. -/
theorem transpose_sample_shape {r r' : ρ} {a y : Arr} (hg : g.transpose none = .ok h) (ha : g.sampleP size r = .ok (a, r'))
    (has : a.shape = size ++ g.shape) (hy : h.sampleP size r = .ok (y, r')) : y.shape = g.shape.reverse ++ size.reverse := by
  obtain ⟨e, he, rfl⟩ := map_ok hg
  have key : ∀ R : Generic ρ, R.sample = some (Generic.onSample (fun _ => Generic.transposeArr none) g) →
      R.sampleP size r = (Generic.transposeArr none a).map fun y => (y, r') := fun R hR => by
    rw [Generic.sampleP, hR]
    show (g.sampleP size r).bind _ = _
    rw [ha]
    rfl
  rw [key _ rfl] at hy
  obtain ⟨z, hz, e⟩ := map_ok hy
  obtain ⟨rfl, _⟩ := Prod.mk.inj e
  unfold Generic.transposeArr Arr.transpose at hz
  split at hz
  · cases hz
  · rename_i l hl
    unfold Arr.permute at hz
    split at hz
    swap
    · cases hz
    rw [← Except.ok.inj hz]
    have h0 : normAxes a.ndim (resolveAxes a.ndim none) = some (List.range a.ndim).reverse := by
      refine mapM_normAxis_eq ?_
      show List.Forall₂ _ ((List.range a.ndim).reverse.map fun k : ℕ => (k : ℤ)) (List.range a.ndim).reverse
      rw [List.forall₂_map_left_iff, List.forall₂_same]
      intro x hx
      have : x < a.ndim := by simpa using hx
      unfold normAxis
      rw [if_pos (by omega)]
      rfl
    rw [h0] at hl
    obtain rfl := Option.some.inj hl
    show ((List.range a.ndim).reverse.map fun d => a.shape.getD d 0) = _
    rw [← List.reverse_append, ← has, List.map_reverse, Arr.ndim]
    congr 1
    refine List.ext_getElem (by simp) fun i h1 h2 => ?_
    simp [List.getElem?_eq_getElem h2]

/-- ★ A vector and a number (neither of one entry nor matching): samples of size `(k,)` raise ValueError. -/
theorem broadcast_raises {f : ℝ → ℝ → ℝ} {k : ℕ} {r r' r'' : ρ} {a b : Arr} (ha : g.sampleP [k] r = .ok (a, r'))
    (hb : h.sampleP [k] r' = .ok (b, r'')) (has : a.shape = [k, n]) (hbs : b.shape = [k]) (h1 : k ≠ n) (h2 : k ≠ 1) (h3 : n ≠ 1) :
    Generic.binSample (Arr.bin f) g h [k] r = .error .valueError := by
  unfold Generic.binSample
  rw [ha]
  show (h.sampleP [k] r').bind _ = _
  rw [hb]
  show (Arr.bin f a b).map _ = _
  have : bshape a.shape b.shape = .error .valueError := by
    rw [has, hbs]
    show (match brev [n, k] [k] with | some u => _ | none => _) = _
    have : brev [n, k] [k] = none := by
      rw [brev, bdim, if_neg (Ne.symm h1), if_neg h3, if_neg h2]
      rfl
    rw [this]
  rw [Arr.bin, this]
  rfl

/-- ★ A vector of length `n` and a number, `n` samples: sample `i` of the result combines sample `i` of the vector with all `n`
samples of the number, instead of sample `i`. -/
theorem broadcast_mixes {f : ℝ → ℝ → ℝ} {r r' r'' : ρ} {a b : Arr} (ha : g.sampleP [n] r = .ok (a, r'))
    (hb : h.sampleP [n] r' = .ok (b, r'')) (has : a.shape = [n, n]) (hbs : b.shape = [n]) :
    ∃ y, Generic.binSample (Arr.bin f) g h [n] r = .ok (y, r'') ∧ y.shape = [n, n] ∧
      ∀ i < n, ∀ j < n, y.get [i, j] = f (a.get [i, j]) (b.get [j]) := by
  have hsh : bshape a.shape b.shape = .ok [n, n] := by
    rw [has, hbs]
    show (match brev [n, n] [n] with | some u => _ | none => _) = _
    have : brev [n, n] [n] = some [n, n] := by
      rw [brev, bdim, if_pos rfl]
      rfl
    rw [this]
    rfl
  refine ⟨⟨[n, n], fun idx => f (a.bget idx) (b.bget idx)⟩, ?_, rfl, fun i hi j hj => ?_⟩
  · unfold Generic.binSample
    rw [ha]
    show (h.sampleP [n] r').bind _ = _
    rw [hb]
    show (Arr.bin f a b).map _ = _
    rw [Arr.bin_eq hsh]
    rfl
  · show f (a.get (bir a.shape.reverse [j, i]).reverse) (b.get (bir b.shape.reverse [j, i]).reverse) = _
    rw [has, hbs]
    have hz : ∀ x < n, (if n = 1 then 0 else x) = x := fun x hx => by
      split
      · omega
      · rfl
    show f (a.get [if n = 1 then 0 else i, if n = 1 then 0 else j]) (b.get [if n = 1 then 0 else j]) = _
    rw [hz i hi, hz j hj]

/-- ★ A number without a median function: TypeError instead of NotImplementedError. -/
theorem median_missing (hs : g.shape = []) (hm : g.median = none) : g.medianP = .error .typeError := by
  rw [Generic.medianP, if_neg (not_not.2 hs), hm]

/-- ★ A number with a covariance but no variance function: ValueError. -/
theorem var_scalar_raises (hs : g.shape = []) (hv : g.var = none) {C : Arr} (hc : g.covP = .ok C) :
    g.varP = .error .valueError ∧ (g.std = none → g.stdP = .error .valueError) := by
  have h0 : C.shape = [] := by
    have := (property_ok hc).2
    rwa [hs] at this
  have h1 : g.varP = .error .valueError := by
    rw [Generic.varP, hv, hc]
    show (match C.shape with | [n, _] => _ | _ => _) = _
    rw [h0]
  refine ⟨h1, fun h2 => ?_⟩
  rw [Generic.stdP, h2, h1]
  rfl

/-- ★ The mode of a slice is the slice of the mode, which need not be a mode of the slice: here `(X₀, X₁)` is `(0, 0)` with
probability 0.4 and `(1, 1)`, `(1, 2)` with probability 0.3 each. -/
theorem getitem_mode_wrong : ∃ (p : Fin 3 → ℝ) (Z : Fin 3 → ℝ × ℝ) (g h : Generic Unit) (a b : Arr),
    (∀ ω, 0 ≤ p ω) ∧ ∑ ω, p ω = 1 ∧ g.modeP = .ok a ∧ (∀ v, discreteProb p Z v ≤ discreteProb p Z (a.get [0], a.get [1])) ∧
      g.getitem [.int 0] = .ok h ∧ h.modeP = .ok b ∧
      discreteProb p (fun ω => (Z ω).1) (b.get []) < discreteProb p (fun ω => (Z ω).1) 1 := by
  refine ⟨![0.4, 0.3, 0.3], ![(0, 0), (1, 1), (1, 2)], { shape := [2], mode := some (.ok ⟨[2], fun _ => 0⟩) }, _,
    ⟨[2], fun _ => 0⟩, ⟨[], fun _ => 0⟩, ?_, ?_, rfl, ?_, rfl, rfl, ?_⟩
  · intro ω
    fin_cases ω <;> norm_num
  · simp [Fin.sum_univ_three]
    norm_num
  · intro v
    simp only [discreteProb, Fin.sum_univ_three]
    simp
    by_cases h0 : (0, 0) = v
    · subst h0
      norm_num
    · by_cases h1 : (1, 1) = v
      · subst h1
        norm_num
      · by_cases h2 : (1, 2) = v
        · subst h2
          norm_num
        · simp [h0, h1, h2]
          norm_num
  · simp [discreteProb, Fin.sum_univ_three]
    norm_num

/-- ★ The entropy of a slice is that of the whole random variable: here `X₀ = 0` and `X₁` is a fair bit; the entropy reported for
`X[0]` is `log 2` instead of 0. -/
theorem getitem_entropy_wrong : ∃ (p : Fin 2 → ℝ) (Z : Fin 2 → ℝ × ℝ) (g h : Generic Unit) (e : ℝ),
    (∀ ω, 0 ≤ p ω) ∧ ∑ ω, p ω = 1 ∧ g.entropyP = .ok e ∧ e = discreteEntropy p Z ∧ g.getitem [.int 0] = .ok h ∧
      h.entropyP = .ok (Real.log 2) ∧ discreteEntropy p (fun ω => (Z ω).1) = 0 := by
  have hE : discreteEntropy ![1 / 2, 1 / 2] ![((0 : ℝ), (0 : ℝ)), (0, 1)] = Real.log 2 := by
    have hi : Finset.univ.image ![((0 : ℝ), (0 : ℝ)), (0, 1)] = {(0, 0), (0, 1)} := by
      ext v
      simp [Fin.exists_fin_two, eq_comm]
    rw [discreteEntropy, hi, Finset.sum_pair (by simp)]
    simp [Real.negMulLog]
    ring
  refine ⟨![1 / 2, 1 / 2], ![(0, 0), (0, 1)], { shape := [2], entropy := some (.ok (Real.log 2)) }, _, Real.log 2, ?_, ?_, rfl,
    hE.symm, rfl, rfl, ?_⟩
  · intro ω
    fin_cases ω <;> norm_num
  · norm_num [Fin.sum_univ_two]
  · have hi : (Finset.univ.image fun ω => (![((0 : ℝ), (0 : ℝ)), (0, 1)] ω).1) = {0} := by
      ext v
      simp [Fin.exists_fin_two, eq_comm]
    rw [discreteEntropy, hi, Finset.sum_singleton]
    simp
    norm_num

/-! ## The hypotheses are met -/

section Examples

/-- Standard normal numbers from an ideal generator. -/
noncomputable abbrev idealGen : Measure (ℕ → ℝ) := Measure.infinitePi fun _ => gaussianReal 0 1

/-- A 2×2 matrix of independent standard normal numbers, with samples of all sizes. -/
example (size : List ℕ) : DrawsAt idealGen (streamVar [2, 2]) 4 (Measure.pi fun _ => gaussianReal 0 1) size :=
  stream_draws (gaussianReal 0 1) [2, 2] size

example (size : List ℕ) :
    DrawsAt idealGen ((streamVar [2, 2]).reshape [4]) 4 (Measure.pi fun _ => gaussianReal 0 1) size :=
  reshape_draws (stream_draws (gaussianReal 0 1) [2, 2] size) rfl

example (size : List ℕ) :
    DrawsAt idealGen (streamVar [2, 2]).neg 4 ((Measure.pi fun _ => gaussianReal 0 1).map fun x i => -x i) size ∧
      DrawsAt idealGen (streamVar [2, 2]).pos 4 (Measure.pi fun _ => gaussianReal 0 1) size ∧
      DrawsAt idealGen (streamVar [2, 2]).abs 4 ((Measure.pi fun _ => gaussianReal 0 1).map fun x i => |x i|) size :=
  have h := stream_draws (gaussianReal 0 1) [2, 2] size
  ⟨neg_draws h, pos_draws h, abs_draws h⟩

/-- The last row of the matrix. -/
example : ∃ h, (streamVar [2, 2]).getitem [.int (-1)] = .ok h ∧ h.shape = [2] ∧
    ∃ τ : Fin 2 → Fin 4, DrawsAt idealGen h 2 ((Measure.pi fun _ => gaussianReal 0 1).map fun x i => x (τ i)) [] := by
  refine ⟨_, rfl, rfl, ?_⟩
  obtain ⟨τ, _, h⟩ := getitem_draws_partial (m := 2) (g := streamVar [2, 2]) (key := [.int (-1)]) rfl
    (stream_draws (gaussianReal 0 1) [2, 2] []) rfl
  exact ⟨τ, h⟩

example : ∃ h, (streamVar [2, 3]).transpose (some [1, 0]) = .ok h ∧ h.shape = [3, 2] ∧
    ∃ τ : Fin 6 → Fin 6, DrawsAt idealGen h 6 ((Measure.pi fun _ => gaussianReal 0 1).map fun x i => x (τ i)) [] := by
  refine ⟨_, rfl, rfl, ?_⟩
  obtain ⟨τ, _, h⟩ := transpose_draws_partial (m := 6) (g := streamVar [2, 3]) (axes := some [1, 0]) rfl
    (stream_draws (gaussianReal 0 1) [2, 3] []) rfl
  exact ⟨τ, h⟩

example (size : List ℕ) (r₀ : ℕ → ℝ) : ∃ R, Generic.binOp Arr.mul r₀ (streamVar [2, 2]) (streamVar [2, 2]) = .ok R ∧ R.shape = [2, 2] ∧
    DrawsAt idealGen R 4 (((Measure.pi fun _ => gaussianReal 0 1).prod (Measure.pi fun _ => gaussianReal 0 1)).map
      fun p i => p.1 i * p.2 i) size :=
  binOp_draws (measurable_fst.mul measurable_snd) rfl r₀ (stream_draws _ [2, 2] []) (stream_draws _ [2, 2] [])
    (stream_draws _ [2, 2] size) (stream_draws _ [2, 2] size)

/-- Slices, transposed matrices, sums of vectors and numbers: the wrong samples. -/
example (r : ℕ → ℝ) :
    (∃ h, (streamVar [3]).getitem [.int 2] = .ok h ∧ h.sampleP [2] r = .error .indexError) ∧
      (∃ h, (streamVar [2, 3]).transpose (some [1, 0]) = .ok h ∧ h.sampleP [5] r = .error .valueError) ∧
      (∃ h y r', (streamVar [2, 3]).transpose none = .ok h ∧ h.shape = [3, 2] ∧ h.sampleP [5] r = .ok (y, r') ∧ y.shape = [3, 2, 5]) ∧
      Generic.binSample Arr.add (streamVar [3]) (streamVar []) [2] r = .error .valueError := by
  refine ⟨⟨_, rfl, ?_⟩, ⟨_, rfl, ?_⟩, ⟨_, _, _, rfl, rfl, rfl, rfl⟩, ?_⟩
  · exact (getitem_sample_wrong (g := streamVar [3]) (i := 2) (k := 2) (n := 3) rfl rfl rfl rfl).1 le_rfl
  · exact transpose_axes_raises (g := streamVar [2, 3]) (axes := [1, 0]) rfl rfl rfl (by decide)
  · exact broadcast_raises (n := 3) rfl rfl rfl rfl (by decide) (by decide) (by decide)

example (r : ℕ → ℝ) : ∃ y r', Generic.binSample Arr.add (streamVar [2]) (streamVar []) [2] r = .ok (y, r') ∧
    y.get [0, 1] = r 1 + r 5 ∧ y.get [1, 0] = r 2 + r 4 := by
  obtain ⟨y, h1, _, h3⟩ := broadcast_mixes (f := (· + ·)) (g := streamVar [2]) (h := streamVar []) (n := 2) (r := r) rfl rfl rfl rfl
  exact ⟨y, _, h1, h3 0 (by decide) 1 (by decide), h3 1 (by decide) 0 (by decide)⟩

/-- A random 2×2 matrix with one nonzero entry, at `[0, 1]`. -/
def cornerArr (x : ℝ) : Arr := ⟨[2, 2], fun idx => if idx = [0, 1] then x else 0⟩

/-- Its moments. -/
def cornerVar : Generic Unit :=
  { shape := [2, 2]
    mean := some (.ok ⟨[2, 2], fun _ => 0⟩)
    cov := some (.ok ⟨[4, 4], fun idx => if idx = [1, 1] then 1 else 0⟩) }

theorem cornerArr_flat {i : ℕ} (hi : i < 4) : (fun x => (cornerArr x).flat i) = if i = 1 then fun x => x else fun _ => 0 := by
  funext x
  rw [Arr.flat_two (m := 2) (n := 2) rfl hi]
  show (if [i / 2, i % 2] = [0, 1] then x else 0) = _
  interval_cases i <;> rfl

theorem corner_var {i : ℕ} (hi : i < 4) :
    Var[fun x => (cornerArr x).flat i; gaussianReal 0 1] = if i = 1 then 1 else 0 := by
  rw [cornerArr_flat hi]
  split
  · rw [variance_fun_id_gaussianReal]
    rfl
  · exact variance_zero _

theorem corner_describes : Describes (gaussianReal 0 1) cornerArr cornerVar := by
  have hv : cornerVar.varP = .ok ((⟨[4], fun idx => if [idx.headD 0, idx.headD 0] = [1, 1] then 1 else 0⟩ : Arr).withShape [2, 2]) := rfl
  have hflat : ∀ i < 4, ((⟨[4], fun idx => if [idx.headD 0, idx.headD 0] = [1, 1] then 1 else 0⟩ : Arr).withShape [2, 2]).flat i =
      if i = 1 then 1 else 0 := fun i hi => by
    rw [Arr.withShape_flat (s := [2, 2]) hi, Arr.flat_one (n := 4) rfl hi]
    show (if [i, i] = [1, 1] then (1 : ℝ) else 0) = _
    simp
  refine ⟨fun _ => rfl, fun m hm => ?_, fun v h => ?_, fun s h => ?_⟩
  · obtain rfl : (⟨[2, 2], fun _ => 0⟩ : Arr) = m := Except.ok.inj hm
    refine ⟨rfl, fun i hi => ?_⟩
    rw [cornerArr_flat hi]
    split
    · exact integral_id_gaussianReal
    · simp [Arr.flat]
  · obtain rfl := Except.ok.inj (hv.symm.trans h)
    refine ⟨rfl, fun i hi => ?_⟩
    rw [corner_var hi, hflat i hi]
  · have h' : cornerVar.stdP = .ok (((⟨[4], fun idx => if [idx.headD 0, idx.headD 0] = [1, 1] then 1 else 0⟩ : Arr).withShape
        [2, 2]).map Real.sqrt) := rfl
    obtain rfl := Except.ok.inj (h'.symm.trans h)
    refine ⟨rfl, fun i hi => ?_⟩
    rw [corner_var hi, map_flat, hflat i hi]

theorem corner_cov : CovRight (gaussianReal 0 1) cornerArr cornerVar := by
  intro C hC i hi j hj
  obtain rfl : (⟨[4, 4], fun idx => if idx = [1, 1] then 1 else 0⟩ : Arr) = C := Except.ok.inj hC
  have hi' : i < 4 := hi
  have hj' : j < 4 := hj
  have e : (⟨[4, 4], fun idx => if idx = [1, 1] then 1 else 0⟩ : Arr).flat (i * 4 + j) = if i = 1 ∧ j = 1 then 1 else 0 := by
    rw [Arr.flat_two (m := 4) (n := 4) rfl (by omega)]
    show (if [(i * 4 + j) / 4, (i * 4 + j) % 4] = [1, 1] then (1 : ℝ) else 0) = _
    have h1 : (i * 4 + j) / 4 = i := by omega
    have h2 : (i * 4 + j) % 4 = j := by omega
    rw [h1, h2]
    simp
  show _ = (⟨[4, 4], fun idx => if idx = [1, 1] then 1 else 0⟩ : Arr).flat (i * 4 + j)
  rw [e, cornerArr_flat hi', cornerArr_flat hj']
  by_cases h1 : i = 1
  · by_cases h2 : j = 1
    · rw [if_pos h1, if_pos h2, if_pos ⟨h1, h2⟩, covariance_self (by fun_prop), variance_fun_id_gaussianReal]
      rfl
    · rw [if_neg h2, if_neg (show ¬ (i = 1 ∧ j = 1) from fun h => h2 h.2)]
      exact covariance_const_right _
  · rw [if_neg h1, if_neg (show ¬ (i = 1 ∧ j = 1) from fun h => h1 h.1)]
    exact covariance_const_left _

example : ∃ h, cornerVar.transpose none = .ok h ∧
    ∃ Y : ℝ → Arr, (∀ x, Generic.transposeArr none (cornerArr x) = .ok (Y x)) ∧ Describes (gaussianReal 0 1) Y h ∧
      ∃ v, h.varP = .ok v := by
  refine ⟨_, rfl, ?_⟩
  obtain ⟨Y, h1, h2, _, h3, _⟩ := transpose_describes (axes := none) corner_describes rfl
  exact ⟨Y, h1, h2, h3 ⟨_, rfl⟩⟩

example : ∃ h, cornerVar.transpose none = .ok h ∧
    ∃ Y : ℝ → Arr, (∀ x, Generic.transposeArr none (cornerArr x) = .ok (Y x)) ∧ ¬ CovRight (gaussianReal 0 1) Y h := by
  refine ⟨_, rfl, (transpose_cov_wrong corner_describes corner_cov rfl rfl ?_ rfl).2⟩
  show (if [1, 1] = [1, 1] then (1 : ℝ) else 0) ≠ if [2, 2] = [1, 1] then 1 else 0
  simp

example : ∃ h, cornerVar.getitem [.int 0, .slice none none none] = .ok h ∧ h.shape = [2] ∧
    ∃ Y : ℝ → Arr, (∀ x, (cornerArr x).index [.int 0, .slice none none none] = .ok (Y x)) ∧ Describes (gaussianReal 0 1) Y h ∧
      ∃ a, h.meanP = .ok a := by
  refine ⟨_, rfl, rfl, ?_⟩
  obtain ⟨Y, h1, h2, h3, _⟩ := getitem_describes (key := [.int 0, .slice none none none]) corner_describes rfl
  exact ⟨Y, h1, h2, h3 ⟨_, rfl⟩⟩

example : ∃ Y : ℝ → Arr, (∀ x, (cornerArr x).reshapeTo [4, 1] = .ok (Y x)) ∧ Describes (gaussianReal 0 1) Y (cornerVar.reshape [4, 1]) ∧
    CovRight (gaussianReal 0 1) Y (cornerVar.reshape [4, 1]) ∧ ∃ C, (cornerVar.reshape [4, 1]).covP = .ok C := by
  obtain ⟨Y, h1, h2, h3, _, _, _, h4⟩ := reshape_describes (s := [4, 1]) corner_describes rfl
  exact ⟨Y, h1, h2, h3 corner_cov, h4 (by simp [cornerVar]) ⟨_, rfl⟩⟩

example : Describes (gaussianReal 0 1) (fun x => (cornerArr x).neg) cornerVar.neg ∧
    CovRight (gaussianReal 0 1) (fun x => (cornerArr x).neg) cornerVar.neg :=
  have h := neg_describes corner_describes corner_cov
  ⟨h.1, h.2.1⟩

example : Describes (gaussianReal 0 1) cornerArr cornerVar.pos ∧ CovRight (gaussianReal 0 1) cornerArr cornerVar.pos :=
  have h := pos_describes corner_describes corner_cov
  ⟨h.1, h.2.1⟩

example : Describes (gaussianReal 0 1) cornerArr cornerVar ∧ ∃ v, cornerVar.varP = .ok v :=
  have h := derived_describes (P := gaussianReal 0 1) (X := cornerArr) (g := cornerVar) corner_describes.shape rfl rfl
    (by simp [cornerVar]) corner_describes.mean corner_cov (fun i hi => by
      rw [cornerArr_flat hi]
      split
      · exact aemeasurable_id
      · exact aemeasurable_const)
  ⟨h.1, (h.2 ⟨_, rfl⟩).1⟩

/-- A number with a mean and a covariance function, but no variance. -/
def numberVar : Generic Unit :=
  { shape := [], mean := some (.ok ⟨[], fun _ => 0⟩), cov := some (.ok ⟨[], fun _ => 1⟩), inSupport := some fun _ => true }

example : numberVar.varP = .error .valueError ∧ numberVar.medianP = .error .typeError ∧
    (numberVar.reshape [1]).covP = .error .valueError :=
  ⟨(var_scalar_raises rfl rfl rfl).1, median_missing rfl rfl, reshape_scalar_cov rfl (by simp [numberVar])⟩

end Examples

end Probnum.RandVars
