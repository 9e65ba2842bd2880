import Verif.RandVars.ArithLemmas

/-!
# C30: arithmetic on normal random variables, sums and multiples

`Law P X N` (`Verif/RandVars/Spec.lean`): the random array `X` has the distribution the object `N` describes.  Each
theorem says: whenever the operator returns on the object, the same operator applied to the values of the random array
returns for every outcome, and the result has the distribution described by the returned object.  `Root` says that the
available Cholesky factor squares to the covariance.
-/

namespace Probnum.RandVars

open MeasureTheory ProbabilityTheory Finset Gauss

variable {Ω : Type*} {mΩ : MeasurableSpace Ω} {P : Measure Ω} {X Y : Ω → Arr} {N M N' : Normal}

/-- `-X`. -/
theorem neg_law (hN : N.WF) (hX : Law P X N) :
    ∃ R, N.neg = .ok R ∧ R.WF ∧ Law P (fun ω => (X ω).neg) R := by
  have hR : N.neg = .ok ⟨N.mean.neg, N.cov, none⟩ := mkNormal_eq hN.ndim hN.cov
  refine ⟨_, hR, (mkNormal_ok hR).2.1, ?_⟩
  have hf : SelectOp (fun x => .ok x.neg) N.mean.shape N.mean.shape id (-1) (fun _ => 0) := by
    intro x hx
    refine ⟨_, rfl, hx, fun i hi => ⟨hi, ?_⟩⟩
    show -x.flat i = -1 * x.flat i + 0
    ring
  obtain ⟨Z, h1, h2⟩ := law_select (N' := ⟨N.mean.neg, N.cov, none⟩) hX hf rfl fun i _ j _ => by
    show N.covAt i j = (-1) ^ 2 * N.covAt i j
    ring
  have : Z = fun ω => (X ω).neg := funext fun ω => (Except.ok.inj (h1 ω)).symm
  rwa [this] at h2

/-- `X + c`. -/
theorem add_constant (hN : N.WF) (hX : Law P X N) {c : Arr} {R : RV} (h : add (.normal N) (.const c) = .ok R) :
    ∃ S, R = .normal S ∧ S.WF ∧ (∃ Z : Ω → Arr, (∀ ω, (X ω).add c = .ok (Z ω)) ∧ Law P Z S) ∧ (N.Root → S.Root) := by
  obtain ⟨m, hm, h⟩ := bind_ok h
  obtain ⟨S, hS, rfl⟩ := map_ok h
  refine ⟨S, rfl, shift_law (f := fun x => x.add c) (α := 1) (by norm_num) hX hN hm hS fun s' hs' hp => ?_⟩
  subst hs'
  exact ⟨_, bin_select_left (h := id) (fun t u => by simp) (Arr.bin_ok hm).1 hp⟩

/-- `c + X`. -/
theorem constant_add (hN : N.WF) (hX : Law P X N) {c : Arr} {R : RV} (h : add (.const c) (.normal N) = .ok R) :
    ∃ S, R = .normal S ∧ S.WF ∧ (∃ Z : Ω → Arr, (∀ ω, c.add (X ω) = .ok (Z ω)) ∧ Law P Z S) ∧ (N.Root → S.Root) := by
  have h' : add (.normal N) (.const c) = .ok R := h
  obtain ⟨S, h1, h2, ⟨Z, h3, h4⟩, h5⟩ := add_constant hN hX h'
  exact ⟨S, h1, h2, ⟨Z, fun ω => (bin_comm (fun t u => add_comm t u) _ _).trans (h3 ω), h4⟩, h5⟩

/-- `X - c`. -/
theorem sub_constant (hN : N.WF) (hX : Law P X N) {c : Arr} {R : RV} (h : sub (.normal N) (.const c) = .ok R) :
    ∃ S, R = .normal S ∧ S.WF ∧ (∃ Z : Ω → Arr, (∀ ω, (X ω).sub c = .ok (Z ω)) ∧ Law P Z S) ∧ (N.Root → S.Root) := by
  obtain ⟨m, hm, h⟩ := bind_ok h
  obtain ⟨S, hS, rfl⟩ := map_ok h
  refine ⟨S, rfl, shift_law (f := fun x => x.sub c) (α := 1) (by norm_num) hX hN hm hS fun s' hs' hp => ?_⟩
  subst hs'
  exact ⟨_, bin_select_left (h := fun u => -u) (fun t u => by ring) (Arr.bin_ok hm).1 hp⟩

/-- `c - X`. -/
theorem constant_sub (hN : N.WF) (hX : Law P X N) {c : Arr} {R : RV} (h : sub (.const c) (.normal N) = .ok R) :
    ∃ S, R = .normal S ∧ S.WF ∧ (∃ Z : Ω → Arr, (∀ ω, c.sub (X ω) = .ok (Z ω)) ∧ Law P Z S) ∧ (N.Root → S.Root) := by
  obtain ⟨m, hm, h⟩ := bind_ok h
  obtain ⟨S, hS, rfl⟩ := map_ok h
  refine ⟨S, rfl, shift_law (f := fun x => c.sub x) (α := -1) (by norm_num) hX hN hm hS fun s' hs' hp => ?_⟩
  subst hs'
  exact ⟨_, bin_select_right (h := id) (fun u t => by simp [sub_eq_add_neg, add_comm]) (Arr.bin_ok hm).1 hp⟩

/-- Constants of the same shape, and scalars, are always accepted. -/
theorem add_constant_ok (hN : N.WF) (c : Arr) (hc : c.shape = N.mean.shape ∨ c.shape = []) :
    ∃ S, add (.normal N) (.const c) = .ok (.normal S) ∧ add (.const c) (.normal N) = .ok (.normal S) ∧
      (∃ S', sub (.normal N) (.const c) = .ok (.normal S')) ∧ ∃ S', sub (.const c) (.normal N) = .ok (.normal S') := by
  have hb : bshape N.mean.shape c.shape = .ok N.mean.shape := by
    rcases hc with h | h
    · rw [h, bshape_self]
    · rw [h, bshape_nil]
  have key : ∀ m : Arr, m.shape = N.mean.shape → mkNormal m N.cov N.chol = .ok ⟨m, N.cov, N.chol⟩ := by
    intro m hm
    have hb : badFactor m N.cov N.chol ↔ badFactor N.mean N.cov N.chol := by
      unfold badFactor; cases N.chol <;> simp [hm]
    rw [mkNormal, if_neg (by rw [Arr.ndim, hm]; exact Nat.not_lt.2 hN.ndim), if_neg (by rw [hm]; simpa using hN.cov),
      if_neg (by rw [hb]; exact (mkNormal_ok hN).2.2.2.2)]
  have e1 : addNormalConst N c = .ok (.normal ⟨⟨N.mean.shape, fun idx => N.mean.bget idx + c.bget idx⟩, N.cov, N.chol⟩) := by
    rw [addNormalConst, Arr.add, Arr.bin_eq hb]
    show Except.map RV.normal (mkNormal _ N.cov N.chol) = _
    rw [key] <;> rfl
  refine ⟨_, e1, e1, ⟨⟨⟨N.mean.shape, fun idx => N.mean.bget idx - c.bget idx⟩, N.cov, N.chol⟩, ?_⟩,
    ⟨⟨N.mean.shape, fun idx => c.bget idx - N.mean.bget idx⟩, N.cov, N.chol⟩, ?_⟩
  · show subNormalConst N c = _
    rw [subNormalConst, Arr.sub, Arr.bin_eq hb]
    show Except.map RV.normal (mkNormal _ N.cov N.chol) = _
    rw [key] <;> rfl
  · show subConstNormal c N = _
    rw [subConstNormal, Arr.sub, Arr.bin_eq ((bshape_comm _ _).trans hb)]
    show Except.map RV.normal (mkNormal _ N.cov N.chol) = _
    rw [key] <;> rfl

/-- The sum of two normal random variables: shapes must agree; for independent random arrays the result describes the
sum. -/
theorem add_normal (hN : N.WF) (hM : M.WF) :
    (M.mean.shape ≠ N.mean.shape → add (.normal N) (.normal M) = .error .valueError) ∧
    (M.mean.shape = N.mean.shape → ∃ S, add (.normal N) (.normal M) = .ok (.normal S) ∧ S.WF ∧ S.chol = none ∧
      ∀ (Ω : Type) (_ : MeasurableSpace Ω) (P : Measure Ω) (X Y : Ω → Arr), Law P X N → Law P Y M →
        IndepFun (entries X N.mean.size) (entries Y M.mean.size) P →
        ∃ Z : Ω → Arr, (∀ ω, (X ω).add (Y ω) = .ok (Z ω)) ∧ Law P Z S) := by
  refine ⟨fun h => if_pos h, fun h => ?_⟩
  have hcs : N.cov.shape = M.cov.shape := by rw [hN.cov, hM.cov, h]
  have hb : bshape N.mean.shape M.mean.shape = .ok N.mean.shape := by rw [h, bshape_self]
  have hbc : bshape N.cov.shape M.cov.shape = .ok N.cov.shape := by rw [hcs, bshape_self]
  have hmk := mkNormal_eq (m := ⟨N.mean.shape, fun idx => N.mean.bget idx + M.mean.bget idx⟩)
    (C := ⟨N.cov.shape, fun idx => N.cov.bget idx + M.cov.bget idx⟩) hN.ndim hN.cov
  have hMs : M.mean.size = N.mean.size := by rw [Arr.size, Arr.size, h]
  refine ⟨_, ?_, (mkNormal_ok hmk).2.1, rfl, ?_⟩
  · show addNormal N M = _
    rw [addNormal, if_neg (by simpa using h), Arr.add, Arr.bin_eq hb]
    show (N.cov.bin (· + ·) M.cov).bind _ = _
    rw [Arr.bin_eq hbc]
    exact congrArg (Except.map RV.normal) hmk
  · intro Ω _ P X Y hX hY hi
    have hbω : ∀ ω, bshape (X ω).shape (Y ω).shape = .ok N.mean.shape := fun ω => by
      rw [hX.shape, hY.shape]; exact hb
    refine ⟨fun ω => ⟨N.mean.shape, fun idx => (X ω).bget idx + (Y ω).bget idx⟩, fun ω => Arr.bin_eq (hbω ω), ?_⟩
    have fl : ∀ a b : Arr, a.shape = N.mean.shape → b.shape = N.mean.shape → ∀ i < N.mean.size,
        a.bget (unravel N.mean.shape i) + b.bget (unravel N.mean.shape i) = a.flat i + 1 * b.flat i := by
      intro a b ha hb i hi
      rw [Arr.bget_flat (t := N.mean.shape) (by rw [ha]; exact bshape_self _) (by rw [Arr.size, ha])
          (by rw [Arr.size, ha]; exact hi),
        Arr.bget_flat (t := N.mean.shape) (by rw [hb]; exact bshape_self _) (by rw [Arr.size, hb])
          (by rw [Arr.size, hb]; exact hi), one_mul]
    refine law_comb (α := 1) hX hY hi h (fun ω => ⟨rfl, fun i hi => fl _ _ (hX.shape ω) ((hY.shape ω).trans h) i hi⟩)
      ⟨rfl, fun i hi => fl _ _ rfl h i hi⟩ fun i hi j hj => ?_
    have hk : i * N.mean.size + j < N.cov.size := by rw [hN.cov_size]; exact mul_add_lt hi hj
    have hk' : i * N.mean.size + j < M.cov.size := by
      show _ < M.cov.shape.prod
      rw [← hcs]; exact hk
    show N.cov.bget (unravel N.cov.shape (i * N.mean.size + j)) + M.cov.bget (unravel N.cov.shape (i * N.mean.size + j)) = _
    rw [Arr.bget_flat (t := N.cov.shape) (bshape_self _) rfl hk,
      Arr.bget_flat (t := N.cov.shape) (by rw [← hcs]; exact bshape_self _) (by rw [Arr.size, ← hcs])
        hk', one_pow, one_mul, Normal.covAt, Normal.covAt, hMs]

/-- The difference of two normal random variables. -/
theorem sub_normal (hN : N.WF) (hM : M.WF) :
    (M.mean.shape ≠ N.mean.shape → sub (.normal N) (.normal M) = .error .valueError) ∧
    (M.mean.shape = N.mean.shape → ∃ S, sub (.normal N) (.normal M) = .ok (.normal S) ∧ S.WF ∧ S.chol = none ∧
      ∀ (Ω : Type) (_ : MeasurableSpace Ω) (P : Measure Ω) (X Y : Ω → Arr), Law P X N → Law P Y M →
        IndepFun (entries X N.mean.size) (entries Y M.mean.size) P →
        ∃ Z : Ω → Arr, (∀ ω, (X ω).sub (Y ω) = .ok (Z ω)) ∧ Law P Z S) := by
  refine ⟨fun h => if_pos h, fun h => ?_⟩
  have hcs : N.cov.shape = M.cov.shape := by rw [hN.cov, hM.cov, h]
  have hb : bshape N.mean.shape M.mean.shape = .ok N.mean.shape := by rw [h, bshape_self]
  have hbc : bshape N.cov.shape M.cov.shape = .ok N.cov.shape := by rw [hcs, bshape_self]
  have hmk := mkNormal_eq (m := ⟨N.mean.shape, fun idx => N.mean.bget idx - M.mean.bget idx⟩)
    (C := ⟨N.cov.shape, fun idx => N.cov.bget idx + M.cov.bget idx⟩) hN.ndim hN.cov
  have hMs : M.mean.size = N.mean.size := by rw [Arr.size, Arr.size, h]
  refine ⟨_, ?_, (mkNormal_ok hmk).2.1, rfl, ?_⟩
  · show subNormal N M = _
    rw [subNormal, if_neg (by simpa using h), Arr.sub, Arr.bin_eq hb]
    show (N.cov.bin (· + ·) M.cov).bind _ = _
    rw [Arr.bin_eq hbc]
    exact congrArg (Except.map RV.normal) hmk
  · intro Ω _ P X Y hX hY hi
    have hbω : ∀ ω, bshape (X ω).shape (Y ω).shape = .ok N.mean.shape := fun ω => by
      rw [hX.shape, hY.shape]; exact hb
    refine ⟨fun ω => ⟨N.mean.shape, fun idx => (X ω).bget idx - (Y ω).bget idx⟩, fun ω => Arr.bin_eq (hbω ω), ?_⟩
    have fl : ∀ a b : Arr, a.shape = N.mean.shape → b.shape = N.mean.shape → ∀ i < N.mean.size,
        a.bget (unravel N.mean.shape i) - b.bget (unravel N.mean.shape i) = a.flat i + (-1) * b.flat i := by
      intro a b ha hb i hi
      rw [Arr.bget_flat (t := N.mean.shape) (by rw [ha]; exact bshape_self _) (by rw [Arr.size, ha])
          (by rw [Arr.size, ha]; exact hi),
        Arr.bget_flat (t := N.mean.shape) (by rw [hb]; exact bshape_self _) (by rw [Arr.size, hb])
          (by rw [Arr.size, hb]; exact hi)]
      ring
    refine law_comb (α := -1) hX hY hi h (fun ω => ⟨rfl, fun i hi => fl _ _ (hX.shape ω) ((hY.shape ω).trans h) i hi⟩)
      ⟨rfl, fun i hi => fl _ _ rfl h i hi⟩ fun i hi j hj => ?_
    have hk : i * N.mean.size + j < N.cov.size := by rw [hN.cov_size]; exact mul_add_lt hi hj
    have hk' : i * N.mean.size + j < M.cov.size := by
      show _ < M.cov.shape.prod
      rw [← hcs]; exact hk
    show N.cov.bget (unravel N.cov.shape (i * N.mean.size + j)) + M.cov.bget (unravel N.cov.shape (i * N.mean.size + j)) = _
    rw [Arr.bget_flat (t := N.cov.shape) (bshape_self _) rfl hk,
      Arr.bget_flat (t := N.cov.shape) (by rw [← hcs]; exact bshape_self _) (by rw [Arr.size, ← hcs])
        hk', Normal.covAt, Normal.covAt, hMs]
    ring

/-- `X * c` and `c * X` for a constant with one entry that is not zero. -/
theorem mul_constant (hN : N.WF) (hX : Law P X N) {c : Arr} (hc : c.size = 1) (h0 : c.flat 0 ≠ 0) {R : RV}
    (h : mul (.normal N) (.const c) = .ok R ∨ mul (.const c) (.normal N) = .ok R) :
    ∃ S, R = .normal S ∧ S.WF ∧ (∃ Z : Ω → Arr, (∀ ω, c.mul (X ω) = .ok (Z ω) ∧ (X ω).mul c = .ok (Z ω)) ∧ Law P Z S) ∧
      (N.Root → S.Root) := by
  have h : scaleNormal N c = .ok R := by
    rcases h with h | h
    · rw [mul, if_pos hc] at h; exact h
    · rw [mul, if_pos hc] at h; exact h
  rw [scaleNormal, if_neg h0] at h
  obtain ⟨L, hL, h⟩ := bind_ok h
  obtain ⟨m, hm, h⟩ := bind_ok h
  obtain ⟨C, hC, h⟩ := bind_ok h
  obtain ⟨S, hS, rfl⟩ := map_ok h
  obtain ⟨h1, ⟨Z, h2, h3⟩, h4⟩ := scale_law (g := (· * ·)) (φ := (· ^ 2)) (α := c.flat 0) hc (fun _ => rfl) (fun _ => rfl)
    hX hN hL hm hC hS
  exact ⟨S, rfl, h1, ⟨Z, fun ω => ⟨h2 ω, (bin_comm (fun t u => mul_comm t u) _ _).trans (h2 ω)⟩, h3⟩, h4⟩

/-- `X / c` for a constant with one entry that is not zero. -/
theorem div_constant (hN : N.WF) (hX : Law P X N) {c : Arr} (hc : c.size = 1) (h0 : c.flat 0 ≠ 0) {R : RV}
    (h : truediv (.normal N) (.const c) = .ok R) :
    ∃ S, R = .normal S ∧ S.WF ∧ (∃ Z : Ω → Arr, (∀ ω, (X ω).div c = .ok (Z ω)) ∧ Law P Z S) ∧ (N.Root → S.Root) := by
  have h : divNormal N c = .ok R := by rw [truediv, if_pos hc] at h; exact h
  rw [divNormal, if_neg h0] at h
  obtain ⟨L, hL, h⟩ := bind_ok h
  obtain ⟨m, hm, h⟩ := bind_ok h
  obtain ⟨C, hC, h⟩ := bind_ok h
  obtain ⟨S, hS, rfl⟩ := map_ok h
  have e : (fun L : Arr => L.div c) = c.bin (fun t u => u / t) := funext fun L => bin_swap _ _ _
  rw [e] at hL
  rw [Arr.div, bin_swap] at hm hC
  obtain ⟨h1, ⟨Z, h2, h3⟩, h4⟩ := scale_law (g := fun t u => u / t) (φ := (· ^ 2)) (α := 1 / c.flat 0) hc
    (fun t => by field_simp) (fun t => by field_simp) hX hN hL hm hC hS
  exact ⟨S, rfl, h1, ⟨Z, fun ω => (bin_swap _ _ _).trans (h2 ω), h3⟩, h4⟩

/-- Multiplying with zero gives the constant zero (of the shape of the random variable). -/
theorem mul_zero (N : Normal) {c : Arr} (hc : c.size = 1) (h0 : c.flat 0 = 0) :
    mul (.normal N) (.const c) = .ok (.const ⟨N.mean.shape, fun _ => 0⟩) ∧
      mul (.const c) (.normal N) = .ok (.const ⟨N.mean.shape, fun _ => 0⟩) := by
  constructor <;> rw [mul, if_pos hc, scaleNormal, if_pos h0]

/-- Dividing by zero raises `ZeroDivisionError`. -/
theorem div_zero (N : Normal) {c : Arr} (hc : c.size = 1) (h0 : c.flat 0 = 0) :
    truediv (.normal N) (.const c) = .error .zeroDivisionError := by
  rw [truediv, if_pos hc, divNormal, if_pos h0]

/-- Numbers are accepted. -/
theorem scale_ok (hN : N.WF) (c : Arr) (hc : c.shape = []) (h0 : c.flat 0 ≠ 0) :
    (∃ S, mul (.normal N) (.const c) = .ok (.normal S)) ∧ ∃ S, truediv (.normal N) (.const c) = .ok (.normal S) := by
  have h1 : c.size = 1 := by rw [Arr.size, hc]; rfl
  have bs : ∀ (g : ℝ → ℝ → ℝ) (a : Arr), c.bin g a = .ok ⟨a.shape, fun idx => g (c.bget idx) (a.bget idx)⟩ := fun g a =>
    Arr.bin_eq (by rw [hc, bshape_comm, bshape_nil])
  have bs2 : ∀ (g : ℝ → ℝ → ℝ) (φ : ℝ → ℝ) (a : Arr),
      (c.map φ).bin g a = .ok ⟨a.shape, fun idx => g ((c.map φ).bget idx) (a.bget idx)⟩ := fun g φ a =>
    Arr.bin_eq (by show bshape c.shape _ = _; rw [hc, bshape_comm, bshape_nil])
  have key : ∀ (m C : Arr) (L : Option Arr), m.shape = N.mean.shape → C.shape = N.cov.shape →
      L.map Arr.shape = N.chol.map Arr.shape → mkNormal m C L = .ok ⟨m, C, L⟩ := by
    intro m C L hm hC hL
    have hb : badFactor m C L ↔ badFactor N.mean N.cov N.chol := by
      cases hN' : N.chol <;> rw [hN'] at hL <;> cases L <;> simp_all [badFactor]
    rw [mkNormal, if_neg (by rw [Arr.ndim, hm]; exact Nat.not_lt.2 hN.ndim), if_neg (by rw [hm, hC]; simpa using hN.cov),
      if_neg (by rw [hb]; exact (mkNormal_ok hN).2.2.2.2)]
  have fac : ∀ g : ℝ → ℝ → ℝ, mapFactor N.chol (c.bin g) =
      .ok (N.chol.map fun L => ⟨L.shape, fun idx => g (c.bget idx) (L.bget idx)⟩) := by
    intro g
    cases N.chol with
    | none => rfl
    | some L => rw [mapFactor, bs]; rfl
  constructor
  · refine ⟨⟨⟨N.mean.shape, fun idx => c.bget idx * N.mean.bget idx⟩,
      ⟨N.cov.shape, fun idx => (c.map (· ^ 2)).bget idx * N.cov.bget idx⟩,
      N.chol.map fun L => ⟨L.shape, fun idx => c.bget idx * L.bget idx⟩⟩, ?_⟩
    rw [mul, if_pos h1, scaleNormal, if_neg h0, show c.mul = c.bin (· * ·) from rfl, fac, bs, Arr.mul, bs2]
    show Except.map RV.normal (mkNormal _ _ _) = _
    rw [key] <;> first | rfl | (cases N.chol <;> rfl)
  · refine ⟨⟨⟨N.mean.shape, fun idx => N.mean.bget idx / c.bget idx⟩,
      ⟨N.cov.shape, fun idx => N.cov.bget idx / (c.map (· ^ 2)).bget idx⟩,
      N.chol.map fun L => ⟨L.shape, fun idx => L.bget idx / c.bget idx⟩⟩, ?_⟩
    have e : (fun L : Arr => L.div c) = c.bin (fun t u => u / t) := funext fun L => bin_swap _ _ _
    rw [truediv, if_pos h1, divNormal, if_neg h0, e, fac]
    show (N.mean.bin (· / ·) c).bind _ = _
    rw [bin_swap, bs]
    show (N.cov.bin (· / ·) (c.map (· ^ 2))).bind _ = _
    rw [bin_swap, bs2]
    show Except.map RV.normal (mkNormal _ _ _) = _
    rw [key] <;> first | rfl | (cases N.chol <;> rfl)

/-- Violation: the shape of a product depends on whether the constant is zero.  `X * [[c]]` for a vector `X` of shape
`(n,)` has shape `(1, n)` for `c ≠ 0`, like the product of the values, but shape `(n,)` for `c = 0`. -/
theorem mul_zero_shape (n : ℕ) (C : ℝ) :
    ∃ N : Normal, N.WF ∧ N.mean.shape = [n] ∧
      (∀ x : ℝ, x ≠ 0 → ∃ S, mul (.normal N) (.const ⟨[1, 1], fun _ => x⟩) = .ok (.normal S) ∧ S.mean.shape = [1, n]) ∧
      mul (.normal N) (.const ⟨[1, 1], fun _ => 0⟩) = .ok (.const ⟨[n], fun _ => 0⟩) := by
  refine ⟨⟨⟨[n], fun _ => 0⟩, ⟨[n, n], fun _ => C⟩, none⟩, ?_, rfl, fun x hx => ?_, ?_⟩
  · exact mkNormal_eq (by simp [Arr.ndim]) (by simp [expectedCov])
  · have h1 : bshape [1, 1] [n] = .ok [1, n] := by
      simp only [bshape, List.reverse_cons, List.reverse_nil, List.nil_append, List.cons_append, brev, consOpt, bdim]
      by_cases h : 1 = n
      · subst h; rfl
      · simp [h]
    have h2 : bshape [1, 1] [n, n] = .ok [n, n] := by
      simp only [bshape, List.reverse_cons, List.reverse_nil, List.nil_append, List.cons_append, brev, consOpt, bdim]
      by_cases h : 1 = n
      · subst h; rfl
      · simp [h]
    refine ⟨⟨⟨[1, n], fun idx => Arr.bget ⟨[1, 1], fun _ => x⟩ idx * Arr.bget ⟨[n], fun _ => 0⟩ idx⟩,
      ⟨[n, n], fun idx => Arr.bget (Arr.map (· ^ 2) ⟨[1, 1], fun _ => x⟩) idx * Arr.bget ⟨[n, n], fun _ => C⟩ idx⟩, none⟩, ?_, rfl⟩
    rw [mul, if_pos (by simp [Arr.size]), scaleNormal,
      if_neg (show Arr.flat ⟨[1, 1], fun _ => x⟩ 0 ≠ 0 from hx), mapFactor]
    show (Arr.bin (· * ·) _ _).bind _ = _
    rw [Arr.bin_eq h1]
    show (Arr.bin (· * ·) _ _).bind _ = _
    rw [Arr.bin_eq h2]
    show Except.map RV.normal (mkNormal _ _ _) = _
    rw [mkNormal_eq (by simp [Arr.ndim]) (by simp [expectedCov])]; rfl
  · exact (mul_zero _ (by simp [Arr.size]) rfl).1

end Probnum.RandVars
