import Verif.Linops.Props

/-! # Properties C24 (transposes), C25 (flags) and C27 (inverses and solves) -/

namespace Probnum.Linops

open Finset

/-! ## C24 -/

/-- `A.T` returns an operator of the transposed shape whose dense form is the transposed matrix, and `A.T.T` denotes
`A`. -/
theorem transpose_denotes {a : Op} (ha : Valid False a) (hc : Calm a) : ∃ N, ∀ n ≥ N, ∃ t t' D D' D'',
    T n a = .ok t ∧ t.rows = a.cols ∧ t.cols = a.rows ∧ T n t = .ok t' ∧ t'.rows = a.rows ∧ t'.cols = a.cols ∧
    todense n a = .ok D ∧ todense n t = .ok D' ∧ todense n t' = .ok D'' ∧
    toM a.cols a.rows D' = (toM a.rows a.cols D).transpose ∧ toM a.rows a.cols D'' = toM a.rows a.cols D := by
  refine ⟨4 * depth a + 14, fun n hn => ?_⟩
  obtain ⟨D, hD, eD⟩ := dense_returns ha hc (n := n) (by omega)
  obtain ⟨t, ht, pt, ft⟩ := (T_meets n ha).returns (T_quick n (fine_self hc) (by omega))
  obtain ⟨t', ht', pt', ft'⟩ := (T_meets n pt.valid).returns (T_quick n ft (by omega))
  obtain ⟨D', hD', eD', -⟩ := ((level False n).dense pt.valid).returns ((swift False n).dense pt.valid ft (by omega))
  obtain ⟨D'', hD'', eD'', -⟩ :=
    ((level False n).dense pt'.valid).returns ((swift False n).dense pt'.valid ft' (by omega))
  refine ⟨t, t', D, D', D'', ht, pt.rows, pt.cols, ht', pt'.rows.trans pt.cols, pt'.cols.trans pt.rows, hD, hD', hD'',
    ?_, ?_⟩
  · rw [pt.rows, pt.cols] at eD'
    rw [eD, eD'.toM, pt.den.toM, toM_trn]
  · have h2 := pt'.den
    rw [pt'.rows, pt'.cols, pt.rows, pt.cols] at eD''
    rw [pt.rows, pt.cols] at h2
    rw [eD, eD''.toM, h2.toM, toM_trn, pt.den.toM, toM_trn, Matrix.transpose_transpose]

example : ∃ N, ∀ n ≥ N, ∃ t, T n exK = .ok t ∧ t.rows = 4 := by
  obtain ⟨N, h⟩ := transpose_denotes built_exK.valid calm_exK
  refine ⟨N, fun n hn => ?_⟩
  obtain ⟨t, -, -, -, -, h1, h2, -⟩ := h n hn
  exact ⟨t, h1, h2⟩

/-- The axis that numpy's `transpose` takes `a` for in a two-dimensional array. -/
def axisOf (a : ℤ) : Option (Fin 2) :=
  if a = 0 ∨ a = -2 then some 0 else if a = 1 ∨ a = -1 then some 1 else none

theorem normAxis_eq (a : ℤ) : normAxis a = match axisOf a with
    | some i => .ok i.val
    | none => .error .valueError := by
  by_cases h : -2 ≤ a ∧ a ≤ 1
  · obtain ⟨h1, h2⟩ := h
    have : a = -2 ∨ a = -1 ∨ a = 0 ∨ a = 1 := by omega
    rcases this with rfl | rfl | rfl | rfl <;> rfl
  · rw [normAxis, if_pos h, axisOf, if_neg (by omega), if_neg (by omega)]

/-- `A.transpose(i, j)` is `A` for the identity permutation, `A.T` for the exchange and an error otherwise, exactly as
numpy does. -/
theorem transpose_axes (n : ℕ) (op : Op) (a b : ℤ) :
    transposeAxes n op [] = T n op ∧
    transposeAxes n op [a, b] = (match axisOf a, axisOf b with
      | some 0, some 1 => .ok op
      | some 1, some 0 => T n op
      | _, _ => .error .valueError) ∧
    (∀ axes, axes.length ≠ 0 → axes.length ≠ 2 → transposeAxes n op axes = .error .valueError) := by
  refine ⟨rfl, ?_, fun axes h0 h2 => ?_⟩
  · rw [transposeAxes, normAxis_eq, normAxis_eq]
    generalize axisOf a = u
    generalize axisOf b = v
    match u, v with
    | none, _ => rfl
    | some 0, none => rfl
    | some 1, none => rfl
    | some 0, some 0 => rfl
    | some 0, some 1 => rfl
    | some 1, some 0 => rfl
    | some 1, some 1 => rfl
  · match axes with
    | [] => exact absurd rfl h0
    | [_] => rfl
    | [_, _] => exact absurd rfl h2
    | _ :: _ :: _ :: _ => rfl

example (n : ℕ) (op : Op) : transposeAxes n op [-1, 0] = T n op ∧ transposeAxes n op [0, -1] = .ok op ∧
    transposeAxes n op [0, -2] = .error .valueError ∧ transposeAxes n op [0, 2] = .error .valueError :=
  ⟨(transpose_axes n op (-1) 0).2.1, (transpose_axes n op 0 (-1)).2.1, (transpose_axes n op 0 (-2)).2.1,
    (transpose_axes n op 0 2).2.1⟩

/-! ## C25 -/

/-- Operators built from truthful leaves by the constructors, arithmetic, transposes and inverses carry only truthful
flags: a flag that is True holds, a flag that is False does not hold.  Not covered, because the second half fails:
`a @ b` (`products_true_flags_partial` gives the first half for it), scalar multiples by 0
(`zero_multiple_flag_wrong`), block-diagonal operators with non-square blocks (`block_flag_wrong`). -/
theorem flags_sound_partial {op : Op} (h : Built True op) :
    (∀ v, op.fl.sym = some v → (v = true ↔ IsSym op.rows op.cols (den op))) ∧
    (∀ v, op.fl.low = some v → (v = true ↔ IsLow op.rows op.cols (den op))) ∧
    (∀ v, op.fl.up = some v → (v = true ↔ IsUp op.rows op.cols (den op))) ∧
    (∀ v, op.fl.pd = some v → (v = true ↔ IsPd op.rows op.cols (den op))) := by
  have key : ∀ {w : Option Bool} {P : Prop}, FlagOk True w P → ∀ v, w = some v → (v = true ↔ P) := by
    intro w P h v e
    subst e
    cases v
    · exact ⟨fun h => (by cases h), fun p => absurd p (h.2 trivial rfl)⟩
    · exact ⟨fun _ => h.1 rfl, fun _ => rfl⟩
  have s := h.valid.node.sound
  exact ⟨key s.sym, key s.low, key s.up, key s.pd⟩

/-- With products, multiples by 0 and arbitrary blocks included: a flag that is True holds. -/
theorem products_true_flags_partial {op : Op} (h : Built False op) :
    (op.fl.sym = some true → IsSym op.rows op.cols (den op)) ∧
    (op.fl.low = some true → IsLow op.rows op.cols (den op)) ∧
    (op.fl.up = some true → IsUp op.rows op.cols (den op)) ∧
    (op.fl.pd = some true → IsPd op.rows op.cols (den op)) :=
  ⟨h.valid.node.sound.sym.1, h.valid.node.sound.low.1, h.valid.node.sound.up.1, h.valid.node.sound.pd.1⟩

/-- A non-trivial case: `-2 * (Identity(2) ⊗ Scaling([1, 2]))` is flagged symmetric and is. -/
example : ∃ t K, mkKron (mkIdentity 2) exS = .ok K ∧ mulScalar 5 (-2) K = .ok t ∧ Built True t ∧
    t.fl.sym = some true := by
  have h1 : mkKron (mkIdentity 2) exS = .ok (.kron ⟨4, 4, ⟨some true, none, none, none⟩⟩ (mkIdentity 2) exS) := rfl
  have h2 : mulScalar 5 (-2) (.kron ⟨4, 4, ⟨some true, none, none, none⟩⟩ (mkIdentity 2) exS) =
      .ok (.scaled ⟨4, 4, ⟨some true, none, none, none⟩⟩ false (-2)
        (.kron ⟨4, 4, ⟨some true, none, none, none⟩⟩ (mkIdentity 2) exS)) := by
    rw [mulScalar, if_pos (by norm_num)]
    rfl
  exact ⟨_, _, h1, h2, .smul (.kron (.identity (by norm_num)) (.scalingAniso _ (by norm_num)) h1)
    (fun _ => by norm_num) h2, rfl⟩

/-- `0 * A` keeps the flag `is_symmetric = False` of `A` although the zero matrix is symmetric. -/
theorem zero_multiple_flag_wrong (n : ℕ) (A : Mat) :
    ∃ t, mulScalar (n + 1) 0 (.lam ⟨2, 2, ⟨some false, none, none, none⟩⟩ A) = .ok t ∧ t.fl.sym = some false ∧
      IsSym t.rows t.cols (den t) := by
  refine ⟨.scaled ⟨2, 2, ⟨some false, none, none, none⟩⟩ false 0 (.lam ⟨2, 2, ⟨some false, none, none, none⟩⟩ A),
    ?_, rfl, rfl, fun i _ j _ => ?_⟩
  · rw [mulScalar.eq_def]
    rfl
  · rw [trn, den]
    show (0 : ℝ) * _ = 0 * _
    rw [zero_mul, zero_mul]

/-- The block-diagonal matrix of `[1 0]` and `[[1], [1]]`, both lower triangular and flagged so, is flagged lower
triangular although its entry `(1, 2)` is 1. -/
theorem block_flag_wrong : ∃ t,
    mkBlock [.matrix ⟨1, 2, ⟨some false, some true, none, none⟩⟩ fun _ j => if j = 0 then 1 else 0,
      .matrix ⟨2, 1, ⟨some false, some true, none, none⟩⟩ fun _ _ => 1] = .ok t ∧ t.fl.low = some true ∧
    ¬ IsLow t.rows t.cols (den t) ∧
    IsLow 1 2 (fun _ j => if j = 0 then 1 else 0) ∧ IsLow 2 1 (fun _ _ => 1) := by
  refine ⟨.block ⟨3, 3, ⟨some false, some true, none, none⟩⟩
      [.matrix ⟨1, 2, ⟨some false, some true, none, none⟩⟩ fun _ j => if j = 0 then 1 else 0,
      .matrix ⟨2, 1, ⟨some false, some true, none, none⟩⟩ fun _ _ => 1],
    rfl, rfl, fun h => ?_, fun i hi j hj hij => ?_, fun i hi j hj hij => by omega⟩
  · have h1 := h 1 (show 1 < 3 by norm_num) 2 (show 2 < 3 by norm_num) (by norm_num)
    simp [den, denBlock, blockM, Op.rows, Op.cols, Op.hdr] at h1
  · exact if_neg (by omega)

/-! ## C27 -/

/-- `A.inv()` of a nonsingular operator returns the inverse: its dense form is a two-sided inverse of the dense form of
`A`.  Not covered: products and block-diagonal operators with non-square factors or blocks
(`nonsquare_factors_inverse_raises`) and transposes of composite operators. -/
theorem inverse_denotes_partial {a : Op} (ha : Valid False a) (hR : Regular a) (hsq : a.rows = a.cols) (hc : Calm a)
    (hdet : (toM a.rows a.rows (den a)).det ≠ 0) : ∃ N, ∀ n ≥ N, ∃ t D D', inv n a = .ok t ∧ t.rows = a.rows ∧
    t.cols = a.rows ∧ todense n a = .ok D ∧ todense n t = .ok D' ∧
    toM a.rows a.rows D * toM a.rows a.rows D' = 1 ∧ toM a.rows a.rows D' * toM a.rows a.rows D = 1 := by
  refine ⟨4 * depth a + 14, fun n hn => ?_⟩
  obtain ⟨D, hD, eD⟩ := dense_returns ha hc (n := n) (by omega)
  rw [← hsq] at eD
  obtain ⟨t, ht, pt, ft⟩ := (inv_meets n ha hR hsq hdet).returns (inv_quick n (fine_self hc) (by omega))
  obtain ⟨D', hD', eD', -⟩ := ((level False n).dense pt.valid).returns ((swift False n).dense pt.valid ft (by omega))
  rw [pt.rows, pt.cols] at eD'
  have hl : toM a.rows a.rows D' * toM a.rows a.rows D = 1 := by
    have := (pt.left hdet).toM
    rw [toM_mmul, toM_eye] at this
    rw [eD, eD'.toM, this]
  exact ⟨t, D, D', ht, pt.rows, pt.cols, hD, hD', mul_eq_one_comm.1 hl, hl⟩

/-- `A.solve(B)` of a nonsingular operator returns `X` with `A X = B`. -/
theorem solve_denotes_partial {a : Op} (ha : Valid False a) (hR : Regular a) (hDir : Direct a) (hsq : a.rows = a.cols)
    (hc : Calm a) (hdet : (toM a.rows a.rows (den a)).det ≠ 0) : ∃ N, ∀ n ≥ N, ∃ D, todense n a = .ok D ∧
    ∀ {β : Type} (k : ℕ) (B : β → Mat), ∃ X, solveArr n a a.rows k B = .ok X ∧
      ∀ b, toM a.rows a.rows D * toM a.rows k (X b) = toM a.rows k (B b) := by
  refine ⟨4 * depth a + 14, fun n hn => ?_⟩
  obtain ⟨D, hD, eD⟩ := dense_returns ha hc (n := n) (by omega)
  rw [← hsq] at eD
  refine ⟨D, hD, fun {β} k B => ?_⟩
  obtain ⟨X, hX, eX, -⟩ := ((level False n).solve ha hR hsq hdet k B).returns
    (solve_quick n ha hR hsq hdet hDir (fine_self hc) (by omega) _ k B)
  refine ⟨X, hX, fun b => ?_⟩
  rw [(eX b).toM, toM_mmul, toM_invM, eD, ← Matrix.mul_assoc, Matrix.mul_nonsing_inv _ hdet.isUnit, Matrix.one_mul]

/-- Solving with a singular operator never returns a solution: LinAlgError is raised (or the recursion limit hit).
Solving with a non-square operator raises LinAlgError, with a right-hand side of the wrong length ValueError. -/
theorem solve_rejects_partial {a : Op} (n : ℕ) :
    (Valid False a → Regular a → a.rows = a.cols → (toM a.rows a.rows (den a)).det = 0 →
      ∀ {β : Type} (k : ℕ) (B : β → Mat), solveArr n a a.rows k B = .error .linAlgError ∨
        solveArr n a a.rows k B = .error .recursionError) ∧
    (a.rows ≠ a.cols → inv (n + 1) a = .error .linAlgError ∧
      ∀ {β : Type} (r k : ℕ) (B : β → Mat), solveArr (n + 1) a r k B = .error .linAlgError) ∧
    (a.rows = a.cols → ∀ {β : Type} (r k : ℕ) (B : β → Mat), r ≠ a.rows →
      solveArr (n + 1) a r k B = .error .valueError) := by
  refine ⟨fun ha hR hsq hdet β k B => ?_, fun h => ⟨?_, fun r k B => ?_⟩, fun h β r k B hr => ?_⟩
  · have := solve_out n ha hR hsq k B
    cases e : solveArr n a a.rows k B with
    | ok x =>
      rw [e] at this
      exact absurd hdet this.2
    | error x =>
      rw [e] at this
      rcases this with rfl | rfl
      · exact .inl rfl
      · exact .inr rfl
  · rw [inv.eq_def]
    exact if_pos h
  · rw [solveArr, if_pos h]
  · rw [solveArr, if_neg (not_not.2 h), if_pos hr]

/-- The hypotheses are met by the Kronecker product `exK` of `[[0, 2], [1, 3]]` and `Scaling([1, 2])`. -/
example : ∃ N, ∀ n ≥ N, ∃ t D D', inv n exK = .ok t ∧ t.rows = 4 ∧ t.cols = 4 ∧ todense n exK = .ok D ∧
    todense n t = .ok D' ∧ toM 4 4 D * toM 4 4 D' = 1 ∧ toM 4 4 D' * toM 4 4 D = 1 := by
  refine inverse_denotes_partial built_exK.valid (.kron (.dense trivial) .scaling rfl rfl) rfl calm_exK ?_
  have e : toM 4 4 (den exK) = toM 4 4 (kronM 2 2 (fun i j => i + 2 * j) (fun i j => if i = j then (i : ℝ) + 1 else 0)) := by
    refine Eqv.toM fun i hi j hj => ?_
    rfl
  show (toM 4 4 (den exK)).det ≠ 0
  rw [e]
  simp [Matrix.det_succ_row_zero, Fin.sum_univ_succ, toM, kronM, Fin.succAbove]

/-- `inv()` of a singular dense operator returns an operator; the failure shows only when that is applied. -/
theorem singular_inverse_lazy (n : ℕ) : ∃ t, inv (n + 1) (mkMatrix 1 1 0) = .ok t := by
  rw [inv.eq_def]
  exact ⟨_, rfl⟩

/-- `([1 0] @ [[1], [0]])` is the nonsingular `1 × 1` matrix `[1]`, but inverting and solving raise LinAlgError. -/
theorem nonsquare_factors_inverse_raises (n : ℕ) (A B : Mat) : ∃ P,
    mkProd [.lam (base 1 2) A, .lam (base 2 1) B] = .ok P ∧ P.rows = 1 ∧ P.cols = 1 ∧
    den P 0 0 = A 0 0 * B 0 0 + A 0 1 * B 1 0 ∧
    inv (n + 2) P = .error .linAlgError ∧
    ∀ {β : Type} (k : ℕ) (b : β → Mat), solveArr (n + 2) P 1 k b = .error .linAlgError := by
  refine ⟨_, rfl, rfl, rfl, ?_, ?_, fun k b => ?_⟩
  · rw [den]
    simp [denProd, den, mmul, eye, Finset.sum_range_succ, Op.cols, Op.hdr, base, expandProd]
  · rw [inv.eq_def]
    rfl
  · rw [solveArr]
    rfl

/-- A transposed operator that is declared symmetric: `cholesky()` never returns. -/
theorem transposed_cholesky_diverges (n : ℕ) (h : Hdr) (A : Op) (lower : Bool) (hs : h.fl.sym = some true)
    (hp : h.fl.pd ≠ some false) : cholesky n (.transposed h A) lower = .error .recursionError := by
  induction n with
  | zero => rfl
  | succ n ih =>
    have h3 : (Op.transposed h A).fl.sym = some true := hs
    have h4 : (Op.transposed h A).fl.pd ≠ some false := hp
    rw [cholesky, if_neg (not_not.2 h3), if_neg h4]
    dsimp only
    rw [ih]
    rfl

/-- Neither does `solve`, unless a triangular flag is set. -/
theorem transposed_solve_diverges (n : ℕ) (h : Hdr) (A : Op) (hs : h.fl.sym = some true) (hp : h.fl.pd ≠ some false)
    (hl : h.fl.low ≠ some true) (hu : h.fl.up ≠ some true) (hsq : h.rows = h.cols) {β : Type} (k : ℕ) (b : β → Mat) :
    solveArr n (.transposed h A) h.rows k b = .error .recursionError := by
  cases n with
  | zero => rw [solveArr]
  | succ n =>
    have h1 : (Op.transposed h A).fl.low ≠ some true := hl
    have h2 : (Op.transposed h A).fl.up ≠ some true := hu
    have h3 : (Op.transposed h A).fl.sym = some true := hs
    have h4 : (Op.transposed h A).fl.pd ≠ some false := hp
    have h5 : (Op.transposed h A).rows = (Op.transposed h A).cols := hsq
    have h6 : h.rows = (Op.transposed h A).rows := rfl
    rw [solveArr, if_neg (not_not.2 h5), if_neg (not_not.2 h6)]
    dsimp only
    rw [if_neg (not_or.2 ⟨h1, h2⟩), if_pos ⟨h3, h4⟩, transposed_cholesky_diverges n h A false hs hp]
    rfl

end Probnum.Linops
