import Verif.Linops.PropsKron

/-!
# Property C54: selections and embeddings
-/

namespace Probnum.Linops

open Finset Matrix

/-! ## Application -/

theorem mkSelection_ok {idx : List ℕ} {r c : ℕ} {S : Op} (e : mkSelection idx r c = .ok S) :
    r ≤ c ∧ idx.length = r ∧ S = .selection (base r c) idx := by
  rw [mkSelection] at e
  split at e
  · cases e
  · split at e
    · cases e
    · cases e
      exact ⟨by omega, by omega, rfl⟩

theorem mkEmbedding_ok {take put : List ℕ} {fill : ℝ} {r c : ℕ} {E : Op} (e : mkEmbedding take put fill r c = .ok E) :
    c ≤ r ∧ E = .embedding (base r c) take put fill := by
  rw [mkEmbedding] at e
  split at e
  · cases e
  · cases e
    exact ⟨by omega, rfl⟩

/-- `Selection(indices, (r, c)) @ x` is the vector of the listed entries of `x` (repetitions allowed); an index beyond
the length of `x` raises IndexError. -/
theorem selection_picks {idx : List ℕ} {r c : ℕ} {S : Op} (e : mkSelection idx r c = .ok S) (n : ℕ) (x : ℕ → ℝ) :
    S.rows = r ∧ S.cols = c ∧
    ((∀ i ∈ idx, i < c) → ∃ y, matVec (n + 1) S c x = .ok y ∧ ∀ i, (h : i < idx.length) → y i = x idx[i]) ∧
    ((∃ i ∈ idx, c ≤ i) → matVec (n + 1) S c x = .error .indexError) := by
  obtain ⟨-, h2, rfl⟩ := mkSelection_ok e
  refine ⟨rfl, rfl, fun h => ?_, fun h => ?_⟩
  · refine ⟨fun i => x (idx.getD i 0), ?_, fun i hi => congrArg x (List.getD_eq_getElem _ _ hi)⟩
    rw [matVec, matArr.eq_def]
    dsimp only
    rw [if_neg (not_not.2 (show c = (Op.selection (base r c) idx).cols from rfl)), if_neg (by push Not; exact h)]
    rfl
  · rw [matVec, matArr.eq_def]
    dsimp only
    rw [if_neg (not_not.2 (show c = (Op.selection (base r c) idx).cols from rfl)), if_pos h]
    rfl

theorem lastPos_none {put : List ℕ} {i : ℕ} (h : i ∉ put) : lastPos put i = none := by
  rw [lastPos, List.getLast?_eq_none_iff, List.filter_eq_nil_iff]
  intro p hp
  rw [List.mem_range] at hp
  rw [decide_eq_true_iff, List.getD_eq_getElem _ _ hp]
  exact fun e => h (e ▸ List.getElem_mem hp)

theorem lastPos_some {put : List ℕ} {p : ℕ} (hp : p < put.length)
    (h : ∀ q, (hq : q < put.length) → p < q → put[q] ≠ put[p]) : lastPos put put[p] = some p := by
  have e : List.range put.length = List.range p ++ p :: (List.range' (p + 1) (put.length - (p + 1))) := by
    rw [List.range_eq_range', List.range_eq_range']
    have h1 : put.length = p + (1 + (put.length - (p + 1))) := by omega
    conv_lhs => rw [h1, ← List.range'_append_1 (s := 0) (m := p)]
    rw [Nat.add_comm 1, List.range'_succ, Nat.zero_add]
  rw [lastPos, e, List.filter_append, List.filter_cons, if_pos (by rw [decide_eq_true_iff, List.getD_eq_getElem _ _ hp]),
    (List.filter_eq_nil_iff (l := List.range' (p + 1) (put.length - (p + 1)))).2 ?_, List.getLast?_append]
  · rfl
  · intro q hq
    rw [List.mem_range'_1] at hq
    have hq2 : q < put.length := by omega
    rw [decide_eq_true_iff, List.getD_eq_getElem _ _ hq2]
    exact h q hq2 (by omega)

/-- `Embedding(take, put, (r, c), fill) @ x` places the entries `x[take[p]]` at the positions `put[p]` (the last one if a
position is repeated) and fills the rest. -/
theorem embedding_places {take put : List ℕ} {fill : ℝ} {r c : ℕ} {E : Op} (e : mkEmbedding take put fill r c = .ok E)
    (n : ℕ) (x : ℕ → ℝ) : E.rows = r ∧ E.cols = c ∧
    ((hl : take.length = put.length) → (∀ t ∈ take, t < c) → (∀ p ∈ put, p < r) →
      ∃ y, matVec (n + 1) E c x = .ok y ∧ (∀ i, i ∉ put → y i = fill) ∧
        ∀ p, (hp : p < put.length) → (∀ q, (hq : q < put.length) → p < q → put[q] ≠ put[p]) →
          y put[p] = x (take[p]'(by omega))) ∧
    (((∃ t ∈ take, c ≤ t) ∨ ∃ p ∈ put, r ≤ p) → matVec (n + 1) E c x = .error .indexError) := by
  obtain ⟨-, rfl⟩ := mkEmbedding_ok e
  refine ⟨rfl, rfl, fun hl ht hp => ?_, fun h => ?_⟩
  · refine ⟨fun i => match lastPos put i with
      | none => fill
      | some p => x (take.getD (if take.length = put.length then p else 0) 0), ?_, fun i hi => ?_, fun p hp hq => ?_⟩
    · rw [matVec, matArr.eq_def]
      dsimp only
      rw [if_neg (not_not.2 (show c = (Op.embedding (base r c) take put fill).cols from rfl)), embeddingMatmul, if_neg (by push Not; exact ht), if_neg (by push Not; exact hp),
        if_neg (by tauto)]
      rfl
    · dsimp only
      rw [lastPos_none hi]
    · dsimp only
      rw [lastPos_some hp hq]
      dsimp only
      rw [if_pos hl, List.getD_eq_getElem _ _ (by omega)]
  · rw [matVec, matArr.eq_def]
    dsimp only
    rw [if_neg (not_not.2 (show c = (Op.embedding (base r c) take put fill).cols from rfl)), embeddingMatmul]
    by_cases h1 : ∃ t ∈ take, c ≤ t
    · rw [if_pos h1]
      rfl
    · rw [if_neg h1, if_pos (by
        rcases h with h | h
        · exact absurd h h1
        · exact h)]
      rfl

/-! ## The transpose is the adjoint -/

/-- For every operator `⟨A x, y⟩ = ⟨x, A.T y⟩`. -/
theorem transpose_adjoint {a : Op} (ha : Valid False a) (hc : Calm a) : ∃ N, ∀ n ≥ N, ∃ t, T n a = .ok t ∧
    ∀ x y : ℕ → ℝ, ∃ u v, matVec n a a.cols x = .ok u ∧ matVec n t a.rows y = .ok v ∧
      ∑ i ∈ range a.rows, u i * y i = ∑ j ∈ range a.cols, x j * v j := by
  refine ⟨4 * depth a + 14, fun n hn => ?_⟩
  obtain ⟨t, ht, pt, ft⟩ := (T_meets n ha).returns (T_quick n (fine_self hc) (by omega))
  refine ⟨t, ht, fun x y => ?_⟩
  obtain ⟨U, h1, h2, -⟩ := ((level False n).mat ha (β := Unit) 1 fun _ j _ => x j).returns
    ((swift False n).mat ha (fine_self hc) (by omega) _ _ _)
  obtain ⟨V, h3, h4, -⟩ := ((level False n).mat pt.valid (β := Unit) 1 fun _ j _ => y j).returns
    ((swift False n).mat pt.valid ft (by omega) _ _ _)
  rw [pt.cols] at h3
  refine ⟨fun i => U () i 0, fun i => V () i 0, by rw [matVec, h1]; rfl, by rw [matVec, h3]; rfl, ?_⟩
  have e1 : ∀ i ∈ range a.rows, U () i 0 * y i = ∑ j ∈ range a.cols, den a i j * x j * y i := fun i hi => by
    rw [h2 () i (mem_range.1 hi) 0 (by omega), mmul, Finset.sum_mul]
  have e2 : ∀ j ∈ range a.cols, x j * V () j 0 = ∑ i ∈ range a.rows, den a i j * x j * y i := fun j hj => by
    rw [h4 () j (by rw [pt.rows]; exact mem_range.1 hj) 0 (by omega), mmul, Finset.mul_sum, pt.cols]
    refine Finset.sum_congr rfl fun i hi => ?_
    rw [pt.den j (mem_range.1 hj) i (mem_range.1 hi), trn]
    ring
  rw [Finset.sum_congr rfl e1, Finset.sum_congr rfl e2, Finset.sum_comm]

/-- In particular for selections and embeddings without repetitions.  Not covered: repeated indices
(`selection_transpose_repeated`), embeddings with other `take_indices` or `fill_value` (`embedding_transpose_take`,
`embedding_fill_nonlinear`). -/
theorem selection_adjoint_partial {idx : List ℕ} {r c : ℕ} {S : Op} (hr : 0 < r) (hc : 0 < c)
    (e : mkSelection idx r c = .ok S) (hi : ∀ i ∈ idx, i < c) (hn : idx.Nodup) : ∃ N, ∀ n ≥ N, ∃ E, T n S = .ok E ∧
    ∀ x y : ℕ → ℝ, ∃ u v, matVec n S c x = .ok u ∧ matVec n E r y = .ok v ∧
      ∑ i ∈ range r, u i * y i = ∑ j ∈ range c, x j * v j := by
  have v : Valid False S := (Built.selection (full := False) hr hc hi hn e).valid
  obtain ⟨-, -, rfl⟩ := mkSelection_ok e
  exact transpose_adjoint v (by simp [Calm])

theorem embedding_adjoint_partial {put : List ℕ} {r c : ℕ} {E : Op} (hr : 0 < r) (hc : 0 < c)
    (e : mkEmbedding (List.range c) put 0 r c = .ok E) (hl : put.length = c) (hi : ∀ i ∈ put, i < r) (hn : put.Nodup) :
    ∃ N, ∀ n ≥ N, ∃ S, T n E = .ok S ∧ ∀ x y : ℕ → ℝ, ∃ u v, matVec n E c x = .ok u ∧ matVec n S r y = .ok v ∧
      ∑ i ∈ range r, u i * y i = ∑ j ∈ range c, x j * v j := by
  obtain ⟨hrc, rfl⟩ := mkEmbedding_ok e
  have v : Valid False (.embedding (base r c) (List.range c) put 0) :=
    .embedding (h := ⟨r, c, (base r c).fl⟩) hl hrc hi hn
      (node_base (a := .embedding ⟨r, c, (base r c).fl⟩ (List.range c) put 0) hr hc rfl)
  exact transpose_adjoint v (by simp only [Calm, base]; split <;> simp)

example : ∃ S, mkSelection [2, 0] 2 3 = .ok S ∧ ∃ N, ∀ n ≥ N, ∃ E, T n S = .ok E :=
  ⟨_, rfl, by
    obtain ⟨N, h⟩ := selection_adjoint_partial (idx := [2, 0]) (r := 2) (c := 3) (by norm_num) (by norm_num) rfl (by simp)
      (by simp)
    exact ⟨N, fun n hn => by obtain ⟨E, h1, -⟩ := h n hn; exact ⟨E, h1⟩⟩⟩

/-- A violation: the transpose of `Selection([0, 0], (2, 2))`, the matrix `[[1, 0], [1, 0]]`, maps `(1, 1)` to `(1, 0)`
instead of `(2, 0)`. -/
theorem selection_transpose_repeated (n : ℕ) : ∃ S E u v, mkSelection [0, 0] 2 2 = .ok S ∧ T (n + 1) S = .ok E ∧
    matVec (n + 1) S 2 (fun _ => 1) = .ok u ∧ matVec (n + 1) E 2 (fun _ => 1) = .ok v ∧
    ∑ i ∈ range 2, u i * 1 = 2 ∧ ∑ j ∈ range 2, 1 * v j = 1 := by
  obtain ⟨-, -, h1, -⟩ := selection_picks (idx := [0, 0]) (r := 2) (c := 2) (S := .selection (base 2 2) [0, 0]) rfl n fun _ => 1
  obtain ⟨u, hu, eu⟩ := h1 (by simp)
  obtain ⟨-, -, h2, -⟩ := embedding_places (take := [0, 1]) (put := [0, 0]) (fill := 0) (r := 2) (c := 2)
    (E := .embedding (base 2 2) [0, 1] [0, 0] 0) rfl n fun _ => 1
  obtain ⟨v, hv, e0, e1⟩ := h2 rfl (by simp) (by simp)
  refine ⟨_, _, u, v, rfl, rfl, hu, hv, ?_, ?_⟩
  · rw [sum_range_succ, sum_range_one, eu 0 (by simp), eu 1 (by simp)]
    norm_num
  · have := e1 1 (by simp) (fun q hq h => by simp at hq; omega)
    rw [sum_range_succ, sum_range_one, e0 1 (by simp)]
    simp at this
    rw [this]
    norm_num

/-- A violation: the transpose of an embedding ignores `take_indices`.  `E = [[0, 1], [1, 0]]` is applied correctly, but
`E.T` is applied as the identity. -/
theorem embedding_transpose_take (n : ℕ) : ∃ E S u v, mkEmbedding [1, 0] [0, 1] 0 2 2 = .ok E ∧ T (n + 1) E = .ok S ∧
    matVec (n + 1) E 2 (fun j => j) = .ok u ∧ matVec (n + 1) S 2 (fun i => i) = .ok v ∧
    ∑ i ∈ range 2, u i * i = 0 ∧ ∑ j ∈ range 2, (j : ℝ) * v j = 1 := by
  obtain ⟨-, -, h1, -⟩ := selection_picks (idx := [0, 1]) (r := 2) (c := 2) (S := .selection (base 2 2) [0, 1]) rfl n fun i => i
  obtain ⟨v, hv, ev⟩ := h1 (by simp)
  obtain ⟨-, -, h2, -⟩ := embedding_places (take := [1, 0]) (put := [0, 1]) (fill := 0) (r := 2) (c := 2)
    (E := .embedding (base 2 2) [1, 0] [0, 1] 0) rfl n fun j => j
  obtain ⟨u, hu, -, e1⟩ := h2 rfl (by simp) (by simp)
  refine ⟨_, _, u, v, rfl, rfl, hu, hv, ?_, ?_⟩
  · have := e1 1 (by simp) (fun q hq h => by simp at hq; omega)
    rw [sum_range_succ, sum_range_one]
    simp at this
    rw [this]
    norm_num
  · rw [sum_range_succ, sum_range_one, ev 0 (by simp), ev 1 (by simp)]
    norm_num

/-- A violation: an embedding with a nonzero fill value is not a linear map. -/
theorem embedding_fill_nonlinear (n : ℕ) : ∃ E u, mkEmbedding [0] [0] 1 2 1 = .ok E ∧
    matVec (n + 1) E 1 (fun _ => 0) = .ok u ∧ u 1 = 1 := by
  obtain ⟨-, -, h2, -⟩ := embedding_places (take := [0]) (put := [0]) (fill := 1) (r := 2) (c := 1)
    (E := .embedding (base 2 1) [0] [0] 1) rfl n fun _ => 0
  obtain ⟨u, hu, e0, -⟩ := h2 rfl (by simp) (by simp)
  exact ⟨_, u, rfl, hu, e0 1 (by simp)⟩

/-! ## Selections after embeddings -/

/-- The product of a selection and an embedding is simplified to an identity exactly when the indices agree, and then
their product is the identity.  Not covered: embeddings with other `take_indices`, repeated indices
(`selection_embedding_take`, `selection_embedding_repeated`) and inner dimensions that differ
(`selection_embedding_accepted`). -/
theorem selection_embedding_partial {env : Env} {idx put : List ℕ} {r c k : ℕ} {S E : Op} (hr : 0 < r) (hc : 0 < c)
    (hk : 0 < k) (eS : mkSelection idx r c = .ok S) (eE : mkEmbedding (List.range k) put 0 c k = .ok E)
    (hl : put.length = k) (hi : ∀ i ∈ idx, i < c) (hp : ∀ i ∈ put, i < c) (hni : idx.Nodup) (hnp : put.Nodup) (n : ℕ) :
    (∀ m, matmulOp env (n + 1) S E = .ok (mkIdentity m) → r = m ∧ k = m ∧
      toM m c (den S) * toM c m (den E) = 1) ∧
    ((∃ m, matmulOp env (n + 1) S E = .ok (mkIdentity m)) ↔ idx = put) := by
  have vS : Valid False S := (Built.selection (full := False) hr hc hi hni eS).valid
  obtain ⟨hrc, hlen, rfl⟩ := mkSelection_ok eS
  obtain ⟨hck, rfl⟩ := mkEmbedding_ok eE
  have vE : Valid False (.embedding (base c k) (List.range k) put 0) :=
    .embedding (h := ⟨c, k, (base c k).fl⟩) hl hck hp hnp
      (node_base (a := .embedding ⟨c, k, (base c k).fl⟩ (List.range k) put 0) hc hk rfl)
  have l : lookup matmulReg (.selection, .embedding) = some .selectionEmbedding := by decide
  have hm : matmulOp env (n + 1) (.selection (base r c) idx) (.embedding (base c k) (List.range k) put 0) =
      if k = r ∧ indicesEqual idx put then .ok (mkIdentity r)
      else mkProd [.selection (base r c) idx, .embedding (base c k) (List.range k) put 0] := by
    rw [matmulOp]
    simp only [kind, l, runMatmul]
    show ((if k = r ∧ indicesEqual idx put = true then _ else _) >>= _) = _
    split <;> rfl
  have hprod : ∀ m, mkProd [.selection (base r c) idx, .embedding (base c k) (List.range k) put 0] ≠ .ok (mkIdentity m) := by
    intro m h
    have : mkProd [.selection (base r c) idx, .embedding (base c k) (List.range k) put 0] =
      .ok (.prod (base r k) [.selection (base r c) idx, .embedding (base c k) (List.range k) put 0]) :=
      if_neg (not_not.2 ⟨rfl, trivial⟩)
    rw [this] at h
    cases h
  refine ⟨fun m h => ?_, ⟨?_, ?_⟩⟩
  · have pt := ((matmulOp_meets (n + 1) vS vE rfl).of_ok h)
    have h1 : m = r := pt.rows
    have h2 : m = k := pt.cols
    subst h1 h2
    refine ⟨rfl, rfl, ?_⟩
    have := pt.den.toM
    have hI : den (mkIdentity m) = eye := by rw [mkIdentity, den]
    rw [hI] at this
    rw [← toM_mmul, ← toM_eye]
    exact this.symm
  · rintro ⟨m, h⟩
    rw [hm] at h
    split at h
    · next hc =>
      have : idx.length = put.length := by rw [hlen, hl, hc.1]
      have h2 := hc.2
      rw [indicesEqual, if_pos this] at h2
      exact of_decide_eq_true h2
    · exact absurd h (hprod m)
  · rintro rfl
    refine ⟨r, ?_⟩
    have h1 : indicesEqual idx idx = true := by
      rw [indicesEqual, if_pos rfl]
      exact decide_eq_true rfl
    rw [hm, if_pos ⟨hl.symm.trans hlen, h1⟩]

/-- A violation: the embedding swaps the entries, the selection takes them in order, and the product is simplified to the
identity, although applying one after the other maps `(0, 1)` to `(1, 0)`. -/
theorem selection_embedding_take (env : Env) (n : ℕ) : ∃ S E u v, mkSelection [0, 1] 2 2 = .ok S ∧
    mkEmbedding [1, 0] [0, 1] 0 2 2 = .ok E ∧ matmulOp env (n + 1) S E = .ok (mkIdentity 2) ∧
    matVec (n + 1) E 2 (fun j => j) = .ok u ∧ matVec (n + 1) S 2 u = .ok v ∧ v 0 = 1 := by
  obtain ⟨-, -, h2, -⟩ := embedding_places (take := [1, 0]) (put := [0, 1]) (fill := 0) (r := 2) (c := 2)
    (E := .embedding (base 2 2) [1, 0] [0, 1] 0) rfl n fun j => j
  obtain ⟨u, hu, -, e1⟩ := h2 rfl (by simp) (by simp)
  obtain ⟨-, -, h1, -⟩ := selection_picks (idx := [0, 1]) (r := 2) (c := 2) (S := .selection (base 2 2) [0, 1]) rfl n u
  obtain ⟨v, hv, ev⟩ := h1 (by simp)
  refine ⟨_, _, u, v, rfl, rfl, ?_, hu, hv, ?_⟩
  · have l : lookup matmulReg (.selection, .embedding) = some .selectionEmbedding := by decide
    rw [matmulOp]
    simp only [kind, l, runMatmul, base, bind, Except.bind, indicesEqual]
    rfl
  · have := e1 0 (by simp) (fun q hq h => by
      obtain rfl : q = 1 := by simp at hq; omega
      simp)
    rw [ev 0 (by simp)]
    simp at this ⊢
    exact this

/-- A violation: with repeated indices the product is simplified to the identity, but applying one after the other maps
`(0, 1)` to `(1, 1)`. -/
theorem selection_embedding_repeated (env : Env) (n : ℕ) : ∃ S E u v, mkSelection [0, 0] 2 2 = .ok S ∧
    mkEmbedding [0, 1] [0, 0] 0 2 2 = .ok E ∧ matmulOp env (n + 1) S E = .ok (mkIdentity 2) ∧
    matVec (n + 1) E 2 (fun j => j) = .ok u ∧ matVec (n + 1) S 2 u = .ok v ∧ v 0 = 1 := by
  obtain ⟨-, -, h2, -⟩ := embedding_places (take := [0, 1]) (put := [0, 0]) (fill := 0) (r := 2) (c := 2)
    (E := .embedding (base 2 2) [0, 1] [0, 0] 0) rfl n fun j => j
  obtain ⟨u, hu, -, e1⟩ := h2 rfl (by simp) (by simp)
  obtain ⟨-, -, h1, -⟩ := selection_picks (idx := [0, 0]) (r := 2) (c := 2) (S := .selection (base 2 2) [0, 0]) rfl n u
  obtain ⟨v, hv, ev⟩ := h1 (by simp)
  refine ⟨_, _, u, v, rfl, rfl, ?_, hu, hv, ?_⟩
  · have l : lookup matmulReg (.selection, .embedding) = some .selectionEmbedding := by decide
    rw [matmulOp]
    simp only [kind, l, runMatmul, base, bind, Except.bind, indicesEqual]
    rfl
  · have := e1 1 (by simp) (fun q hq h => by simp at hq; omega)
    rw [ev 0 (by simp)]
    simp at this ⊢
    exact this

end Probnum.Linops
