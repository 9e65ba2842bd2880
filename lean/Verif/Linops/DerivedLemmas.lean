import Verif.Linops.Derived
import Verif.Linops.Props

/-! # Determinants, log-determinants, traces, diagonals and ranks are those of the denoted matrix -/

namespace Probnum.Linops

open Finset

/-! ## Lists -/

theorem mapM_eq {α β : Type} {f : α → Res β} {g : α → β} : ∀ {l : List α}, (∀ a ∈ l, f a = .ok (g a)) →
    l.mapM f = .ok (l.map g)
  | [], _ => rfl
  | a :: l, h => by
    rw [List.mapM_cons, h a (by simp), mapM_eq fun b hb => h b (List.mem_cons_of_mem _ hb)]
    rfl

theorem mapM_ex {α β : Type} {f : α → Res β} {P : α → β → Prop} : ∀ {l : List α},
    (∀ a ∈ l, ∃ b, f a = .ok b ∧ P a b) → ∃ bs, l.mapM f = .ok bs ∧ List.Forall₂ P l bs
  | [], _ => ⟨[], rfl, .nil⟩
  | a :: l, h => by
    obtain ⟨b, h1, h2⟩ := h a (by simp)
    obtain ⟨bs, h3, h4⟩ := mapM_ex fun b hb => h b (List.mem_cons_of_mem _ hb)
    refine ⟨b :: bs, ?_, .cons h2 h4⟩
    rw [List.mapM_cons, h1, h3]
    rfl

theorem foldl_mul (l : List ℝ) (x : ℝ) : l.foldl (· * ·) x = x * l.prod := by
  induction l generalizing x with
  | nil => simp
  | cons a l ih => rw [List.foldl_cons, ih, List.prod_cons, mul_assoc]

theorem foldl_add {α : Type} [AddMonoid α] (l : List α) (x : α) : l.foldl (· + ·) x = x + l.sum := by
  induction l generalizing x with
  | nil => simp
  | cons a l ih => rw [List.foldl_cons, ih, List.sum_cons, add_assoc]

theorem reduceMul_eq {l : List ℝ} (h : l ≠ []) : reduceMul l = .ok l.prod := by
  cases l with
  | nil => exact absurd rfl h
  | cons a l => rw [reduceMul, foldl_mul, List.prod_cons]

theorem reduceAdd_sum {α : Type} [AddMonoid α] {l : List α} (h : l ≠ []) : reduceAdd l = .ok l.sum := by
  cases l with
  | nil => exact absurd rfl h
  | cons a l => rw [reduceAdd, foldl_add, List.sum_cons]

/-! ## Logarithms -/

theorem logAbs_mul (x y : ℝ) : logAbs (x * y) = logAbs x + logAbs y := by
  unfold logAbs
  by_cases hx : x = 0
  · rw [if_pos (by rw [hx, zero_mul]), if_pos hx, EReal.bot_add]
  · by_cases hy : y = 0
    · rw [if_pos (by rw [hy, mul_zero]), if_pos hy, EReal.add_bot]
    · rw [if_neg (mul_ne_zero hx hy), if_neg hx, if_neg hy, abs_mul,
        Real.log_mul (abs_ne_zero.2 hx) (abs_ne_zero.2 hy), EReal.coe_add]

theorem logAbs_one : logAbs 1 = 0 := by
  rw [logAbs, if_neg one_ne_zero, abs_one, Real.log_one, EReal.coe_zero]

theorem logAbs_pow (x : ℝ) {k : ℕ} (hk : 0 < k) : logAbs (x ^ k) = ((k : ℝ) : EReal) * logAbs x := by
  unfold logAbs
  by_cases hx : x = 0
  · rw [if_pos (by rw [hx, zero_pow hk.ne']), if_pos hx, EReal.coe_mul_bot_of_pos (by exact_mod_cast hk)]
  · rw [if_neg (pow_ne_zero _ hx), if_neg hx, abs_pow, Real.log_pow, EReal.coe_mul]

theorem logAbs_inv {x : ℝ} (hx : x ≠ 0) : logAbs x⁻¹ = -logAbs x := by
  rw [logAbs, logAbs, if_neg (inv_ne_zero hx), if_neg hx, abs_inv, Real.log_inv, EReal.coe_neg]

theorem logAbs_prod (l : List ℝ) : logAbs l.prod = (l.map logAbs).sum := by
  induction l with
  | nil => rw [List.prod_nil, logAbs_one, List.map_nil, List.sum_nil]
  | cons a l ih => rw [List.prod_cons, logAbs_mul, ih, List.map_cons, List.sum_cons]

/-! ## Products whose factors are square -/

mutual

/-- Every factor of a product (that the computation of the determinant visits) is square. -/
def SquareFactors : Op → Prop
  | .kron _ A B => SquareFactors A ∧ SquareFactors B
  | .idkron _ _ B => SquareFactors B
  | .symkron _ _ A _ => SquareFactors A
  | .prod _ l => SquareFactorsL l ∧ ∀ a ∈ l, a.rows = a.cols
  | .transposed _ A => SquareFactors A
  | .inverse _ A => SquareFactors A
  | .block _ l => SquareFactorsL l
  | _ => True

/-- The same for all operators of a list. -/
def SquareFactorsL : List Op → Prop
  | [] => True
  | a :: l => SquareFactors a ∧ SquareFactorsL l

end

theorem SquareFactorsL.mem : ∀ {l : List Op}, SquareFactorsL l → ∀ a ∈ l, SquareFactors a
  | b :: l, h, a, ha => by
    rw [SquareFactorsL] at h
    rcases List.mem_cons.1 ha with rfl | ha
    · exact h.1
    · exact h.2.mem a ha

theorem generic_eq {α : Type} {op : Op} {n m : ℕ} (hV : Valid False op) (hf : Fine m op) (hn : 4 * m + 6 ≤ n)
    {g : Mat → α} (hg : ∀ D, Eqv op.rows op.cols D (den op) → g D = g (den op)) :
    (do let D ← todense n op
        Except.ok (g D) : Res α) = .ok (g (den op)) := by
  obtain ⟨D, h1, h2, -⟩ := ((level False n).dense hV).returns ((swift False n).dense hV hf hn)
  rw [h1]
  exact congrArg Except.ok (hg D h2)

theorem generic_det {op : Op} {n m : ℕ} (hV : Valid False op) (hf : Fine m op) (hn : 4 * m + 6 ≤ n)
    (hsq : op.rows = op.cols) : (do let D ← todense n op
                                    Except.ok (detM op.rows D) : Res ℝ) = .ok (detM op.rows (den op)) :=
  generic_eq hV hf hn (g := detM op.rows) fun D h => by
    rw [← hsq] at h
    exact detM_congr h

theorem generic_log {op : Op} {n m : ℕ} (hV : Valid False op) (hf : Fine m op) (hn : 4 * m + 6 ≤ n)
    (hsq : op.rows = op.cols) : (do let D ← todense n op
                                    Except.ok (logAbs (detM op.rows D)) : Res EReal) =
      .ok (logAbs (detM op.rows (den op))) :=
  generic_eq hV hf hn (g := fun D => logAbs (detM op.rows D)) fun D h => by
    rw [← hsq] at h
    exact congrArg logAbs (detM_congr h)

theorem detM_zero {n : ℕ} (h : 0 < n) : detM n 0 = 0 := by
  haveI : Nonempty (Fin n) := ⟨⟨0, h⟩⟩
  exact Matrix.det_zero

theorem den_idkron (h : Hdr) (k : ℕ) (B : Op) : den (.idkron h k B) = kronM B.rows B.cols eye (den B) := by rw [den]

theorem den_kron (h : Hdr) (A B : Op) : den (.kron h A B) = kronM B.rows B.cols (den A) (den B) := by rw [den]

theorem prod_dims {a : Op} {l : List Op} (hch : chained (a :: l)) (hsq : ∀ b ∈ a :: l, b.rows = b.cols) :
    ∀ b ∈ a :: l, b.rows = a.rows ∧ b.cols = a.rows := fun b hb =>
  ⟨(prod_square hch hsq).1 b hb, (hsq b hb).symm.trans ((prod_square hch hsq).1 b hb)⟩

theorem det_eq : ∀ (n : ℕ) {m : ℕ} {op : Op}, Valid False op → Fine m op → SquareFactors op → op.rows = op.cols →
    4 * m + 7 ≤ n → det n op = .ok (detM op.rows (den op))
  | 0, _, _, _, _, _, _, h => by omega
  | n + 1, m, op, hV, hf, hS, hsq, hn => by
    have gen := generic_det hV hf (n := n) (by omega) hsq
    have hrows := hV.node.rows
    rw [det.eq_def]
    dsimp only
    rw [if_neg (not_not.2 hsq)]
    obtain ⟨h1, h2⟩ := hf
    cases hV with
    | matrix _ => exact gen
    | lam _ => exact gen
    | @identity h _ _ => rw [den]; exact congrArg Except.ok (detM_eye _).symm
    | @scaling h iso f e hi _ =>
      have hd : den (.scaling h iso f) = fun i j => if i = j then f i else 0 := by rw [den]
      have hr : (Op.scaling h iso f).rows = h.rows := rfl
      rw [hd, hr, detM_diag]
      dsimp only
      split
      · next hiso =>
        have e : ∏ i ∈ range h.rows, f i = f 0 ^ h.rows := by
          rw [prod_congr rfl fun i _ => hi hiso i, prod_const, card_range]
        split
        · next h1 => rw [e, h1, one_pow]
        · rw [e]
      · rfl
    | @zero h _ => rw [den]; exact congrArg Except.ok (detM_zero hrows).symm
    | @kron h A B hA hB r c _ =>
      rw [depth] at h1
      rw [Calm] at h2
      rw [SquareFactors] at hS
      obtain ⟨k, rfl⟩ : ∃ k, m = k + 1 := ⟨m - 1, by omega⟩
      have e1 : depth A ≤ k := by have := le_max_left (depth A) (depth B); omega
      have e2 : depth B ≤ k := by have := le_max_right (depth A) (depth B); omega
      dsimp only
      split
      · next hs =>
        rw [det_eq n hA ⟨e1, h2.1⟩ hS.1 hs.1 (by omega), det_eq n hB ⟨e2, h2.2⟩ hS.2 hs.2 (by omega), ok_bind, ok_bind,
          den_kron]
        have : (Op.kron h A B).rows = A.rows * B.rows := r
        rw [this, ← hs.2, detM_kronM]
      · exact gen
    | @idkron h k B hB r c _ =>
      rw [depth] at h1
      rw [Calm] at h2
      rw [SquareFactors] at hS
      obtain ⟨m, rfl⟩ : ∃ m', m = m' + 1 := ⟨m - 1, by omega⟩
      dsimp only
      split
      · next hs =>
        have hI : det n (mkIdentity k) = .ok 1 := by
          obtain ⟨n, rfl⟩ : ∃ n', n = n' + 1 := ⟨n - 1, by omega⟩
          rw [det.eq_def]
          exact if_neg (not_not.2 rfl)
        rw [det_eq n hB (m := m) ⟨by omega, h2⟩ hS hs (by omega), hI, ok_bind, ok_bind, den_idkron]
        have : (Op.idkron h k B).rows = k * B.rows := r
        rw [this, ← hs, detM_kronM, detM_eye]
      · exact gen
    | @symkron h same A B hA hB hsame eA _ _ r c _ =>
      rw [depth] at h1
      rw [Calm] at h2
      rw [SquareFactors] at hS
      obtain ⟨k, rfl⟩ : ∃ k, m = k + 1 := ⟨m - 1, by omega⟩
      have e1 : depth A ≤ k := by have := le_max_left (depth A) (depth B); omega
      dsimp only
      split
      · next hs =>
        subst hs
        have hBA := hsame rfl
        subst hBA
        rw [det_eq n hA ⟨e1, h2.1⟩ hS eA (by omega), ok_bind, den_symkron_same]
        have : (Op.symkron h true B B).rows = B.rows * B.rows := r
        rw [this, ← eA, detM_kronM, two_mul, pow_add]
      · exact gen
    | symmetrize _ _ _ => exact gen
    | scaled _ _ _ _ _ _ => exact gen
    | sum _ _ _ _ => exact gen
    | @prod h a l hl hch r c _ =>
      rw [depth] at h1
      rw [Calm] at h2
      rw [SquareFactors] at hS
      obtain ⟨k, rfl⟩ : ∃ k, m = k + 1 := ⟨m - 1, by omega⟩
      have hd := prod_dims hch hS.2
      have hm : (a :: l).mapM (det n) = .ok ((a :: l).map fun b => detM a.rows (den b)) := mapM_eq fun b hb => by
        rw [det_eq n (hl b hb) (Fine.list h1 h2 b hb) (hS.1.mem b hb) (hS.2 b hb) (by omega), (hd b hb).1]
      dsimp only
      have : (Op.prod h (a :: l)).rows = a.rows := r
      have hden : den (.prod h (a :: l)) = denProd (a :: l) := by rw [den]
      rw [hm, ok_bind, reduceMul_eq (by simp), this, hden, detM_denProd hd]
    | @transposed h A hA r c _ =>
      rw [depth] at h1
      rw [Calm] at h2
      rw [SquareFactors] at hS
      obtain ⟨k, rfl⟩ : ∃ k, m = k + 1 := ⟨m - 1, by omega⟩
      have hsA : A.rows = A.cols := by
        have : h.rows = h.cols := hsq
        omega
      dsimp only
      have : (Op.transposed h A).rows = A.rows := r.trans hsA.symm
      have hden : den (.transposed h A) = trn (den A) := by rw [den]
      rw [det_eq n hA (m := k) ⟨by omega, h2⟩ hS hsA (by omega), this, hden, detM_trn]
    | @inverse h A hA eA r c _ hdet _ =>
      rw [depth] at h1
      rw [Calm] at h2
      rw [SquareFactors] at hS
      obtain ⟨k, rfl⟩ : ∃ k, m = k + 1 := ⟨m - 1, by omega⟩
      dsimp only
      have : (Op.inverse h A).rows = A.rows := r
      have hden : den (.inverse h A) = invM A.rows (den A) := by rw [den, r]
      rw [det_eq n hA (m := k) ⟨by omega, h2⟩ hS eA (by omega), ok_bind, if_neg hdet, this, hden, detM_invM, one_div]
    | selection _ _ _ _ _ => exact gen
    | embedding _ _ _ _ _ => exact gen
    | @block h l hne hl _ r c _ =>
      rw [depth] at h1
      rw [Calm] at h2
      rw [SquareFactors] at hS
      obtain ⟨k, rfl⟩ : ∃ k, m = k + 1 := ⟨m - 1, by omega⟩
      dsimp only
      split
      · next hs =>
        have hm : l.mapM (det n) = .ok (l.map fun b => detM b.rows (den b)) := mapM_eq fun b hb =>
          det_eq n (hl b hb) (Fine.list h1 h2 b hb) (hS.mem b hb) (hs b hb) (by omega)
        have : (Op.block h l).rows = (l.map Op.rows).sum := r
        have hden : den (.block h l) = denBlock l := by rw [den]
        rw [hm, ok_bind, this, hden, detM_denBlock hs]
      · exact gen

theorem logabsdet_eq : ∀ (n : ℕ) {m : ℕ} {op : Op}, Valid False op → Fine m op → SquareFactors op →
    op.rows = op.cols → 4 * m + 7 ≤ n → logabsdet n op = .ok (logAbs (detM op.rows (den op)))
  | 0, _, _, _, _, _, _, h => by omega
  | n + 1, m, op, hV, hf, hS, hsq, hn => by
    have gen := generic_log hV hf (n := n) (by omega) hsq
    have hrows := hV.node.rows
    rw [logabsdet.eq_def]
    dsimp only
    rw [if_neg (not_not.2 hsq)]
    obtain ⟨h1, h2⟩ := hf
    cases hV with
    | matrix _ => exact gen
    | lam _ => exact gen
    | @identity h _ _ =>
      rw [den, detM_eye, logAbs_one]
    | @scaling h iso f e hi _ =>
      have hd : den (.scaling h iso f) = fun i j => if i = j then f i else 0 := by rw [den]
      have hr : (Op.scaling h iso f).rows = h.rows := rfl
      have hrows : 0 < h.rows := hrows
      dsimp only
      split
      · next hiso =>
        have e : ∏ i ∈ range h.rows, f i = f 0 ^ h.rows := by
          rw [prod_congr rfl fun i _ => hi hiso i, prod_const, card_range]
        rw [hd, hr, detM_diag, e]
        split
        · next h1 => rw [h1, one_pow, logAbs_one, zero_mul, EReal.coe_zero]
        · split
          · next h0 => rw [h0, zero_pow hrows.ne', logAbs, if_pos rfl]
          · next h0 => rw [logAbs_pow _ hrows, logAbs, if_neg h0, EReal.coe_mul]
      · exact gen
    | zero _ => exact gen
    | @kron h A B hA hB r c _ =>
      rw [depth] at h1
      rw [Calm] at h2
      rw [SquareFactors] at hS
      obtain ⟨k, rfl⟩ : ∃ k, m = k + 1 := ⟨m - 1, by omega⟩
      have e1 : depth A ≤ k := by have := le_max_left (depth A) (depth B); omega
      have e2 : depth B ≤ k := by have := le_max_right (depth A) (depth B); omega
      dsimp only
      split
      · next hs =>
        rw [logabsdet_eq n hA ⟨e1, h2.1⟩ hS.1 hs.1 (by omega), logabsdet_eq n hB ⟨e2, h2.2⟩ hS.2 hs.2 (by omega), ok_bind,
          ok_bind, den_kron]
        have : (Op.kron h A B).rows = A.rows * B.rows := r
        rw [this, ← hs.2, detM_kronM, logAbs_mul, logAbs_pow _ hB.node.rows, logAbs_pow _ hA.node.rows]
      · exact gen
    | @idkron h k B hB r c _ =>
      rw [depth] at h1
      rw [Calm] at h2
      rw [SquareFactors] at hS
      obtain ⟨m, rfl⟩ : ∃ m', m = m' + 1 := ⟨m - 1, by omega⟩
      dsimp only
      split
      · next hs =>
        have hI : logabsdet n (mkIdentity k) = .ok 0 := by
          obtain ⟨n, rfl⟩ : ∃ n', n = n' + 1 := ⟨n - 1, by omega⟩
          rw [logabsdet.eq_def]
          exact if_neg (not_not.2 rfl)
        rw [logabsdet_eq n hB (m := m) ⟨by omega, h2⟩ hS hs (by omega), hI, ok_bind, ok_bind, den_idkron]
        have : (Op.idkron h k B).rows = k * B.rows := r
        have hk : 0 < k := by
          rw [this] at hrows
          exact Nat.pos_of_mul_pos_right hrows
        rw [this, ← hs, detM_kronM, detM_eye, one_pow, one_mul, logAbs_pow _ hk, mul_zero, zero_add]
      · exact gen
    | @symkron h same A B hA hB hsame eA _ _ r c _ =>
      rw [depth] at h1
      rw [Calm] at h2
      rw [SquareFactors] at hS
      obtain ⟨k, rfl⟩ : ∃ k, m = k + 1 := ⟨m - 1, by omega⟩
      have e1 : depth A ≤ k := by have := le_max_left (depth A) (depth B); omega
      dsimp only
      split
      · next hs =>
        subst hs
        have hBA := hsame rfl
        subst hBA
        rw [logabsdet_eq n hA ⟨e1, h2.1⟩ hS eA (by omega), ok_bind, den_symkron_same]
        have : (Op.symkron h true B B).rows = B.rows * B.rows := r
        have hB0 := hA.node.rows
        rw [this, ← eA, detM_kronM, ← pow_add, ← two_mul, logAbs_pow _ (by omega), Nat.cast_mul, Nat.cast_two]
      · exact gen
    | symmetrize _ _ _ => exact gen
    | scaled _ _ _ _ _ _ => exact gen
    | sum _ _ _ _ => exact gen
    | @prod h a l hl hch r c _ =>
      rw [depth] at h1
      rw [Calm] at h2
      rw [SquareFactors] at hS
      obtain ⟨k, rfl⟩ : ∃ k, m = k + 1 := ⟨m - 1, by omega⟩
      have hd := prod_dims hch hS.2
      have hm : (a :: l).mapM (logabsdet n) = .ok ((a :: l).map fun b => logAbs (detM a.rows (den b))) :=
        mapM_eq fun b hb => by
        rw [logabsdet_eq n (hl b hb) (Fine.list h1 h2 b hb) (hS.1.mem b hb) (hS.2 b hb) (by omega), (hd b hb).1]
      dsimp only
      have : (Op.prod h (a :: l)).rows = a.rows := r
      have hden : den (.prod h (a :: l)) = denProd (a :: l) := by rw [den]
      rw [hm, ok_bind, reduceAdd_sum (by simp), this, hden, detM_denProd hd, logAbs_prod, List.map_map]
      rfl
    | @transposed h A hA r c _ =>
      rw [depth] at h1
      rw [Calm] at h2
      rw [SquareFactors] at hS
      obtain ⟨k, rfl⟩ : ∃ k, m = k + 1 := ⟨m - 1, by omega⟩
      have hsA : A.rows = A.cols := by
        have : h.rows = h.cols := hsq
        omega
      dsimp only
      have : (Op.transposed h A).rows = A.rows := r.trans hsA.symm
      have hden : den (.transposed h A) = trn (den A) := by rw [den]
      rw [logabsdet_eq n hA (m := k) ⟨by omega, h2⟩ hS hsA (by omega), this, hden, detM_trn]
    | @inverse h A hA eA r c _ hdet _ =>
      rw [depth] at h1
      rw [Calm] at h2
      rw [SquareFactors] at hS
      obtain ⟨k, rfl⟩ : ∃ k, m = k + 1 := ⟨m - 1, by omega⟩
      dsimp only
      have : (Op.inverse h A).rows = A.rows := r
      have hden : den (.inverse h A) = invM A.rows (den A) := by rw [den, r]
      rw [logabsdet_eq n hA (m := k) ⟨by omega, h2⟩ hS eA (by omega), ok_bind, this, hden, detM_invM, logAbs_inv hdet]
    | selection _ _ _ _ _ => exact gen
    | embedding _ _ _ _ _ => exact gen
    | @block h l hne hl _ r c _ =>
      rw [depth] at h1
      rw [Calm] at h2
      rw [SquareFactors] at hS
      obtain ⟨k, rfl⟩ : ∃ k, m = k + 1 := ⟨m - 1, by omega⟩
      dsimp only
      split
      · next hs =>
        have hm : l.mapM (logabsdet n) = .ok (l.map fun b => logAbs (detM b.rows (den b))) := mapM_eq fun b hb =>
          logabsdet_eq n (hl b hb) (Fine.list h1 h2 b hb) (hS.mem b hb) (hs b hb) (by omega)
        have : (Op.block h l).rows = (l.map Op.rows).sum := r
        have hden : den (.block h l) = denBlock l := by rw [den]
        rw [hm, ok_bind, this, hden, detM_denBlock hs, logAbs_prod, List.map_map]
        rfl
      · exact gen

theorem rank_eq : ∀ (n : ℕ) {m : ℕ} {op : Op}, Valid False op → Fine m op → 4 * m + 7 ≤ n →
    rank n op = .ok (rankM op.rows op.cols (den op))
  | 0, _, _, _, _, h => by omega
  | n + 1, m, op, hV, hf, hn => by
    have gen : (do let D ← todense n op
                   Except.ok (rankM op.rows op.cols D) : Res ℕ) = .ok (rankM op.rows op.cols (den op)) :=
      generic_eq hV hf (by omega) (g := rankM op.rows op.cols) fun D h => rankM_congr h
    have hrows := hV.node.rows
    rw [rank.eq_def]
    dsimp only
    obtain ⟨h1, h2⟩ := hf
    cases hV with
    | matrix _ => exact gen
    | lam _ => exact gen
    | @identity h e _ =>
      have hc : (Op.identity h).cols = h.rows := e.symm
      have hr : (Op.identity h).rows = h.rows := rfl
      rw [den, hr, hc, rankM, toM_eye, Matrix.rank_one, Fintype.card_fin]
    | @scaling h iso f e hi _ =>
      have hd : den (.scaling h iso f) = fun i j => if i = j then f i else 0 := by rw [den]
      have hr : (Op.scaling h iso f).rows = h.rows := rfl
      have hc : (Op.scaling h iso f).cols = h.rows := e.symm
      rw [hd, hr, hc, rankM_diag]
      dsimp only
      split
      · next hiso =>
        have full : f 0 ≠ 0 → ((range h.rows).filter fun i => f i ≠ 0).card = h.rows := fun h0 => by
          rw [filter_true_of_mem fun i _ => by rw [hi hiso i]; exact h0, card_range]
        split
        · next h1 => rw [full (by rw [h1]; exact one_ne_zero)]
        · split
          · next h0 => rw [filter_false_of_mem fun i _ => by rw [hi hiso i]; exact not_not.2 h0, card_empty]
          · next h0 => rw [full h0]
      · rfl
    | @zero h _ =>
      rw [den, rankM]
      exact congrArg Except.ok (Matrix.rank_zero).symm
    | @kron h A B hA hB r c _ =>
      rw [depth] at h1
      rw [Calm] at h2
      obtain ⟨k, rfl⟩ : ∃ k, m = k + 1 := ⟨m - 1, by omega⟩
      have e1 : depth A ≤ k := by have := le_max_left (depth A) (depth B); omega
      have e2 : depth B ≤ k := by have := le_max_right (depth A) (depth B); omega
      dsimp only
      rw [rank_eq n hA ⟨e1, h2.1⟩ (by omega), rank_eq n hB ⟨e2, h2.2⟩ (by omega), ok_bind, ok_bind, den_kron]
      have hr : (Op.kron h A B).rows = A.rows * B.rows := r
      have hc : (Op.kron h A B).cols = A.cols * B.cols := c
      rw [hr, hc, rankM_kronM]
    | @idkron h k B hB r c _ =>
      rw [depth] at h1
      rw [Calm] at h2
      obtain ⟨m, rfl⟩ : ∃ m', m = m' + 1 := ⟨m - 1, by omega⟩
      dsimp only
      have hI : rank n (mkIdentity k) = .ok k := by
        obtain ⟨n, rfl⟩ : ∃ n', n = n' + 1 := ⟨n - 1, by omega⟩
        rfl
      rw [rank_eq n hB (m := m) ⟨by omega, h2⟩ (by omega), hI, ok_bind, ok_bind, den_idkron]
      have hr : (Op.idkron h k B).rows = k * B.rows := r
      have hc : (Op.idkron h k B).cols = k * B.cols := c
      have hI1 : rankM k k eye = k := by rw [rankM, toM_eye, Matrix.rank_one, Fintype.card_fin]
      rw [hr, hc, rankM_kronM, hI1]
    | @symkron h same A B hA hB hsame eA _ _ r c _ =>
      rw [depth] at h1
      rw [Calm] at h2
      obtain ⟨k, rfl⟩ : ∃ k, m = k + 1 := ⟨m - 1, by omega⟩
      have e1 : depth A ≤ k := by have := le_max_left (depth A) (depth B); omega
      dsimp only
      split
      · next hs =>
        subst hs
        have hBA := hsame rfl
        subst hBA
        rw [rank_eq n hA ⟨e1, h2.1⟩ (by omega), ok_bind, den_symkron_same]
        have hr : (Op.symkron h true B B).rows = B.rows * B.rows := r
        have hc : (Op.symkron h true B B).cols = B.cols * B.cols := by rw [← eA]; exact c
        rw [hr, hc, rankM_kronM, sq]
      · exact gen
    | symmetrize _ _ _ => exact gen
    | scaled _ _ _ _ _ _ => exact gen
    | sum _ _ _ _ => exact gen
    | prod _ _ _ _ _ => exact gen
    | @transposed h A hA r c _ =>
      rw [depth] at h1
      rw [Calm] at h2
      obtain ⟨k, rfl⟩ : ∃ k, m = k + 1 := ⟨m - 1, by omega⟩
      dsimp only
      have hr : (Op.transposed h A).rows = A.cols := r
      have hc : (Op.transposed h A).cols = A.rows := c
      have hden : den (.transposed h A) = trn (den A) := by rw [den]
      rw [rank_eq n hA (m := k) ⟨by omega, h2⟩ (by omega), hr, hc, hden, rankM_trn]
    | inverse _ _ _ _ _ _ _ => exact gen
    | selection _ _ _ _ _ => exact gen
    | embedding _ _ _ _ _ => exact gen
    | @block h l hne hl _ r c _ =>
      rw [depth] at h1
      rw [Calm] at h2
      obtain ⟨k, rfl⟩ : ∃ k, m = k + 1 := ⟨m - 1, by omega⟩
      dsimp only
      split
      · next hs =>
        have hm : l.mapM (rank n) = .ok (l.map fun b => rankM b.rows b.cols (den b)) := mapM_eq fun b hb =>
          rank_eq n (hl b hb) (Fine.list h1 h2 b hb) (by omega)
        have hr : (Op.block h l).rows = (l.map Op.rows).sum := r
        have hc : (Op.block h l).cols = (l.map Op.cols).sum := c
        have hden : den (.block h l) = denBlock l := by rw [den]
        rw [hm, ok_bind, hr, hc, hden, rankM_denBlock]
      · exact gen

end Probnum.Linops
