import Verif.Linops.CondNorms
import Verif.Linops.DerivedLemmas

/-! # Condition numbers and eigenvalues of operators are those of the denoted matrix -/

namespace Probnum.Linops.Cond

open Finset Matrix
open scoped Kronecker

theorem denseCond_eq {op : Op} {n m : ℕ} (hV : Valid False op) (hf : Fine m op) (hn : 4 * m + 6 ≤ n)
    (hsq : op.rows = op.cols) (p : NormOrd) :
    denseCond n op p = (npCond p (toM op.rows op.rows (den op)) >>= fun c => .ok (some c)) := by
  obtain ⟨D, h1, h2, -⟩ := ((level False n).dense hV).returns ((swift False n).dense hV hf hn)
  rw [← hsq] at h2
  have h3 : toM op.rows op.rows D = toM op.rows op.rows (den op) := h2.toM
  rw [denseCond, h1]
  show (if op.rows = 0 then _ else _) = _
  rw [if_neg hV.node.rows.ne', h3]

theorem ce_kronM (p : NormOrd) {r s : ℕ} (hr : 0 < r) (hs : 0 < s) (A B : Mat) :
    fmul (some (ce p (toM r r A))) (some (ce p (toM s s B))) = some (ce p (toM (r * s) (r * s) (kronM s s A B))) := by
  haveI : Nonempty (Fin r) := ⟨⟨0, hr⟩⟩
  haveI : Nonempty (Fin s) := ⟨⟨0, hs⟩⟩
  rw [toM_kronM, ce_reindex, ce_kron]

theorem detM_kron_ne {r s : ℕ} (hr : 0 < r) (hs : 0 < s) {A B : Mat} (h : detM (r * s) (kronM s s A B) ≠ 0) :
    detM r A ≠ 0 ∧ detM s B ≠ 0 := by
  rw [detM_kronM] at h
  exact ⟨fun e => h (by rw [e, zero_pow hs.ne', zero_mul]), fun e => h (by rw [e, zero_pow hr.ne', mul_zero])⟩

theorem cv_one (p : NormOrd) {r : ℕ} (hr : 0 < r) :
    (1 : Matrix (Fin r) (Fin r) ℝ).det ≠ 0 ∧ (p.plain = true → cv p (1 : Matrix (Fin r) (Fin r) ℝ) = 1) ∧
      cv .fro (1 : Matrix (Fin r) (Fin r) ℝ) = r := by
  haveI : Nonempty (Fin r) := ⟨⟨0, hr⟩⟩
  have h1 : ⨅ _ : Fin r, |(1 : ℝ)| = 1 := by rw [ciInf_const, abs_one]
  have h2 : ⨆ _ : Fin r, |(1 : ℝ)| = 1 := by rw [ciSup_const, abs_one]
  have h0 : ⨅ _ : Fin r, |(1 : ℝ)| ≠ 0 := by rw [h1]; exact one_ne_zero
  refine ⟨by rw [det_one]; exact one_ne_zero, fun hp => ?_, ?_⟩
  · rw [← diagonal_one]
    cases p with
    | none => rw [cv_diag_pos h0 (by simp), h1, h2, div_one]
    | two => rw [cv_diag_pos h0 (by simp), h1, h2, div_one]
    | one => rw [cv_diag_pos h0 (by simp), h1, h2, div_one]
    | inf => rw [cv_diag_pos h0 (by simp), h1, h2, div_one]
    | negTwo => rw [cv_diag_neg h0 (by simp), h1, h2, div_one]
    | negOne => rw [cv_diag_neg h0 (by simp), h1, h2, div_one]
    | negInf => rw [cv_diag_neg h0 (by simp), h1, h2, div_one]
    | fro => cases hp
    | nuc => cases hp
    | other => cases hp
  · rw [← diagonal_one, cv_diag_fro h0]
    simp

theorem cond_identity {n k : ℕ} (hk : 0 < k) {p : NormOrd} (hp : Good p) :
    cond (n + 1) (mkIdentity k) p = .ok (some (ce p (toM k k eye))) := by
  obtain ⟨h0, h1, h2⟩ := cv_one p hk
  rw [cond.eq_def]
  refine (if_neg (not_not.2 rfl)).trans ?_
  rw [toM_eye, ce, if_neg h0]
  rcases hp with hp | rfl
  · show (if p.plain = true then _ else _) = _
    rw [if_pos hp, h1 hp, ENNReal.ofReal_one]
  · rw [h2, ENNReal.ofReal_natCast]
    rfl

theorem ce_diag {ι : Type} [Fintype ι] [DecidableEq ι] [Nonempty ι] (p : NormOrd) (f : ι → ℝ) :
    ce p (Matrix.diagonal f) = if ⨅ i, |f i| = 0 then ⊤ else ENNReal.ofReal (cv p (Matrix.diagonal f)) := by
  rw [ce]
  by_cases h : ⨅ i, |f i| = 0
  · rw [if_pos h, if_pos ((det_diag_eq_zero f).2 h)]
  · rw [if_neg h, if_neg fun e => h ((det_diag_eq_zero f).1 e)]

theorem condIso_eq {n : ℕ} (hn : 0 < n) (s : ℝ) {p : NormOrd} (hp : Good p) (d : Res (Option ENNReal)) :
    condIso n s p d = .ok (some (ce p (toM n n fun i j => if i = j then s else 0))) := by
  haveI : Nonempty (Fin n) := ⟨⟨0, hn⟩⟩
  have e := toM_diag n fun _ => s
  have h1 : ⨅ _ : Fin n, |s| = |s| := ciInf_const
  have h2 : ⨆ _ : Fin n, |s| = |s| := ciSup_const
  rw [e, condIso, ce_diag, h1]
  by_cases hs : s = 0
  · rw [if_pos hs, if_pos (by rw [hs, abs_zero])]
  have hs' : |s| ≠ 0 := abs_ne_zero.2 hs
  rw [if_neg hs, if_neg hs']
  have h0 : ⨅ _ : Fin n, |s| ≠ 0 := by rwa [h1]
  have hd : |s| / |s| = 1 := div_self hs'
  rcases hp with hp | rfl
  · rw [if_pos hp]
    have : cv p (Matrix.diagonal fun _ : Fin n => s) = 1 := by
      cases p with
      | none => rw [cv_diag_pos h0 (by simp), h1, h2, hd]
      | two => rw [cv_diag_pos h0 (by simp), h1, h2, hd]
      | one => rw [cv_diag_pos h0 (by simp), h1, h2, hd]
      | inf => rw [cv_diag_pos h0 (by simp), h1, h2, hd]
      | negTwo => rw [cv_diag_neg h0 (by simp), h1, h2, hd]
      | negOne => rw [cv_diag_neg h0 (by simp), h1, h2, hd]
      | negInf => rw [cv_diag_neg h0 (by simp), h1, h2, hd]
      | fro => cases hp
      | nuc => cases hp
      | other => cases hp
    rw [this, ENNReal.ofReal_one]
  · rw [if_neg (by decide), if_pos rfl]
    have : cv .fro (Matrix.diagonal fun _ : Fin n => s) = n := by
      rw [cv_diag_fro h0, sum_const, sum_const, card_univ, Fintype.card_fin, ← Real.sqrt_mul (by positivity)]
      have : n • s ^ 2 * n • (1 / s) ^ 2 = (n : ℝ) ^ 2 := by
        rw [nsmul_eq_mul, nsmul_eq_mul]
        field_simp
      rw [this, Real.sqrt_sq (Nat.cast_nonneg n)]
    rw [this, ENNReal.ofReal_natCast]

theorem condAniso_eq {n : ℕ} (hn : 0 < n) (f : ℕ → ℝ) {p : NormOrd} (hp : Good p)
    (hneg : p = .negTwo → detM n (fun i j => if i = j then f i else 0) ≠ 0) (d : Res (Option ENNReal)) :
    condAniso n f p d = .ok (some (ce p (toM n n fun i j => if i = j then f i else 0))) := by
  haveI : Nonempty (Fin n) := ⟨⟨0, hn⟩⟩
  rw [toM_diag, condAniso, if_neg hn.ne', ce_diag]
  dsimp only
  by_cases h0 : ⨅ i : Fin n, |f i| = 0
  · rw [if_pos h0, if_pos h0]
  rw [if_neg h0, if_neg h0]
  have hpos : 0 < ⨆ i : Fin n, |f i| :=
    (abs_pos.2 (diag_ne h0 ⟨0, hn⟩)).trans_le ((sup_ex fun i : Fin n => |f i|).1 ⟨0, hn⟩)
  cases p with
  | none => rw [cv_diag_pos h0 (by simp)]
  | two => rw [cv_diag_pos h0 (by simp)]
  | one => rw [cv_diag_pos h0 (by simp)]
  | inf => rw [cv_diag_pos h0 (by simp)]
  | negTwo => rw [cv_diag_neg h0 (by simp)]; exact if_pos hpos
  | negOne => rw [cv_diag_neg h0 (by simp)]; exact if_pos hpos
  | negInf => rw [cv_diag_neg h0 (by simp)]; exact if_pos hpos
  | fro =>
    rw [cv_diag_fro h0]
    simp only [Finset.sum_range]
  | nuc => rcases hp with hp | hp <;> cases hp
  | other => rcases hp with hp | hp <;> cases hp

theorem cond_eq : ∀ (n : ℕ) {m : ℕ} {op : Op} {p : NormOrd}, Valid False op → Fine m op → op.rows = op.cols → Good p →
    (p = .negTwo → detM op.rows (den op) ≠ 0) → 4 * m + 7 ≤ n →
    cond n op p = .ok (some (ce p (toM op.rows op.rows (den op))))
  | 0, _, _, _, _, _, _, _, _, h => by omega
  | n + 1, m, op, p, hV, hf, hsq, hp, hneg, hn => by
    have gen : denseCond n op p = .ok (some (ce p (toM op.rows op.rows (den op)))) := by
      haveI : Nonempty (Fin op.rows) := ⟨⟨0, hV.node.rows⟩⟩
      rw [denseCond_eq hV hf (by omega) hsq, npCond_eq hp _ hneg]
      rfl
    have kr : ∀ A B : Op, (p.plain = true ∨ p = .fro) := fun _ _ => hp
    rw [cond.eq_def]
    dsimp only
    rw [if_neg (not_not.2 hsq)]
    obtain ⟨h1, h2⟩ := hf
    cases hV with
    | matrix _ => exact gen
    | lam _ => exact gen
    | @identity h e nd =>
      have := cond_identity (n := n) nd.rows hp
      rw [cond.eq_def] at this
      rw [den]
      exact (if_neg (not_not.2 rfl)).symm.trans this
    | @scaling h iso f e hi nd =>
      have hd : den (.scaling h iso f) = fun i j => if i = j then f i else 0 := by rw [den]
      have hr : (Op.scaling h iso f).rows = h.rows := rfl
      have hpos : 0 < h.rows := nd.rows
      rw [hd, hr] at hneg ⊢
      dsimp only
      split
      · next hiso =>
        have : f = fun _ => f 0 := funext (hi hiso)
        rw [this]
        exact condIso_eq hpos _ hp _
      · exact condAniso_eq hpos _ hp hneg _
    | zero _ => exact gen
    | @kron h A B hA hB r c _ =>
      rw [depth] at h1
      rw [Calm] at h2
      obtain ⟨k, rfl⟩ : ∃ k, m = k + 1 := ⟨m - 1, by omega⟩
      have e1 : depth A ≤ k := by have := le_max_left (depth A) (depth B); omega
      have e2 : depth B ≤ k := by have := le_max_right (depth A) (depth B); omega
      dsimp only
      split
      · next hs =>
        have hr : (Op.kron h A B).rows = A.rows * B.rows := r
        have hneg' : p = .negTwo → detM A.rows (den A) ≠ 0 ∧ detM B.rows (den B) ≠ 0 := fun e => by
          have := hneg e
          rw [den_kron, hr, ← hs.1.2] at this
          exact detM_kron_ne hA.node.rows hB.node.rows this
        rw [cond_eq n hA ⟨e1, h2.1⟩ hs.1.1 hp (fun e => (hneg' e).1) (by omega),
          cond_eq n hB ⟨e2, h2.2⟩ hs.1.2 hp (fun e => (hneg' e).2) (by omega), ok_bind, ok_bind, den_kron, hr, ← hs.1.2,
          ce_kronM p hA.node.rows hB.node.rows]
      · exact gen
    | @idkron h k B hB r c nd =>
      rw [depth] at h1
      rw [Calm] at h2
      obtain ⟨m, rfl⟩ : ∃ m', m = m' + 1 := ⟨m - 1, by omega⟩
      dsimp only
      split
      · next hs =>
        have hr : (Op.idkron h k B).rows = k * B.rows := r
        have hk : 0 < k := by
          have := nd.rows
          rw [hr] at this
          exact Nat.pos_of_mul_pos_right this
        have hneg' : p = .negTwo → detM B.rows (den B) ≠ 0 := fun e => by
          have := hneg e
          rw [den_idkron, hr, ← hs.1] at this
          exact (detM_kron_ne hk hB.node.rows this).2
        obtain ⟨n, rfl⟩ : ∃ n', n = n' + 1 := ⟨n - 1, by omega⟩
        rw [cond_identity hk hp, cond_eq (n + 1) hB (m := m) ⟨by omega, h2⟩ hs.1 hp hneg' (by omega), ok_bind, ok_bind,
          den_idkron, hr, ← hs.1, ce_kronM p hk hB.node.rows]
      · exact gen
    | @symkron h same A B hA hB hsame eA eB eB' r c _ =>
      rw [depth] at h1
      rw [Calm] at h2
      obtain ⟨k, rfl⟩ : ∃ k, m = k + 1 := ⟨m - 1, by omega⟩
      have e1 : depth A ≤ k := by have := le_max_left (depth A) (depth B); omega
      have e2 : depth B ≤ k := by have := le_max_right (depth A) (depth B); omega
      dsimp only
      split
      · next hs =>
        obtain rfl := hsame hs.1
        have hr : (Op.symkron h same B B).rows = B.rows * B.rows := r
        have hden : den (.symkron h same B B) = kronM B.rows B.rows (den B) (den B) := by
          rw [den, ← eA]
          funext i j
          show (1 / 2 : ℝ) * (_ + _) = _
          ring
        have hneg' : p = .negTwo → detM B.rows (den B) ≠ 0 := fun e => by
          have := hneg e
          rw [hden, hr] at this
          exact (detM_kron_ne hB.node.rows hB.node.rows this).2
        rw [cond_eq n hB ⟨e2, h2.2⟩ eA hp hneg' (by omega), ok_bind, ok_bind, hden, hr,
          ce_kronM p hB.node.rows hB.node.rows]
      · exact gen
    | symmetrize _ _ _ => exact gen
    | scaled _ _ _ _ _ _ => exact gen
    | sum _ _ _ _ => exact gen
    | prod _ _ _ _ _ => exact gen
    | transposed _ _ _ _ => exact gen
    | inverse _ _ _ _ _ _ _ => exact gen
    | selection _ _ _ _ _ => exact gen
    | embedding _ _ _ _ _ => exact gen
    | block _ _ _ _ _ _ => exact gen

/-! ## Eigenvalues -/

/-- The eigenvalues of a matrix with their multiplicities. -/
noncomputable def eigM (n : ℕ) (M : Mat) : Multiset ℂ := ((toM n n M).map (fun x : ℝ => (x : ℂ))).charpoly.roots

theorem eigM_congr {n : ℕ} {M N : Mat} (h : Eqv n n M N) : eigM n M = eigM n N := by
  rw [eigM, h.toM, eigM]

theorem eigM_diag (n : ℕ) (f : ℕ → ℝ) :
    eigM n (fun i j => if i = j then f i else 0) = ((List.range n).map fun i => ((f i : ℝ) : ℂ) : List ℂ) := by
  have h : (Matrix.diagonal fun i : Fin n => f i).map (fun x : ℝ => (x : ℂ)) =
      Matrix.diagonal fun i : Fin n => ((f i : ℝ) : ℂ) := by
    rw [Matrix.diagonal_map Complex.ofReal_zero]
  have h' : ∏ i : Fin n, (Polynomial.X - Polynomial.C ((f i : ℝ) : ℂ)) =
      ((Finset.univ.val.map fun i : Fin n => ((f i : ℝ) : ℂ)).map fun a => Polynomial.X - Polynomial.C a).prod := by
    rw [Multiset.map_map]
    rfl
  rw [eigM, toM_diag, h, charpoly_diagonal, h', Polynomial.roots_multiset_prod_X_sub_C, Fin.univ_val_map]
  congr 1
  refine List.ext_getElem (by simp) fun i h1 h2 => ?_
  simp

theorem eigM_const (n : ℕ) (s : ℝ) :
    eigM n (fun i j => if i = j then s else 0) = (List.replicate n ((s : ℝ) : ℂ) : List ℂ) := by
  rw [eigM_diag n fun _ => s]
  congr 1
  refine List.ext_getElem (by simp) fun i h1 h2 => ?_
  simp

theorem eigM_denBlock {l : List Op} (hsq : ∀ a ∈ l, a.rows = a.cols) :
    eigM (l.map Op.rows).sum (denBlock l) = (l.map fun a => eigM a.rows (den a)).sum := by
  induction l with
  | nil =>
    rw [List.map_nil, List.map_nil, List.sum_nil, List.sum_nil, eigM, charpoly_isEmpty, Polynomial.roots_one]
    rfl
  | cons a l ih =>
    rw [List.map_cons, List.map_cons, List.sum_cons, List.sum_cons, ← ih fun b hb => hsq b (List.mem_cons_of_mem _ hb)]
    have h := toM_block a l (l.map Op.rows).sum (l.map Op.rows).sum
    rw [← hsq a (by simp)] at h
    have h1 : ((toM (a.rows + (l.map Op.rows).sum) (a.rows + (l.map Op.rows).sum) (denBlock (a :: l))).map
        (fun x : ℝ => (x : ℂ))).charpoly = (fromBlocks ((toM a.rows a.rows (den a)).map fun x : ℝ => (x : ℂ)) 0 0
          ((toM (l.map Op.rows).sum (l.map Op.rows).sum (denBlock l)).map fun x : ℝ => (x : ℂ))).charpoly := by
      rw [← charpoly_reindex finSumFinEquiv.symm, reindex_apply, Equiv.symm_symm, submatrix_map, h, fromBlocks_map]
      congr 2 <;> (ext i j; simp)
    rw [eigM, h1, charpoly_fromBlocks_zero₂₁, Polynomial.roots_mul]
    · rfl
    · exact mul_ne_zero (charpoly_monic _).ne_zero (charpoly_monic _).ne_zero

theorem sum_flatten : ∀ {l : List Op} {es : List (List ℂ)},
    List.Forall₂ (fun (a : Op) (e : List ℂ) => (e : Multiset ℂ) = eigM a.rows (den a)) l es →
    ((es.flatten : List ℂ) : Multiset ℂ) = (l.map fun a => eigM a.rows (den a)).sum
  | _, _, .nil => rfl
  | _, _, .cons h t => by
    rw [List.flatten_cons, ← Multiset.coe_add, h, sum_flatten t, List.map_cons, List.sum_cons]

theorem eigvals_eq : ∀ (n : ℕ) {m : ℕ} {op : Op}, Valid False op → Fine m op → op.rows = op.cols → 4 * m + 7 ≤ n →
    ∃ es, eigvals n op = .ok es ∧ (es : Multiset ℂ) = eigM op.rows (den op)
  | 0, _, _, _, _, _, h => by omega
  | n + 1, m, op, hV, hf, hsq, hn => by
    have gen : ∃ es, (do let D ← todense n op
                         Except.ok (npEigvals op.rows D) : Res (List ℂ)) = .ok es ∧
        (es : Multiset ℂ) = eigM op.rows (den op) := by
      refine ⟨_, generic_eq hV hf (by omega) (g := npEigvals op.rows) fun D h => ?_, Multiset.coe_toList _⟩
      rw [← hsq] at h
      rw [npEigvals, h.toM, npEigvals]
    rw [eigvals.eq_def]
    dsimp only
    rw [if_neg (not_not.2 hsq)]
    obtain ⟨h1, h2⟩ := hf
    cases hV with
    | matrix _ => exact gen
    | lam _ => exact gen
    | @identity h e nd =>
      refine ⟨_, rfl, ?_⟩
      rw [den]
      exact ((eigM_const _ 1).trans (by rw [Complex.ofReal_one]; rfl)).symm
    | @scaling h iso f e hi nd =>
      have hd : den (.scaling h iso f) = fun i j => if i = j then f i else 0 := by rw [den]
      have hr : (Op.scaling h iso f).rows = h.rows := rfl
      rw [hd, hr]
      dsimp only
      split
      · next hiso =>
        refine ⟨_, rfl, ?_⟩
        have : f = fun _ => f 0 := funext (hi hiso)
        rw [this]
        exact (eigM_const _ _).symm
      · exact ⟨_, rfl, (eigM_diag _ _).symm⟩
    | @zero h nd =>
      refine ⟨_, rfl, ?_⟩
      have : Eqv h.rows h.rows (den (.zero h)) fun i j => if i = j then 0 else 0 := fun i _ j _ => by
        rw [den]
        show (0 : ℝ) = if i = j then 0 else 0
        rw [ite_self]
      have hr : (Op.zero h).rows = h.rows := rfl
      rw [hr, eigM_congr this, eigM_const, Complex.ofReal_zero]
    | kron _ _ _ _ _ => exact gen
    | idkron _ _ _ _ => exact gen
    | symkron _ _ _ _ _ _ _ _ _ => exact gen
    | symmetrize _ _ _ => exact gen
    | scaled _ _ _ _ _ _ => exact gen
    | sum _ _ _ _ => exact gen
    | prod _ _ _ _ _ => exact gen
    | transposed _ _ _ _ => exact gen
    | inverse _ _ _ _ _ _ _ => exact gen
    | selection _ _ _ _ _ => exact gen
    | embedding _ _ _ _ _ => exact gen
    | @block h l hne hl _ r c _ =>
      rw [depth] at h1
      rw [Calm] at h2
      obtain ⟨k, rfl⟩ : ∃ k, m = k + 1 := ⟨m - 1, by omega⟩
      dsimp only
      split
      · next hs =>
        obtain ⟨es, e1, e2⟩ := mapM_ex (l := l) (f := eigvals n)
          (P := fun (a : Op) (e : List ℂ) => (e : Multiset ℂ) = eigM a.rows (den a)) fun a ha =>
            eigvals_eq n (hl a ha) (Fine.list h1 h2 a ha) (hs a ha) (by omega)
        refine ⟨_, by rw [e1, ok_bind], ?_⟩
        have hr : (Op.block h l).rows = (l.map Op.rows).sum := r
        have hden : den (.block h l) = denBlock l := by rw [den]
        rw [sum_flatten e2, hr, hden, eigM_denBlock hs]
      · exact gen

end Probnum.Linops.Cond
