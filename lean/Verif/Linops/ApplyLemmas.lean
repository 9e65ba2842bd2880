import Mathlib.Data.List.GetD
import Mathlib.LinearAlgebra.Matrix.Block
import Verif.Linops.Inverse

/-! # Helper lemmas on the matrix computations behind `matmul`, `todense`, `solve` -/

namespace Probnum.Linops

open Finset

/-- `y` is the stack of products of the matrix `M` (with `r` rows, `c` columns) and the stack `x`. -/
def IsProd {β : Type} (r c k : ℕ) (M : Mat) (x y : β → Mat) : Prop := ∀ b, Eqv r k (y b) (mmul c M (x b))

theorem isProd_kron {β : Type} {rA cA rB cB : ℕ} (k : ℕ) {A B : Mat} {x : β → Mat} {y z : β × ℕ → Mat}
    (hy : IsProd rB cB cA B (swap (unvec cB x)) y) (hz : IsProd rA cA rB A (swap y) z) :
    IsProd (rA * rB) (cA * cB) k (kronM rB cB A B) x (revec rB z) := by
  intro b i hi j hj
  have hr2 : 0 < rB := by
    rcases Nat.eq_zero_or_pos rB with h | h
    · rw [h, Nat.mul_zero] at hi; omega
    · exact h
  have h1 : i / rB < rA := Nat.div_lt_of_lt_mul (by rwa [Nat.mul_comm])
  have h2 : i % rB < rB := Nat.mod_lt _ hr2
  rw [kronM_apply]
  show z (b, j) (i / rB) (i % rB) = _
  rw [hz (b, j) _ h1 _ h2]
  simp only [mmul, swap, trn]
  refine Finset.sum_congr rfl fun a ha => ?_
  rw [hy (b, j) _ h2 _ (Finset.mem_range.1 ha)]
  simp only [mmul, swap, trn, unvec, Finset.mul_sum]
  exact Finset.sum_congr rfl fun t _ => by ring

theorem isProd_symmetrize {β : Type} {m : ℕ} (k : ℕ) (x : β → Mat) :
    IsProd (m * m) (m * m) k
      (fun i j => ((if i = j then (1 : ℝ) else 0) + (if i / m = j % m ∧ i % m = j / m then 1 else 0)) / 2) x
      (revec m fun p => (0.5 : ℝ) • (unvec m x p + swap (unvec m x) p)) := by
  intro b i hi j hj
  have hm : 0 < m := by
    rcases Nat.eq_zero_or_pos m with h | h
    · rw [h] at hi; simp at hi
    · exact h
  have h1 : i / m < m := Nat.div_lt_of_lt_mul hi
  have h2 : i % m < m := Nat.mod_lt _ hm
  have hlt : i % m * m + i / m < m * m := by
    have : i % m * m ≤ (m - 1) * m := Nat.mul_le_mul_right _ (by omega)
    have : (m - 1) * m + m = m * m := by
      rw [← Nat.succ_mul]; congr 1; omega
    omega
  simp only [mmul, revec, Pi.smul_apply, Pi.add_apply, smul_eq_mul, unvec, swap, trn]
  rw [Nat.div_add_mod' i m]
  have e : ∀ t ∈ range (m * m), ((if i = t then (1 : ℝ) else 0) + (if i / m = t % m ∧ i % m = t / m then 1 else 0)) / 2 *
      x b t j = (if i = t then x b t j / 2 else 0) + (if i % m * m + i / m = t then x b t j / 2 else 0) := by
    intro t _
    have : (i / m = t % m ∧ i % m = t / m) ↔ i % m * m + i / m = t := by
      constructor
      · rintro ⟨a, c⟩
        rw [a, c, Nat.div_add_mod' t m]
      · rintro rfl
        constructor
        · rw [Nat.mul_comm, Nat.mul_add_mod, Nat.mod_eq_of_lt h1]
        · rw [Nat.mul_comm, Nat.mul_add_div hm, Nat.div_eq_of_lt h1, Nat.add_zero]
    simp only [this]
    split <;> split <;> ring
  rw [Finset.sum_congr rfl e, Finset.sum_add_distrib, Finset.sum_ite_eq, Finset.sum_ite_eq,
    if_pos (Finset.mem_range.2 hi), if_pos (Finset.mem_range.2 hlt)]
  norm_num
  ring

/-- Sums computed by `reduce`. -/
theorem reduceAdd_meets {α : Type} [Add α] {R : α → Mat → Prop} (hR : ∀ a b M N, R a M → R b N → R (a + b) (M + N))
    {l : List Op} {ys : List α} (hne : l ≠ []) (h : List.Forall₂ (fun o y => R y (den o)) l ys) :
    Meets (reduceAdd ys) fun y => R y (denSum l) := by
  cases h with
  | nil => exact absurd rfl hne
  | @cons a y l ys ha h =>
    simp only [reduceAdd]
    have gen : ∀ {l : List Op} {ys : List α}, List.Forall₂ (fun o y => R y (den o)) l ys → ∀ y M, R y M →
        R (ys.foldl (· + ·) y) (M + denSum l) := by
      intro l ys h
      induction h with
      | nil => intro y M hy; simpa [denSum] using hy
      | @cons a' y' l ys ha' _ ih =>
        intro y M hy
        rw [List.foldl_cons, denSum, ← add_assoc]
        exact ih _ _ (hR _ _ _ _ hy ha')
    exact Meets.ok (gen h y _ ha)

/-- Number of rows a product applied to an array with `rx` rows has. -/
def headRows (rx : ℕ) : List Op → ℕ
  | [] => rx
  | a :: _ => a.rows

theorem prodApply_meets {β : Type} {f : Op → ℕ → (β → Mat) → Res (β → Mat)} {k rx : ℕ} {x : β → Mat} :
    ∀ {l : List Op}, (∀ a ∈ l, ∀ y, Meets (f a a.cols y) (IsProd a.rows a.cols k (den a) y)) → 
      (∀ a t, l = a :: t → chained (a :: t) ∧ lastCols a.cols t = rx) →
      Meets (prodApply f l rx x) fun p => p.1 = headRows rx l ∧ IsProd (headRows rx l) rx k (denProd l) x p.2
  | [], _, _ => Meets.ok ⟨rfl, fun b => by
      simp only [denProd, headRows]
      exact (eye_mmul _ _).symm⟩
  | a :: t, hf, hc => by
    obtain ⟨h1, h2⟩ := hc a t rfl
    simp only [prodApply]
    have hac : a.cols = headRows rx t := by
      cases t with
      | nil => exact h2
      | cons b t => exact h1.1
    refine Meets.bind (prodApply_meets (l := t) (fun b hb => hf b (List.mem_cons_of_mem _ hb)) ?_) fun p hp => ?_
    · rintro b t rfl
      exact ⟨h1.2, h2⟩
    · rw [hp.1, ← hac]
      refine Meets.bind (hf a (by simp) _) fun z hz => Meets.ok ⟨rfl, fun b => ?_⟩
      refine (hz b).trans ?_
      rw [denProd, mmul_assoc]
      refine mmul_congr (Eqv.refl _) ?_
      rw [hac]
      exact hp.2 b

theorem invM_mul (n : ℕ) (A B : Mat) : Eqv n n (invM n (mmul n A B)) (mmul n (invM n B) (invM n A)) := by
  rw [eqv_iff_toM, toM_invM, toM_mmul n n n, toM_mmul n n n, toM_invM, toM_invM, Matrix.mul_inv_rev]

theorem invM_eye (n : ℕ) : Eqv n n (invM n eye) eye := by
  rw [eqv_iff_toM, toM_invM, toM_eye, inv_one]

theorem prodSolve_meets {β : Type} {f : Op → ℕ → (β → Mat) → Res (β → Mat)} {k r : ℕ} :
    ∀ {l : List Op} {x : β → Mat}, (∀ a ∈ l, ∀ y, Meets (f a r y) (IsProd r r k (invM r (den a)) y)) → 
      (∀ a ∈ l, a.cols = r) → Meets (prodSolve f l r x) (IsProd r r k (invM r (denProd l)) x)
  | [], x, _, _ => Meets.ok fun b => by
      rw [denProd]
      exact ((mmul_congr (invM_eye r) (Eqv.refl _)).trans (eye_mmul _ _)).symm
  | a :: t, x, hf, hc => by
    simp only [prodSolve]
    refine Meets.bind (hf a (by simp) x) fun y hy => ?_
    rw [hc a (by simp)]
    refine (prodSolve_meets (l := t) (fun b hb => hf b (List.mem_cons_of_mem _ hb))
      fun b hb => hc b (List.mem_cons_of_mem _ hb)).mono fun z hz b => ?_
    refine (hz b).trans ?_
    rw [denProd, hc a (by simp)]
    refine Eqv.trans ?_ (mmul_congr (invM_mul r _ _) (Eqv.refl _)).symm
    rw [mmul_assoc]
    exact mmul_congr (Eqv.refl _) (hy b)

theorem reduceMatmul_meets {a : Op} {l : List Op} {ms : List Mat} (hc : chained (a :: l))
    (h : List.Forall₂ (fun (o : Op) m => Eqv o.rows o.cols m (den o)) (a :: l) ms) :
    Meets (reduceMatmul (((a :: l).map Op.cols).zip ms)) fun D => Eqv a.rows (lastCols a.cols l) D (denProd (a :: l)) := by
  cases h with
  | @cons _ m _ ms ha h =>
    simp only [List.map_cons, List.zip_cons_cons, reduceMatmul]
    have gen : ∀ {l : List Op} {ms : List Mat}, List.Forall₂ (fun (o : Op) m => Eqv o.rows o.cols m (den o)) l ms →
        ∀ (r c : ℕ) (M P : Mat), (∀ b t, l = b :: t → c = b.rows ∧ chained (b :: t)) → Eqv r c M P →
        Eqv r (lastCols c l) (((l.map Op.cols).zip ms).foldl (fun (p : ℕ × Mat) q => (q.1, mmul p.1 p.2 q.2)) (c, M)).2
          (mmul c P (denProd l)) := by
      intro l ms h
      induction h with
      | nil =>
        intro r c M P _ hM
        simp only [List.map_nil, List.zip_nil_left, List.foldl_nil, lastCols, denProd]
        exact hM.trans (mmul_eye _ _).symm
      | @cons b m' t ms hb _ ih =>
        intro r c M P hch hM
        obtain ⟨rfl, h2⟩ := hch b t rfl
        simp only [List.map_cons, List.zip_cons_cons, List.foldl_cons, lastCols, denProd]
        rw [← mmul_assoc]
        refine ih r b.cols _ _ ?_ (mmul_congr hM hb)
        rintro d u rfl
        exact h2
    refine Meets.ok ((gen h a.rows a.cols m (den a) ?_ ha).trans ?_)
    · rintro b t rfl
      exact hc
    · rw [denProd]
      exact Eqv.refl _

/-! ## Blocks -/

theorem denBlock_eq (l : List Op) : denBlock l = blockM (l.map fun a => (a.rows, a.cols, den a)) := by
  induction l with
  | nil => funext i j; simp [denBlock, blockM]
  | cons a l ih =>
    funext i j
    rw [denBlock, List.map_cons, blockM, ih]

theorem isProd_block {β : Type} {k : ℕ} (ρ γ : Op → ℕ) (μ : Op → Mat) {l : List Op} : ∀ {x : β → Mat} {ys : List (β → Mat)},
    List.Forall₂ (fun (p : Op × (β → Mat)) y => IsProd (ρ p.1) (γ p.1) k (μ p.1) p.2 y)
      (l.zip (splitRows (l.map γ) x)) ys →
    IsProd (l.map ρ).sum (l.map γ).sum k (blockM (l.map fun a => (ρ a, γ a, μ a))) x
      (concatRows ((l.map ρ).zip ys)) := by
  induction l with
  | nil => intro x ys _ b i hi; simp at hi
  | cons a l ih =>
    intro x ys h
    rw [List.map_cons, splitRows, List.zip_cons_cons] at h
    cases h with
    | @cons _ y _ ys hy h =>
      have := ih h
      intro b i hi j hj
      simp only [List.map_cons, List.sum_cons, List.zip_cons_cons, concatRows] at hi ⊢
      simp only [mmul]
      rw [Finset.sum_range_add]
      by_cases hia : i < ρ a
      · rw [if_pos hia, hy b i hia j hj, Finset.sum_eq_zero (s := range (l.map γ).sum), add_zero]
        · refine Finset.sum_congr rfl fun t ht => ?_
          rw [Finset.mem_range] at ht
          simp [blockM, hia, ht]
        · intro t _
          simp [blockM, hia]
      · rw [if_neg hia, this b (i - ρ a) (by omega) j hj, Finset.sum_eq_zero (s := range (γ a)), zero_add]
        · refine Finset.sum_congr rfl fun t _ => ?_
          simp [blockM, hia, Nat.add_comm]
        · intro t ht
          rw [Finset.mem_range] at ht
          simp [blockM, hia, ht]

theorem blockM_congr {l : List Op} {ms : List Mat}
    (h : List.Forall₂ (fun (o : Op) m => Eqv o.rows o.cols m (den o)) l ms) :
    Eqv (l.map Op.rows).sum (l.map Op.cols).sum (blockM (List.zipWith (fun (a : Op) m => (a.rows, a.cols, m)) l ms))
      (denBlock l) := by
  induction h with
  | nil => intro i hi; simp at hi
  | @cons a m l ms ha _ ih =>
    intro i hi j hj
    simp only [List.map_cons, List.sum_cons] at hi hj
    rw [List.zipWith_cons_cons, denBlock, blockM]
    dsimp only
    by_cases h1 : i < a.rows <;> by_cases h2 : j < a.cols <;> simp only [h1, h2, if_true, if_false]
    · exact ha i h1 j h2
    · exact ih (i - a.rows) (by omega) (j - a.cols) (by omega)

/-! ## Selections and embeddings -/

theorem isProd_selection {β : Type} {r c k : ℕ} {idx : List ℕ} (hl : idx.length = r) (hc : ∀ i ∈ idx, i < c)
    (x : β → Mat) : IsProd r c k (fun i j => if idx.getD i 0 = j then 1 else 0) x fun b i j => x b (idx.getD i 0) j := by
  intro b i hi j hj
  have hlt : idx.getD i 0 < c := by
    rw [List.getD_eq_getElem _ _ (by omega)]
    exact hc _ (List.getElem_mem _)
  simp only [mmul, ite_mul, one_mul, zero_mul]
  rw [Finset.sum_ite_eq, if_pos (Finset.mem_range.2 hlt)]

theorem lastPos_of_nodup {put : List ℕ} (h : put.Nodup) (i : ℕ) :
    (lastPos put i = none ∧ ∀ p < put.length, put.getD p 0 ≠ i) ∨
      ∃ p < put.length, lastPos put i = some p ∧ put.getD p 0 = i ∧ ∀ q < put.length, put.getD q 0 = i → q = p := by
  by_cases hex : ∃ p < put.length, put.getD p 0 = i
  · right
    obtain ⟨p, hp, hpi⟩ := hex
    have huniq : ∀ q < put.length, put.getD q 0 = i → q = p := by
      intro q hq hqi
      rw [← hpi, List.getD_eq_getElem _ _ hq, List.getD_eq_getElem _ _ hp] at hqi
      exact (List.Nodup.getElem_inj_iff h).1 hqi
    refine ⟨p, hp, ?_, hpi, huniq⟩
    rw [lastPos]
    cases hl : (((List.range put.length).filter fun p => put.getD p 0 = i).getLast?) with
    | none =>
      rw [List.getLast?_eq_none_iff] at hl
      have : p ∈ (List.range put.length).filter fun p => put.getD p 0 = i := by
        simp [hp] at hpi ⊢; exact hpi
      rw [hl] at this
      simp at this
    | some q =>
      have := List.mem_of_getLast? hl
      rw [List.mem_filter, List.mem_range] at this
      rw [huniq q this.1 (by simpa using this.2)]
  · left
    push Not at hex
    refine ⟨?_, hex⟩
    rw [lastPos, List.getLast?_eq_none_iff, List.filter_eq_nil_iff]
    intro p hp
    rw [List.mem_range] at hp
    simpa using hex p hp

theorem embedding_meets {β : Type} {r c k : ℕ} {put : List ℕ} (hl : put.length = c) (hr : ∀ i ∈ put, i < r)
    (hnd : put.Nodup) (x : β → Mat) :
    Meets (embeddingMatmul (List.range c) put 0 r c x)
      (IsProd r c k (fun i j => ∑ p ∈ range put.length, if put.getD p 0 = i ∧ (List.range c).getD p 0 = j then 1 else 0) x) := by
  rw [embeddingMatmul, if_neg (by simp), if_neg (by push Not; exact hr), if_neg (by simp [hl])]
  refine Meets.ok fun b i hi j hj => ?_
  simp only [mmul]
  have e : ∀ t ∈ range c, (∑ p ∈ range put.length, if put.getD p 0 = i ∧ (List.range c).getD p 0 = t then (1 : ℝ) else 0) *
      x b t j = if put.getD t 0 = i then x b t j else 0 := by
    intro t ht
    rw [Finset.sum_eq_single t]
    · rw [Finset.mem_range] at ht
      rw [List.getD_eq_getElem (List.range c) 0 (by simpa using ht)]
      simp
    · intro p hp hpt
      rw [Finset.mem_range, hl] at hp
      rw [List.getD_eq_getElem (List.range c) 0 (by simpa using hp)]
      simp [hpt]
    · intro h
      rw [hl] at h
      exact absurd ht h
  rw [Finset.sum_congr rfl e]
  rcases lastPos_of_nodup hnd i with ⟨h1, h2⟩ | ⟨p, hp, h1, h2, h3⟩
  · rw [h1]
    refine (Finset.sum_eq_zero fun t ht => ?_).symm
    rw [Finset.mem_range, ← hl] at ht
    rw [if_neg (h2 t ht)]
  · simp only [h1]
    rw [Finset.sum_eq_single p]
    · rw [if_pos h2]
      simp only [List.length_range, hl, if_true]
      rw [List.getD_eq_getElem (List.range c) 0 (by simpa [← hl] using hp)]
      simp
    · intro q hq hqp
      rw [Finset.mem_range, ← hl] at hq
      rw [if_neg fun h => hqp (h3 q hq h)]
    · intro h
      rw [Finset.mem_range, ← hl] at h
      exact absurd hp h

/-! ## Dense solves -/

theorem luSolve_meets {β : Type} {n k : ℕ} {D M : Mat} (h : Eqv n n D M) (hd : detM n M ≠ 0) (B : β → Mat) :
    Meets (luSolve n D B) (IsProd n n k (invM n M) B) := by
  rw [luSolve, if_neg (by rwa [detM_congr h])]
  refine Meets.ok fun b => ?_
  rw [invM_congr h]
  exact Eqv.refl _

/-- Outcome of a Cholesky factorisation of the matrix `M`: an upper factor, LinAlgError or RecursionError. -/
def CholOk (n : ℕ) (M : Mat) (r : Res Mat) : Prop :=
  match r with
  | .ok U => (IsSym n n M ∧ detM n M ≠ 0) ∧ Eqv n n (mmul n (trn (triangle false U)) (triangle false U)) M
  | .error e => e = .linAlgError ∨ e = .recursionError

theorem cholSolve_meets {β : Type} {n k : ℕ} {M : Mat} {r : Res Mat} {B : β → Mat} {lu : Res (β → Mat)}
    (hr : CholOk n M r) (hd : detM n M ≠ 0) {N : Mat} (hN : IsSym n n M → Eqv n n N (invM n M))
    (hlu : Meets lu (IsProd n n k N B)) :
    Meets (match r with
      | .ok U => luSolve n (mmul n (trn (triangle false U)) (triangle false U)) B
      | .error .linAlgError => lu
      | .error e => .error e) (IsProd n n k N B) := by
  match r, hr with
  | .ok U, hr =>
    refine (luSolve_meets (k := k) hr.2 hd B).mono fun y hy b => (hy b).trans ?_
    exact mmul_congr (hN hr.1.1).symm (Eqv.refl _)
  | .error .linAlgError, _ => exact hlu
  | .error .recursionError, _ => exact Meets.fuel
  | .error .valueError, h => exact absurd h (by simp [CholOk])
  | .error .typeError, h => exact absurd h (by simp [CholOk])
  | .error .keyError, h => exact absurd h (by simp [CholOk])
  | .error .attributeError, h => exact absurd h (by simp [CholOk])
  | .error .indexError, h => exact absurd h (by simp [CholOk])
  | .error .runtimeError, h => exact absurd h (by simp [CholOk])
  | .error .notImplementedError, h => exact absurd h (by simp [CholOk])
  | .error .zeroDivisionError, h => exact absurd h (by simp [CholOk])
  | .error .stopIteration, h => exact absurd h (by simp [CholOk])
  | .error .assertionError, h => exact absurd h (by simp [CholOk])

/-- A Cholesky factor of a dense copy of a symmetric matrix. -/
theorem chol_ok {n : ℕ} {D M U : Mat} (hD : Eqv n n D M) (hsym : IsSym n n M) (h : IsChol n false D U) :
    detM n M ≠ 0 ∧ Eqv n n (mmul n (trn (triangle false U)) (triangle false U)) M := by
  obtain ⟨h1, h2, h3⟩ := h
  simp only [Bool.false_eq_true, if_false] at h1 h3
  have hU : Eqv n n (triangle false U) U := by
    intro i hi j hj
    simp only [triangle, Bool.false_eq_true, if_false]
    split
    · rfl
    · exact (h1 i hi j hj (by omega)).symm
  suffices hM : Eqv n n (mmul n (trn U) U) M by
    refine ⟨?_, (mmul_congr (trn_congr hU) hU).trans hM⟩
    rw [← detM_congr hM, detM_mmul, detM_trn]
    have : detM n U ≠ 0 := by
      rw [detM, Matrix.det_of_upperTriangular]
      · exact Finset.prod_ne_zero_iff.2 fun i _ => (h2 i i.2).ne'
      · intro i j hij
        exact h1 i i.2 j j.2 hij
    exact mul_ne_zero this this
  have hs : Eqv n n (trn (mmul n (trn U) U)) (mmul n (trn U) U) := by
    rw [trn_mmul, trn_trn]
    exact Eqv.refl _
  intro i hi j hj
  rcases Nat.le_total i j with hij | hij
  · rw [h3 i hi j hj hij, hD i hi j hj]
  · rw [← hs i hi j hj]
    show mmul n (trn U) U j i = _
    rw [h3 j hj i hi hij, hD j hj i hi]
    exact hsym.2 i hi j hj

end Probnum.Linops
