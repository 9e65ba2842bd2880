import Verif.Linops.DerivedLemmas

/-! # Diagonals and traces are those of the denoted matrix -/

namespace Probnum.Linops

open Finset

/-- `d` lists the diagonal of `op`. -/
def IsDiag (op : Op) (d : ℕ → ℝ) : Prop := ∀ i < diagLen op, d i = den op i i

theorem generic_diag {op : Op} {n m : ℕ} (hV : Valid False op) (hf : Fine m op) (hn : 4 * m + 5 ≤ n) :
    ∃ d, (do let ds ← (List.range (diagLen op)).mapM fun i => do
               let y ← matVec n op op.cols fun j => if j = i then 1 else 0
               .ok (y i)
             Except.ok fun i => ds.getD i 0 : Res (ℕ → ℝ)) = .ok d ∧ IsDiag op d := by
  have key : ∀ i < diagLen op, (do let y ← matVec n op op.cols fun j => if j = i then 1 else 0
                                   Except.ok (y i) : Res ℝ) = .ok (den op i i) := fun i hi => by
    have h1 : i < op.rows := lt_of_lt_of_le hi (min_le_left _ _)
    have h2 : i < op.cols := lt_of_lt_of_le hi (min_le_right _ _)
    obtain ⟨Y, e1, e2, -⟩ := ((level False n).mat hV (β := Unit) 1 fun _ j _ => if j = i then 1 else 0).returns
      ((swift False n).mat hV hf hn _ _ _)
    rw [matVec, e1]
    refine congrArg Except.ok ?_
    show Y () i 0 = _
    rw [e2 () i h1 0 (by omega), mmul]
    rw [sum_eq_single i]
    · show den op i i * (if i = i then 1 else 0) = _
      rw [if_pos rfl, mul_one]
    · intro j _ hj
      show den op i j * (if j = i then 1 else 0) = _
      rw [if_neg hj, mul_zero]
    · intro h
      exact absurd (mem_range.2 h2) h
  refine ⟨_, by rw [mapM_eq (g := fun i => den op i i) fun i hi => key i (List.mem_range.1 hi)]; rfl, fun i hi => ?_⟩
  rw [List.getD_eq_getElem _ _ (by simpa using hi)]
  simp

theorem diag_sum {i : ℕ} : ∀ {l : List Op} {ds : List (ℕ → ℝ)},
    List.Forall₂ (fun a d => d i = den a i i) l ds → ds.sum i = denSum l i i
  | _, _, .nil => by rw [denSum]; rfl
  | _, _, .cons h t => by
    rw [denSum, List.sum_cons, Pi.add_apply, h, diag_sum t]
    rfl

theorem diag_block : ∀ {l : List Op} {ds : List (ℕ → ℝ)}, (∀ a ∈ l, a.rows = a.cols) → List.Forall₂ IsDiag l ds →
    ∀ i < (l.map Op.rows).sum, concatV (List.zipWith (fun (a : Op) d => (diagLen a, d)) l ds) i = denBlock l i i
  | [], _, _, _ => fun i hi => absurd hi (by simp)
  | a :: l, _, hsq, .cons (l₂ := ds) (b := d) h t => fun i hi => by
    have e := hsq a (by simp)
    have hd : diagLen a = a.rows := by rw [diagLen, ← e, min_self]
    rw [List.zipWith_cons_cons, concatV, hd, denBlock_cons, ← e]
    split
    · next h1 => exact h i (by rw [hd]; exact h1)
    · next h1 =>
      refine diag_block (fun b hb => hsq b (List.mem_cons_of_mem _ hb)) t _ ?_
      rw [List.map_cons, List.sum_cons] at hi
      omega

theorem diag_kron {B : Op} {a b : ℕ → ℝ} (hsq : B.rows = B.cols) {M : Mat} {r : ℕ} (ha : ∀ i < r, a i = M i i)
    (hb : IsDiag B b) (hB : 0 < B.rows) {i : ℕ} (hi : i < r * B.rows) :
    a (i / diagLen B) * b (i % diagLen B) = kronM B.rows B.cols M (den B) i i := by
  have hd : diagLen B = B.rows := by rw [diagLen, ← hsq, min_self]
  rw [hd, ha _ (Nat.div_lt_of_lt_mul (by rwa [mul_comm])), hb _ (by rw [hd]; exact Nat.mod_lt _ hB), kronM, ← hsq]

theorem diagonal_eq : ∀ (n : ℕ) {m : ℕ} {op : Op}, Valid False op → Fine m op → 4 * m + 6 ≤ n →
    ∃ d, diagonal n op = .ok d ∧ IsDiag op d
  | 0, _, _, _, _, h => by omega
  | n + 1, m, op, hV, hf, hn => by
    have gen := generic_diag hV hf (n := n) (by omega)
    rw [diagonal.eq_def]
    dsimp only
    obtain ⟨h1, h2⟩ := hf
    cases hV with
    | matrix _ => exact ⟨_, rfl, fun i _ => by rw [den]⟩
    | lam _ => exact gen
    | @identity h _ _ => exact ⟨_, rfl, fun i _ => by rw [den, eye, if_pos rfl]⟩
    | @scaling h iso f e hi _ => exact ⟨_, rfl, fun i _ => by rw [den]; exact (if_pos rfl).symm⟩
    | @zero h _ => exact ⟨_, rfl, fun i _ => by rw [den]; rfl⟩
    | @kron h A B hA hB r c _ =>
      rw [depth] at h1
      rw [Calm] at h2
      obtain ⟨k, rfl⟩ : ∃ k, m = k + 1 := ⟨m - 1, by omega⟩
      have e1 : depth A ≤ k := by have := le_max_left (depth A) (depth B); omega
      have e2 : depth B ≤ k := by have := le_max_right (depth A) (depth B); omega
      dsimp only
      split
      · next hs =>
        obtain ⟨a, a1, a2⟩ := diagonal_eq n hA ⟨e1, h2.1⟩ (by omega)
        obtain ⟨b, b1, b2⟩ := diagonal_eq n hB ⟨e2, h2.2⟩ (by omega)
        refine ⟨_, by rw [a1, b1, ok_bind, ok_bind], fun i hi => ?_⟩
        rw [den_kron]
        refine diag_kron hs a2 b2 hB.node.rows ?_
        have hr : (Op.kron h A B).rows = A.rows * B.rows := r
        have hc : (Op.kron h A B).cols = A.cols * B.cols := c
        rwa [diagLen, hr, hc, ← hs, Nat.mul_min_mul_right] at hi
      · exact gen
    | @idkron h k B hB r c _ =>
      rw [depth] at h1
      rw [Calm] at h2
      obtain ⟨m, rfl⟩ : ∃ m', m = m' + 1 := ⟨m - 1, by omega⟩
      dsimp only
      split
      · next hs =>
        have hI : diagonal n (mkIdentity k) = .ok fun _ => 1 := by
          obtain ⟨n, rfl⟩ : ∃ n', n = n' + 1 := ⟨n - 1, by omega⟩
          rfl
        obtain ⟨b, b1, b2⟩ := diagonal_eq n hB (m := m) ⟨by omega, h2⟩ (by omega)
        refine ⟨_, by rw [hI, b1, ok_bind, ok_bind], fun i hi => ?_⟩
        rw [den_idkron]
        refine diag_kron (a := fun _ => 1) (M := eye) (r := k) hs (fun i _ => by rw [eye, if_pos rfl]) b2 hB.node.rows ?_
        have hr : (Op.idkron h k B).rows = k * B.rows := r
        have hc : (Op.idkron h k B).cols = k * B.cols := c
        rwa [diagLen, hr, hc, ← hs, min_self] at hi
      · exact gen
    | symkron _ _ _ _ _ _ _ _ _ => exact gen
    | symmetrize _ _ _ => exact gen
    | @scaled h neg s A hA r c _ _ _ =>
      rw [depth] at h1
      rw [Calm] at h2
      obtain ⟨k, rfl⟩ : ∃ k, m = k + 1 := ⟨m - 1, by omega⟩
      dsimp only
      obtain ⟨a, a1, a2⟩ := diagonal_eq n hA (m := k) ⟨by omega, h2⟩ (by omega)
      refine ⟨_, by rw [a1, ok_bind], fun i hi => ?_⟩
      have hr : (Op.scaled h neg s A).rows = A.rows := r
      have hc : (Op.scaled h neg s A).cols = A.cols := c
      rw [diagLen, hr, hc] at hi
      have hden : den (.scaled h neg s A) = s • den A := by rw [den]
      rw [hden, a2 i hi]
      rfl
    | @sum h l hne hl hd _ =>
      rw [depth] at h1
      rw [Calm] at h2
      obtain ⟨k, rfl⟩ : ∃ k, m = k + 1 := ⟨m - 1, by omega⟩
      dsimp only
      obtain ⟨ds, e1, e2⟩ := mapM_ex (l := l) (f := diagonal n) (P := fun a d => IsDiag a d ∧ diagLen a = min h.rows h.cols)
        fun a ha => by
          obtain ⟨d, a1, a2⟩ := diagonal_eq n (hl a ha) (Fine.list h1 h2 a ha) (by omega)
          exact ⟨d, a1, a2, by rw [diagLen, (hd a ha).1, (hd a ha).2]⟩
      have hne' : ds ≠ [] := by
        rintro rfl
        cases e2
        exact hne rfl
      refine ⟨_, by rw [e1, ok_bind, reduceAdd_sum hne'], fun i hi => ?_⟩
      have hden : den (.sum h l) = denSum l := by rw [den]
      rw [hden]
      exact diag_sum (e2.imp fun a d h => h.1 i (by rw [h.2]; exact hi))
    | prod _ _ _ _ _ => exact gen
    | @transposed h A hA r c _ =>
      rw [depth] at h1
      rw [Calm] at h2
      obtain ⟨k, rfl⟩ : ∃ k, m = k + 1 := ⟨m - 1, by omega⟩
      dsimp only
      obtain ⟨a, a1, a2⟩ := diagonal_eq n hA (m := k) ⟨by omega, h2⟩ (by omega)
      refine ⟨a, a1, fun i hi => ?_⟩
      have hr : (Op.transposed h A).rows = A.cols := r
      have hc : (Op.transposed h A).cols = A.rows := c
      have hden : den (.transposed h A) = trn (den A) := by rw [den]
      rw [diagLen, hr, hc, min_comm] at hi
      rw [a2 i hi, hden]
      rfl
    | inverse _ _ _ _ _ _ _ => exact gen
    | selection _ _ _ _ _ => exact gen
    | embedding _ _ _ _ _ => exact gen
    | @block h l hne hl _ r c _ =>
      rw [depth] at h1
      rw [Calm] at h2
      obtain ⟨k, rfl⟩ : ∃ k, m = k + 1 := ⟨m - 1, by omega⟩
      dsimp only
      split
      · next hs =>
        obtain ⟨ds, e1, e2⟩ := mapM_ex (l := l) (f := diagonal n) (P := IsDiag) fun a ha =>
          diagonal_eq n (hl a ha) (Fine.list h1 h2 a ha) (by omega)
        refine ⟨_, by rw [e1, ok_bind], fun i hi => ?_⟩
        have hden : den (.block h l) = denBlock l := by rw [den]
        rw [hden]
        refine diag_block hs e2 i (lt_of_lt_of_le hi ?_)
        have hr : (Op.block h l).rows = (l.map Op.rows).sum := r
        rw [diagLen, hr]
        exact min_le_left _ _
      · exact gen

theorem generic_trace {op : Op} {n m : ℕ} (hV : Valid False op) (hf : Fine m op) (hn : 4 * m + 6 ≤ n)
    (hsq : op.rows = op.cols) : (do let d ← diagonal n op
                                    Except.ok (∑ i ∈ range (diagLen op), d i) : Res ℝ) =
      .ok (traceM op.rows (den op)) := by
  obtain ⟨d, e1, e2⟩ := diagonal_eq n hV hf hn
  rw [e1, ok_bind, sum_congr rfl fun i hi => e2 i (mem_range.1 hi), diagLen, ← hsq, min_self, traceM]

theorem traceM_denSum (n : ℕ) (l : List Op) : traceM n (denSum l) = (l.map fun a => traceM n (den a)).sum := by
  induction l with
  | nil => rw [denSum, List.map_nil, List.sum_nil]; exact sum_const_zero
  | cons a l ih =>
    rw [denSum, List.map_cons, List.sum_cons, ← ih, traceM, traceM, traceM, ← sum_add_distrib]
    rfl

theorem traceM_eye (n : ℕ) : traceM n eye = n := by
  simp [traceM, eye]

theorem trace_eq : ∀ (n : ℕ) {m : ℕ} {op : Op}, Valid False op → Fine m op → op.rows = op.cols →
    4 * m + 7 ≤ n → trace n op = .ok (traceM op.rows (den op))
  | 0, _, _, _, _, _, h => by omega
  | n + 1, m, op, hV, hf, hsq, hn => by
    have gen := generic_trace hV hf (n := n) (by omega) hsq
    rw [trace.eq_def]
    dsimp only
    rw [if_neg (not_not.2 hsq)]
    obtain ⟨h1, h2⟩ := hf
    cases hV with
    | matrix _ => rw [den]; rfl
    | lam _ => exact gen
    | @identity h _ _ =>
      rw [den]
      refine congrArg Except.ok ?_
      exact (traceM_eye _).symm
    | @scaling h iso f e hi _ =>
      have hd : den (.scaling h iso f) = fun i j => if i = j then f i else 0 := by rw [den]
      have hr : (Op.scaling h iso f).rows = h.rows := rfl
      rw [hd, hr, traceM, sum_congr rfl fun i _ => if_pos rfl]
      dsimp only
      split
      · next hiso => rw [sum_congr rfl fun i _ => hi hiso i, sum_const, card_range, nsmul_eq_mul]
      · rfl
    | @zero h _ => rw [den]; exact congrArg Except.ok sum_const_zero.symm
    | @kron h A B hA hB r c _ =>
      rw [depth] at h1
      rw [Calm] at h2
      obtain ⟨k, rfl⟩ : ∃ k, m = k + 1 := ⟨m - 1, by omega⟩
      have e1 : depth A ≤ k := by have := le_max_left (depth A) (depth B); omega
      have e2 : depth B ≤ k := by have := le_max_right (depth A) (depth B); omega
      dsimp only
      split
      · next hs =>
        rw [trace_eq n hA ⟨e1, h2.1⟩ hs.1 (by omega), trace_eq n hB ⟨e2, h2.2⟩ hs.2 (by omega), ok_bind, ok_bind,
          den_kron]
        have : (Op.kron h A B).rows = A.rows * B.rows := r
        rw [this, ← hs.2, traceM_kronM]
      · exact gen
    | @idkron h k B hB r c _ =>
      rw [depth] at h1
      rw [Calm] at h2
      obtain ⟨m, rfl⟩ : ∃ m', m = m' + 1 := ⟨m - 1, by omega⟩
      dsimp only
      split
      · next hs =>
        have hI : trace n (mkIdentity k) = .ok (k : ℝ) := by
          obtain ⟨n, rfl⟩ : ∃ n', n = n' + 1 := ⟨n - 1, by omega⟩
          rw [trace.eq_def]
          exact if_neg (not_not.2 rfl)
        rw [trace_eq n hB (m := m) ⟨by omega, h2⟩ hs (by omega), hI, ok_bind, ok_bind, den_idkron]
        have : (Op.idkron h k B).rows = k * B.rows := r
        rw [this, ← hs, traceM_kronM, traceM_eye]
      · exact gen
    | @symkron h same A B hA hB hsame eA eB eB' r c _ =>
      rw [depth] at h1
      rw [Calm] at h2
      obtain ⟨k, rfl⟩ : ∃ k, m = k + 1 := ⟨m - 1, by omega⟩
      have e1 : depth A ≤ k := by have := le_max_left (depth A) (depth B); omega
      have e2 : depth B ≤ k := by have := le_max_right (depth A) (depth B); omega
      dsimp only
      rw [trace_eq n hA ⟨e1, h2.1⟩ eA (by omega), trace_eq n hB ⟨e2, h2.2⟩ (by omega) (by omega), ok_bind, ok_bind]
      have hr : (Op.symkron h same A B).rows = A.rows * A.rows := r
      have hden : den (.symkron h same A B) =
        (1 / 2 : ℝ) • (kronM B.rows B.cols (den A) (den B) + kronM A.rows A.cols (den B) (den A)) := by rw [den]
      have t1 := traceM_kronM A.rows A.rows (den A) (den B)
      have t2 := traceM_kronM A.rows A.rows (den B) (den A)
      have : traceM (A.rows * A.rows) ((1 / 2 : ℝ) • (kronM A.rows A.rows (den A) (den B) +
          kronM A.rows A.rows (den B) (den A))) = (1 / 2 : ℝ) * (traceM (A.rows * A.rows) (kronM A.rows A.rows (den A) (den B)) +
            traceM (A.rows * A.rows) (kronM A.rows A.rows (den B) (den A))) := by
        rw [traceM, traceM, traceM, ← sum_add_distrib, mul_sum]
        rfl
      rw [hr, hden, eB, eB', ← eA, this, t1, t2]
      refine congrArg Except.ok ?_
      ring
    | symmetrize _ _ _ => exact gen
    | @scaled h neg s A hA r c _ _ _ =>
      rw [depth] at h1
      rw [Calm] at h2
      obtain ⟨k, rfl⟩ : ∃ k, m = k + 1 := ⟨m - 1, by omega⟩
      dsimp only
      have hs : h.rows = h.cols := hsq
      have hr : (Op.scaled h neg s A).rows = A.rows := r
      have hden : den (.scaled h neg s A) = s • den A := by rw [den]
      rw [trace_eq n hA (m := k) ⟨by omega, h2⟩ (by omega) (by omega), ok_bind, hr, hden, traceM, traceM, mul_sum]
      rfl
    | @sum h l hne hl hd _ =>
      rw [depth] at h1
      rw [Calm] at h2
      obtain ⟨k, rfl⟩ : ∃ k, m = k + 1 := ⟨m - 1, by omega⟩
      dsimp only
      have hs : h.rows = h.cols := hsq
      have hm : l.mapM (trace n) = .ok (l.map fun b => traceM h.rows (den b)) := mapM_eq fun b hb => by
        have := hd b hb
        rw [trace_eq n (hl b hb) (Fine.list h1 h2 b hb) (by omega) (by omega), this.1]
      have hr : (Op.sum h l).rows = h.rows := rfl
      have hden : den (.sum h l) = denSum l := by rw [den]
      rw [hm, ok_bind, reduceAdd_sum (by simpa using hne), hr, hden, traceM_denSum]
    | prod _ _ _ _ _ => exact gen
    | @transposed h A hA r c _ =>
      rw [depth] at h1
      rw [Calm] at h2
      obtain ⟨k, rfl⟩ : ∃ k, m = k + 1 := ⟨m - 1, by omega⟩
      have hsA : A.rows = A.cols := by
        have : h.rows = h.cols := hsq
        omega
      dsimp only
      have : (Op.transposed h A).rows = A.rows := r.trans hsA.symm
      have hden : den (.transposed h A) = trn (den A) := by rw [den]
      rw [trace_eq n hA (m := k) ⟨by omega, h2⟩ hsA (by omega), this, hden]
      rfl
    | inverse _ _ _ _ _ _ _ => exact gen
    | selection _ _ _ _ _ => exact gen
    | embedding _ _ _ _ _ => exact gen
    | @block h l hne hl _ r c _ =>
      rw [depth] at h1
      rw [Calm] at h2
      obtain ⟨k, rfl⟩ : ∃ k, m = k + 1 := ⟨m - 1, by omega⟩
      dsimp only
      split
      · next hs =>
        have hm : l.mapM (trace n) = .ok (l.map fun b => traceM b.rows (den b)) := mapM_eq fun b hb =>
          trace_eq n (hl b hb) (Fine.list h1 h2 b hb) (hs b hb) (by omega)
        have : (Op.block h l).rows = (l.map Op.rows).sum := r
        have hden : den (.block h l) = denBlock l := by rw [den]
        rw [hm, ok_bind, this, hden, traceM_denBlock hs]
      · exact gen

end Probnum.Linops
