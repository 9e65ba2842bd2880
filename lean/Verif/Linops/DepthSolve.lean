import Verif.Linops.DepthApply
import Verif.Linops.Singular

/-! # `inv` and `solve` do not exceed a sufficiently large recursion limit -/

namespace Probnum.Linops

theorem mkInverse_quick {m : ℕ} {A : Op} (hA : Fine m A) : Quick (mkInverse A) (Fine (m + 1)) := by
  unfold mkInverse
  split
  · simp [Quick]
  · refine Quick.bind (setSym_quick _ _) fun _ _ => Quick.bind (setPd_quick _ _) fun _ _ => Quick.ok ⟨?_, ?_⟩
    · rw [depth]; exact Nat.succ_le_succ hA.depth
    · rw [Calm]; exact hA.calm

theorem inv_quick : ∀ (n : ℕ) {m : ℕ} {op : Op}, Fine m op → m + 2 < n → Quick (inv n op) (Fine (m + 1))
  | 0, _, _, _, h => absurd h (Nat.not_lt_zero _)
  | n + 1, m, op, hf, h => by
    have fb := mkInverse_quick hf
    have hs : Fine (m + 1) op := hf.mono (Nat.le_succ _)
    simp only [inv]
    split
    · simp [Quick]
    obtain ⟨h1, h2⟩ := hf
    cases op with
    | matrix g A => exact fb
    | lam g A => exact fb
    | zero g => exact fb
    | symmetrize g m => exact fb
    | selection g idx => exact fb
    | embedding g tk put fill => exact fb
    | sum g l => exact fb
    | identity g => exact Quick.ok hs
    | scaling g i f =>
      have fine : ∀ {t : Op}, (∃ h i f, t = .scaling h i f) → Fine (m + 1) t := by
        rintro _ ⟨h, i, f, rfl⟩
        exact ⟨by simp [depth], by simp [Calm]⟩
      dsimp only
      split
      · split
        · exact Quick.ok hs
        · split
          · simp [Quick]
          · exact Quick.ok (fine ⟨_, _, _, rfl⟩)
      · split
        · simp [Quick]
        · exact Quick.ok (fine ⟨_, _, _, rfl⟩)
    | transposed g A =>
      rw [depth] at h1
      rw [Calm] at h2
      obtain ⟨k, rfl⟩ : ∃ k, m = k + 1 := ⟨m - 1, by omega⟩
      exact Quick.bind (inv_quick n (m := k) ⟨by omega, h2⟩ (by omega)) fun A' hA => T_quick n hA (by omega)
    | inverse g A =>
      rw [depth] at h1
      rw [Calm] at h2
      exact Quick.ok ⟨by omega, h2⟩
    | kron g A B =>
      dsimp only
      split
      · rw [depth] at h1
        rw [Calm] at h2
        obtain ⟨k, rfl⟩ : ∃ k, m = k + 1 := ⟨m - 1, by omega⟩
        exact Quick.bind (inv_quick n (m := k) ⟨by omega, h2.1⟩ (by omega)) fun A' hA =>
          Quick.bind (inv_quick n (m := k) ⟨by omega, h2.2⟩ (by omega)) fun B' hB => mkKron_quick hA hB
      · exact fb
    | idkron g _ B =>
      rw [depth] at h1
      rw [Calm] at h2
      obtain ⟨k, rfl⟩ : ∃ k, m = k + 1 := ⟨m - 1, by omega⟩
      exact Quick.bind (inv_quick n (m := k) ⟨by omega, h2⟩ (by omega)) fun B' hB => mkIdkron_quick _ hB
    | symkron g same A B =>
      dsimp only
      split
      · rw [depth] at h1
        rw [Calm] at h2
        obtain ⟨k, rfl⟩ : ∃ k, m = k + 1 := ⟨m - 1, by omega⟩
        exact Quick.bind (inv_quick n (m := k) ⟨by omega, h2.1⟩ (by omega)) fun A' hA => mkSymkron_quick _ hA hA
      · exact fb
    | scaled g neg s A =>
      dsimp only
      split
      · simp [Quick]
      · rw [depth] at h1
        rw [Calm] at h2
        obtain ⟨k, rfl⟩ : ∃ k, m = k + 1 := ⟨m - 1, by omega⟩
        exact Quick.bind (inv_quick n (m := k) ⟨by omega, h2⟩ (by omega)) fun A' hA => mkScaled_quick _ _ hA
    | prod g l =>
      rw [depth] at h1
      rw [Calm] at h2
      obtain ⟨k, rfl⟩ : ∃ k, m = k + 1 := ⟨m - 1, by omega⟩
      exact Quick.bind (mapM_fine (fun a ha => Fine.list h1 h2 a (List.mem_reverse.1 ha)) fun a ha =>
        inv_quick n ha (by omega)) fun l' hl' => mkProd_quick hl'
    | block g l =>
      dsimp only
      split
      · rw [depth] at h1
        rw [Calm] at h2
        obtain ⟨k, rfl⟩ : ∃ k, m = k + 1 := ⟨m - 1, by omega⟩
        exact Quick.bind (mapM_fine (Fine.list h1 h2) fun a ha => inv_quick n ha (by omega)) fun l' hl' =>
          mkBlock_quick hl'
      · exact fb

/-- Operators whose `solve` does not call `cholesky` of a transpose or of an inverse. -/
inductive Direct : Op → Prop
  | dense {op : Op} : InvBase op → Direct op
  | identity {h : Hdr} : Direct (.identity h)
  | scaling {h : Hdr} {iso : Bool} {f : ℕ → ℝ} : Direct (.scaling h iso f)
  | kron {h : Hdr} {A B : Op} : Direct (.kron h A B)
  | idkron {h : Hdr} {k : ℕ} {B : Op} : Direct (.idkron h k B)
  | symkron {h : Hdr} {A B : Op} : Direct (.symkron h true A B)
  | scaled {h : Hdr} {neg : Bool} {s : ℝ} {A : Op} : Direct (.scaled h neg s A)
  | prod {h : Hdr} {l : List Op} : (∀ a ∈ l, Direct a) → Direct (.prod h l)
  | block {h : Hdr} {l : List Op} : (∀ a ∈ l, Direct a) → Direct (.block h l)

theorem prodSolve_quick {β : Type} {f : Op → ℕ → (β → Mat) → Res (β → Mat)} :
    ∀ {l : List Op}, (∀ a ∈ l, ∀ r x, Quick (f a r x) fun _ => True) → ∀ (r : ℕ) (x : β → Mat),
    Quick (prodSolve f l r x) fun _ => True
  | [], _, _, _ => trivial
  | a :: l, h, r, x => by
    rw [prodSolve]
    exact Quick.bind (h a (by simp) _ _) fun z _ =>
      prodSolve_quick (fun b hb => h b (List.mem_cons_of_mem _ hb)) _ z

theorem solve_quick {full : Prop} : ∀ (n : ℕ) {m : ℕ} {op : Op}, Valid full op → Regular op → op.rows = op.cols →
    detM op.rows (den op) ≠ 0 → Direct op → Fine m op → 4 * m + 10 ≤ n →
    ∀ {β : Type} (rb k : ℕ) (B : β → Mat), Quick (solveArr n op rb k B) fun _ => True
  | 0, _, _, _, _, _, _, _, _, h => by omega
  | n + 1, m, op, hV, hR, hsq, hd, hD, hf, hn => fun rb k B => by
    have viaInv : Quick (do
        let i ← inv n op
        matArr n i rb k B) fun _ => True := by
      refine Quick.bind' (inv_quick n hf (by omega)) fun t e ht => ?_
      have hv := inv_meets n hV hR hsq hd
      rw [e] at hv
      exact (swift full n).mat hv.valid ht (by omega) rb k B
    have hN := hV.node
    cases hD with
    | dense hi => exact (swift full (n + 1)).solve hV hi hf (by omega) rb k B
    | identity =>
      rw [solveArr, if_neg (not_not.2 hsq)]
      split
      · simp [Quick]
      · exact Quick.ok trivial
    | scaling =>
      rw [solveArr, if_neg (not_not.2 hsq)]
      split
      · simp [Quick]
      · exact viaInv
    | symkron =>
      rw [solveArr, if_neg (not_not.2 hsq)]
      split
      · simp [Quick]
      · exact viaInv
    | scaled =>
      rw [solveArr, if_neg (not_not.2 hsq)]
      split
      · simp [Quick]
      · exact viaInv
    | @kron h A C =>
      rw [solveArr, if_neg (not_not.2 hsq)]
      split
      · simp [Quick]
      · have hRl : A.rows = A.cols ∧ C.rows = C.cols := by
          cases hR with
          | dense h => exact h.elim
          | kron _ _ h1 h2 => exact ⟨h1, h2⟩
        dsimp only
        rw [if_pos hRl]
        exact viaInv
    | @idkron h j C =>
      rw [solveArr, if_neg (not_not.2 hsq)]
      split
      · simp [Quick]
      · cases hV with
        | idkron hB h1 h2 _ =>
          have hm : 0 < j := by
            rcases Nat.eq_zero_or_pos j with rfl | hm
            · have : 0 < h.rows := hN.rows
              omega
            · exact hm
          have e : j * C.rows = j * C.cols := by rw [← h1, ← h2]; exact hsq
          dsimp only
          rw [if_pos (Nat.eq_of_mul_eq_mul_left hm e)]
          exact viaInv
    | @prod h l hl =>
      rw [solveArr, if_neg (not_not.2 hsq)]
      split
      · simp [Quick]
      · cases hV with
        | @prod _ a l hv hch h1 h2 _ =>
          have hRl : ∀ b ∈ a :: l, Regular b ∧ b.rows = b.cols := by
            cases hR with
            | dense h => exact h.elim
            | prod b c => exact fun a ha => ⟨b a ha, c a ha⟩
          obtain ⟨hrows, hlast⟩ := prod_square hch fun b hb => (hRl b hb).2
          have hrc : ∀ b ∈ a :: l, b.rows = a.rows ∧ b.cols = a.rows := fun b hb =>
            ⟨hrows b hb, (hRl b hb).2.symm.trans (hrows b hb)⟩
          have hr : (Op.prod h (a :: l)).rows = a.rows := h1
          rw [hr, den] at hd
          have dets := prod_nonsing hrc hd
          obtain ⟨f1, f2⟩ := hf
          rw [depth] at f1
          rw [Calm] at f2
          obtain ⟨j, rfl⟩ : ∃ j, m = j + 1 := ⟨m - 1, by omega⟩
          exact prodSolve_quick (fun b hb r x => solve_quick n (hv b hb) (hRl b hb).1 (hRl b hb).2
            (by rw [(hrc b hb).1]; exact dets b hb) (hl b hb) (Fine.list f1 f2 b hb) (by omega) r k x) _ _
    | @block h l hl =>
      rw [solveArr, if_neg (not_not.2 hsq)]
      split
      · simp [Quick]
      · cases hV with
        | block hne hv hsqb h1 h2 _ =>
          have hsum : (l.map Op.rows).sum = (l.map Op.cols).sum := by rw [← h1, ← h2]; exact hsq
          have hr : (Op.block h l).rows = (l.map Op.rows).sum := h1
          rw [hr, den] at hd
          have hns := block_nonsing hsum hd
          have hRl : ∀ b ∈ l, Regular b := by
            cases hR with
            | dense h => exact h.elim
            | block b _ => exact b
          obtain ⟨f1, f2⟩ := hf
          rw [depth] at f1
          rw [Calm] at f2
          obtain ⟨j, rfl⟩ : ∃ j, m = j + 1 := ⟨m - 1, by omega⟩
          refine Quick.bind (mapM_quick fun p hp => ?_) fun ys _ => Quick.ok trivial
          have hm := (List.of_mem_zip hp).1
          exact solve_quick n (hv p.1 hm) (hRl p.1 hm) (hns p.1 hm).1 (hns p.1 hm).2 (hl p.1 hm)
            (Fine.list f1 f2 p.1 hm) (by omega) _ k p.2

end Probnum.Linops
