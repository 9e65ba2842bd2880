import Verif.Linops.ArithLemmas

/-!
# The operators a program can obtain

`Built full op`: `op` is the result of constructor calls, arithmetic, transposition, inversion and truthful flag
assignments.  Under `full` the two operations after which the library may claim `False` wrongly are left out
(multiplication by the scalar zero and products of operators, which may multiply by a zero scaling).
-/

namespace Probnum.Linops

/-- Operators obtained from the library. -/
inductive Built (full : Prop) : Op → Prop
  | matrix {r c : ℕ} (A : Mat) : 0 < r → 0 < c → Built full (mkMatrix r c A)
  /-- a `LambdaLinearOperator` or an instance of a user-defined subclass -/
  | lam {r c : ℕ} (A : Mat) : 0 < r → 0 < c → Built full (.lam (base r c) A)
  | identity {n : ℕ} : 0 < n → Built full (mkIdentity n)
  | scalingIso {n : ℕ} (s : ℝ) : 0 < n → Built full (mkScalingIso n s)
  | scalingAniso {n : ℕ} (f : ℕ → ℝ) : 0 < n → Built full (mkScalingAniso n f)
  | zero {r c : ℕ} : 0 < r → 0 < c → Built full (mkZero r c)
  | symmetrize {n : ℕ} : 0 < n → Built full (mkSymmetrize n)
  | selection {r c : ℕ} {idx : List ℕ} {t : Op} : 0 < r → 0 < c → (∀ i ∈ idx, i < c) → idx.Nodup →
      mkSelection idx r c = .ok t → Built full t
  | kron {A B t : Op} : Built full A → Built full B → mkKron A B = .ok t → Built full t
  | idkron {k : ℕ} {B t : Op} : 0 < k → Built full B → mkIdkron k B = .ok t → Built full t
  | symkron {A B t : Op} : Built full A → Built full B → mkSymkron false A B = .ok t → Built full t
  | symkronSame {A t : Op} : Built full A → mkSymkron true A A = .ok t → Built full t
  | block {l : List Op} {t : Op} : (∀ a ∈ l, Built full a) → (∀ a ∈ l, a.rows = a.cols) → mkBlock l = .ok t →
      Built full t
  /-- the user assigns flags truthfully; with `is_symmetric` both triangular flags or none -/
  | declared {a : Op} (fl : Flags) : Built full a → a.fl.Le fl → Sound full a.rows a.cols fl (den a) →
      (fl.pd = some true → fl.sym = some true) → (fl.sym = some true → fl.low = fl.up) →
      (zeroLike a → a.rows ≠ a.cols → fl.pd = none) → Built full (a.withFl fl)
  | transpose {a t : Op} {n : ℕ} : Built full a → T n a = .ok t → Built full t
  | neg {a t : Op} {n : ℕ} : Built full a → negOp n a = .ok t → Built full t
  | smul {a t : Op} {n : ℕ} {s : ℝ} : Built full a → (full → s ≠ 0) → mulScalar n s a = .ok t → Built full t
  | add {env : Env} {a b t : Op} {n : ℕ} : Sane env a b → Built full a → Built full b → a.rows = b.rows →
      a.cols = b.cols → addOp env n a b = .ok t → Built full t
  | sub {env : Env} {a b t : Op} {n : ℕ} : Sane env a b → Built full a → Built full b → a.rows = b.rows →
      a.cols = b.cols → subOp env n a b = .ok t → Built full t
  | matmul {env : Env} {a b t : Op} {n : ℕ} : ¬ full → Built full a → Built full b → a.cols = b.rows →
      matmulOp env n a b = .ok t → Built full t
  | inv {a t : Op} {n : ℕ} : Built full a → Regular a → a.rows = a.cols → detM a.rows (den a) ≠ 0 →
      inv n a = .ok t → Built full t

theorem Meets.of_ok {α : Type _} {r : Res α} {P : α → Prop} {a : α} (h : Meets r P) (e : r = .ok a) : P a := by
  subst e; exact h

theorem Built.valid {full : Prop} {op : Op} (h : Built full op) : Valid full op := by
  induction h with
  | matrix A hr hc => exact valid_matrix hr hc A
  | @lam r c A hr hc => exact .lam (node_base (a := .lam ⟨r, c, (base r c).fl⟩ A) hr hc rfl)
  | identity hn => exact valid_identity hn
  | scalingIso s hn => exact valid_scalingIso hn s
  | scalingAniso f hn => exact valid_scalingAniso hn f
  | zero hr hc => exact valid_zero hr hc
  | symmetrize hn => exact valid_symmetrize hn
  | @selection r c idx t hr hc hlt hnd e =>
    rw [mkSelection] at e
    split at e
    · cases e
    · next h1 =>
      split at e
      · cases e
      · next h2 =>
        cases e
        exact .selection (h := ⟨r, c, (base r c).fl⟩) (not_not.1 h2) (not_lt.1 h1) hlt hnd
          (node_base (a := .selection ⟨r, c, (base r c).fl⟩ idx) hr hc rfl)
  | @kron A B t _ _ e hA hB =>
    rw [mkKron_eq hA.coh hB.coh A.fl] at e
    cases e
    exact valid_kron hA hB _
  | @idkron k B t hk _ e hB =>
    rw [mkIdkron_eq hB.coh B.fl] at e
    cases e
    exact valid_idkron hk hB _
  | @symkron A B t _ _ e hA hB =>
    have h1 : A.rows = A.cols := by
      by_contra h
      rw [mkSymkron, if_pos h] at e
      cases e
    have h2 : B.rows = A.rows ∧ B.cols = A.cols := by
      by_contra h
      rw [mkSymkron, if_neg (not_not.2 h1), if_pos (by tauto)] at e
      cases e
    rw [mkSymkron_eq h1 h2.1 h2.2 A.fl] at e
    cases e
    exact valid_symkron hA hB (fun h => by cases h) h1 h2.1 h2.2 _
  | @symkronSame A t _ e hA =>
    have h1 : A.rows = A.cols := by
      by_contra h
      rw [mkSymkron, if_pos h] at e
      cases e
    rw [mkSymkron_eq h1 rfl rfl A.fl] at e
    cases e
    exact valid_symkron hA hA (fun _ => rfl) h1 rfl rfl _
  | @block l t _ hsq e hl =>
    have hne : l ≠ [] := by
      rintro rfl
      rw [mkBlock, if_pos rfl] at e
      cases e
    rw [mkBlock_eq hne (fun b hb => (hl b hb).coh) ⟨none, none, none, none⟩] at e
    cases e
    exact valid_block hne hl hsq _
  | @declared a fl _ hle hs hp hb hz ha =>
    have hN := ha.node
    refine ha.withFl ⟨?_, ?_, ?_, ?_, ?_, ?_, ?_, ?_⟩
    · rw [rows_withFl]; exact hN.rows
    · rw [cols_withFl]; exact hN.cols
    · rw [rows_withFl, cols_withFl, fl_withFl]
      intro h
      have := hN.nonsquare h
      rcases hle.sym with h' | h'
      · rw [h'] at this; cases this
      · rw [← h']; exact this
    · rw [fl_withFl]; exact hp
    · rw [fl_withFl]; exact hb
    · rw [fl_withFl, derived_withFl]; exact hN.settled.trans hle
    · rw [rows_withFl, cols_withFl, fl_withFl, den_withFl]; exact hs
    · rw [rows_withFl, cols_withFl, fl_withFl, zeroLike_withFl]; exact hz
  | transpose _ e ha => exact ((T_meets _ ha).of_ok e).valid
  | neg _ e ha => exact ((negOp_meets _ ha).of_ok e).valid
  | smul _ hs e ha => exact ((mulScalar_meets _ ha hs).of_ok e).valid
  | add hsane _ _ hr hc e ha hb => exact ((addOp_meets _ hsane ha hb hr hc).of_ok e).valid
  | sub hsane _ _ hr hc e ha hb => exact ((subOp_meets _ hsane ha hb hr hc).of_ok e).valid
  | @matmul env a b t n hf _ _ hab e ha hb =>
    have key : ∀ {x : Op}, Valid full x → Valid False x := fun {x} h => (eq_false hf) ▸ h
    exact (eq_false hf).symm ▸ ((matmulOp_meets _ (key ha) (key hb) hab).of_ok e).valid
  | inv _ hR hsq hd e ha => exact ((inv_meets _ ha hR hsq hd).of_ok e).valid

end Probnum.Linops
