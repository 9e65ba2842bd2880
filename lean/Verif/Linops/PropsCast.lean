import Verif.Linops.Cast

/-! # Property C55: casting an operator -/

namespace Probnum.Linops.Cast

open Finset Probnum.Linops

/-! ## Specification -/

/-- An integer array holds integers. -/
def Arr.Typed (x : Arr) : Prop := x.dt = .int → ∀ i j, ∃ z : ℤ, x.val i j = z

/-- numpy's promotion order: a cast from `a` to `b` keeps all values. -/
def DType.le (a b : DType) : Prop := a = b ∨ b = .float

/-- The arrays of the operator hold values of their dtypes, and all casts in it keep the values. -/
def COp.Typed : COp → Prop
  | .matrix _ _ A => A.Typed
  | .lam _ _ A => A.Typed
  | .scaling _ dt f => dt = .int → ∀ i, ∃ z : ℤ, f i = z
  | .kron A B => A.Typed ∧ B.Typed
  | .transposed A => A.Typed
  | .cast A dt => A.Typed ∧ A.dtype.le dt

/-! ## Helper lemmas -/

theorem castVal_int (dt : DType) (z : ℤ) : castVal dt z = z := by
  cases dt
  · simp [castVal]
  · rfl

theorem castVal_isInt (x : ℝ) : ∃ z : ℤ, castVal .int x = z := by
  rw [castVal]
  split
  · exact ⟨_, rfl⟩
  · exact ⟨_, rfl⟩

theorem resultType_int {a b : DType} : resultType a b = .int ↔ a = .int ∧ b = .int := by
  cases a <;> cases b <;> simp [resultType]

theorem astype_safe {x : Arr} {dt : DType} (hx : x.Typed) (h : x.dt.le dt) : x.astype dt = ⟨dt, x.val⟩ := by
  rw [Arr.astype]
  congr 1
  funext i j
  rcases h with h | h
  · cases hd : dt
    · obtain ⟨z, hz⟩ := hx (h.trans hd) i j
      rw [hz, castVal_int]
    · rfl
  · rw [h]; rfl

theorem Arr.Typed.matmul {x y : Arr} (hx : x.Typed) (hy : y.Typed) (k : ℕ) : (x.matmul k y).Typed := by
  intro h i j
  obtain ⟨h1, h2⟩ := resultType_int.1 h
  choose f hf using hx h1
  choose g hg using hy h2
  refine ⟨∑ t ∈ range k, f i t * g t j, ?_⟩
  show mmul k x.val y.val i j = _
  rw [mmul, Int.cast_sum]
  exact sum_congr rfl fun t _ => by rw [hf, hg, Int.cast_mul]

theorem todense_typed : ∀ {A : COp}, A.Typed → A.todense.Typed ∧ A.todense.dt = A.dtype
  | .matrix _ _ A, h => ⟨h, rfl⟩
  | .lam _ _ A, h => ⟨h, rfl⟩
  | .scaling _ dt f, h => ⟨fun hd i j => by
      obtain ⟨z, hz⟩ := h hd i
      show ∃ z : ℤ, (if i = j then f i else 0) = z
      split
      · exact ⟨z, hz⟩
      · exact ⟨0, by norm_num⟩, rfl⟩
  | .kron A B, h => by
    obtain ⟨a1, a2⟩ := todense_typed h.1
    obtain ⟨b1, b2⟩ := todense_typed h.2
    refine ⟨fun hd i j => ?_, by rw [COp.todense, COp.dtype, a2, b2]⟩
    obtain ⟨h1, h2⟩ := resultType_int.1 hd
    obtain ⟨z, hz⟩ := a1 h1 (i / B.shape.1) (j / B.shape.2)
    obtain ⟨w, hw⟩ := b1 h2 (i % B.shape.1) (j % B.shape.2)
    refine ⟨z * w, ?_⟩
    rw [Int.cast_mul, ← hz, ← hw]
    rfl
  | .transposed A, h => by
    obtain ⟨a1, a2⟩ := todense_typed (A := A) h
    exact ⟨fun hd i j => a1 hd j i, a2⟩
  | .cast A dt, h => by
    obtain ⟨a1, a2⟩ := todense_typed (A := A) h.1
    rw [COp.todense, astype_safe a1 (a2 ▸ h.2)]
    refine ⟨fun hd i j => ?_, rfl⟩
    rcases h.2 with h2 | h2
    · exact a1 (by rw [a2, h2]; exact hd) i j
    · rw [h2] at hd; cases hd

theorem matmul_typed : ∀ {A : COp} {x : Arr}, A.Typed → x.Typed →
    (A.matmul x).Typed ∧ (A.matmul x).dt = resultType A.dtype x.dt
  | .matrix _ c A, x, h, hx => ⟨Arr.Typed.matmul h hx c, rfl⟩
  | .lam _ c A, x, h, hx => ⟨Arr.Typed.matmul h hx c, rfl⟩
  | .scaling _ dt f, x, h, hx => ⟨fun hd i j => by
      obtain ⟨h1, h2⟩ := resultType_int.1 hd
      obtain ⟨z, hz⟩ := h h1 i
      obtain ⟨w, hw⟩ := hx h2 i j
      refine ⟨z * w, ?_⟩
      rw [Int.cast_mul, ← hz, ← hw]
      rfl, rfl⟩
  | .kron A B, x, h, hx => by
    have hy := fun k => matmul_typed (A := B) (x := ⟨x.dt, fun b a => x.val (a * B.shape.2 + b) k⟩) h.2
      (fun hd i j => hx hd _ _)
    have hz := fun k => matmul_typed (A := A) (x := ⟨_, trn (B.matmul ⟨x.dt, fun b a => x.val (a * B.shape.2 + b) k⟩).val⟩) h.1
      (fun hd i j => (hy k).1 hd j i)
    have e : ∀ a b c : DType, resultType a (resultType b c) = resultType (resultType a b) c := by
      intro a b c; cases a <;> cases b <;> cases c <;> rfl
    refine ⟨fun hd i k => (hz k).1 ?_ _ _, ?_⟩
    · rw [(hz k).2, (hy k).2]
      rw [← hd]
      show _ = (A.matmul _).dt
      rw [(hz 0).2, (hy 0).2]
    · show (A.matmul _).dt = _
      rw [(hz 0).2, (hy 0).2, COp.dtype, e]
  | .transposed A, x, h, hx => by
    obtain ⟨a1, a2⟩ := todense_typed (A := .transposed A) h
    refine ⟨Arr.Typed.matmul a1 hx _, ?_⟩
    show resultType _ _ = _
    rw [a2]
  | .cast A dt, x, h, hx => by
    obtain ⟨a1, a2⟩ := matmul_typed (A := A) (x := x) h.1 hx
    refine ⟨fun hd i j => ?_, rfl⟩
    have hd : resultType dt x.dt = .int := hd
    show ∃ z : ℤ, castVal (resultType dt x.dt) _ = z
    rw [hd]
    exact castVal_isInt _

theorem kron_pos' {i a b : ℕ} (h : i < a * b) : i / b < a ∧ i % b < b :=
  ⟨Nat.div_lt_of_lt_mul (by rwa [mul_comm]), Nat.mod_lt _ (Nat.pos_of_mul_pos_left (Nat.zero_lt_of_lt h))⟩

theorem matmul_dense : ∀ {A : COp} {x : Arr}, A.Typed → x.Typed → ∀ {i : ℕ}, i < A.shape.1 → ∀ j,
    (A.matmul x).val i j = mmul A.shape.2 A.todense.val x.val i j
  | .matrix _ c A, x, _, _, i, _, j => rfl
  | .lam _ c A, x, _, _, i, _, j => rfl
  | .scaling n dt f, x, _, _, i, hi, j => by
    show f i * x.val i j = ∑ t ∈ range n, (if i = t then f i else 0) * x.val t j
    rw [sum_eq_single i]
    · rw [if_pos rfl]
    · intro t _ ht
      rw [if_neg (Ne.symm ht), zero_mul]
    · intro h
      exact absurd (mem_range.2 hi) h
  | .kron A B, x, h, hx, i, hi, j => by
    obtain ⟨h1, h2⟩ := kron_pos' (show i < A.shape.1 * B.shape.1 from hi)
    have ty := (matmul_typed (A := B) (x := ⟨x.dt, fun b a => x.val (a * B.shape.2 + b) j⟩) h.2 (fun hd i j => hx hd _ _)).1
    have hB := fun a => matmul_dense (A := B) (x := ⟨x.dt, fun b a => x.val (a * B.shape.2 + b) j⟩) h.2
      (fun hd i j => hx hd _ _) h2 a
    have hA := matmul_dense (A := A)
      (x := ⟨_, trn (B.matmul ⟨x.dt, fun b a => x.val (a * B.shape.2 + b) j⟩).val⟩) h.1 (fun hd i j => ty hd j i) h1 (i % B.shape.1)
    show (A.matmul _).val _ _ = mmul (A.shape.2 * B.shape.2) (kronM B.shape.1 B.shape.2 A.todense.val B.todense.val) x.val i j
    rw [hA, kronM_apply, mmul]
    refine sum_congr rfl fun a _ => ?_
    show _ * (B.matmul _).val _ a = _
    rw [hB a, mmul, mul_sum]
    exact sum_congr rfl fun b _ => by ring
  | .transposed A, x, _, _, i, _, j => rfl
  | .cast A dt, x, h, hx, i, hi, j => by
    obtain ⟨a1, a2⟩ := matmul_typed (A := A) (x := x) h.1 hx
    obtain ⟨d1, d2⟩ := todense_typed (A := A) h.1
    rw [COp.matmul, astype_safe a1, COp.todense, astype_safe d1 (d2 ▸ h.2)]
    · exact matmul_dense (A := A) h.1 hx hi j
    · rw [a2]
      rcases h.2 with h2 | h2
      · exact .inl (by rw [h2])
      · exact .inr (by rw [h2]; rfl)

/-- `A'` is `A` with another dtype. -/
structure Same (A A' : COp) (dt : DType) : Prop where
  shape : A'.shape = A.shape
  dtype : A'.dtype = dt
  typed : A'.Typed
  val : A'.todense.val = A.todense.val

/-- `A'` is the transpose of `A`. -/
structure Flip (A A' : COp) : Prop where
  shape : A'.shape = (A.shape.2, A.shape.1)
  dtype : A'.dtype = A.dtype
  typed : A'.Typed
  val : A'.todense.val = trn A.todense.val

theorem le_kron {a b dt : DType} (h : (resultType a b).le dt) : a.le dt ∧ b.le dt ∧ resultType dt dt = dt := by
  cases a <;> cases b <;> cases dt <;> simp_all [DType.le, resultType]

theorem typed_cast {A : COp} {dt : DType} (h : A.Typed) (hle : A.dtype.le dt) : Same A (.cast A dt) dt where
  shape := rfl
  dtype := rfl
  typed := ⟨h, hle⟩
  val := by
    obtain ⟨d1, d2⟩ := todense_typed h
    rw [COp.todense, astype_safe d1 (d2 ▸ hle)]

theorem castVal_safe {d dt : DType} {x : ℝ} (h : d = .int → ∃ z : ℤ, x = z) (hle : d.le dt) : castVal dt x = x := by
  rcases hle with rfl | rfl
  · cases d
    · obtain ⟨z, rfl⟩ := h rfl
      exact castVal_int _ z
    · rfl
  · rfl

theorem cast_flip (n : ℕ) :
    (∀ {safe copy : Bool} {A A' : COp} {dt : DType}, A.Typed → A.dtype.le dt →
      COp.astype n safe copy A dt = .ok A' → Same A A' dt) ∧
    ∀ {A A' : COp}, A.Typed → COp.T n A = .ok A' → Flip A A' := by
  induction n with
  | zero =>
    refine ⟨fun _ _ h => ?_, fun _ h => ?_⟩
    · rw [COp.astype] at h; cases h
    · rw [COp.T] at h; cases h
  | succ n ih =>
    refine ⟨fun {safe copy A A' dt} hA hle h => ?_, fun {A A'} hA h => ?_⟩
    · rw [COp.astype.eq_def] at h
      dsimp only at h
      split at h
      · cases h
      cases A with
      | matrix r c M =>
        dsimp only at h
        split at h
        · next hc => cases h; exact ⟨rfl, hc.1, hA, rfl⟩
        · cases h
          refine ⟨rfl, rfl, ?_, ?_⟩
          · rw [astype_safe hA hle]
            intro hd i j
            rcases hle with h2 | h2
            · exact hA (h2.trans hd) i j
            · have hd : dt = .int := hd
              rw [h2] at hd; cases hd
          · show (M.astype dt).val = M.val
            rw [astype_safe hA hle]
      | lam r c M =>
        dsimp only at h
        split at h
        · next hc => cases h; exact ⟨rfl, hc.1, hA, rfl⟩
        · cases h
          exact typed_cast hA hle
      | scaling m d f =>
        dsimp only at h
        have e : (fun i => castVal dt (f i)) = f := funext fun i => castVal_safe (fun hd => hA hd i) hle
        split at h
        · next hc => cases h; exact ⟨rfl, hc.1, hA, rfl⟩
        · cases h
          rw [e]
          refine ⟨rfl, rfl, fun hd i => ?_, rfl⟩
          rcases hle with h2 | h2
          · exact hA (h2.trans hd) i
          · rw [h2] at hd; cases hd
      | kron B C =>
        dsimp only at h
        obtain ⟨l1, l2, l3⟩ := le_kron (show (resultType B.dtype C.dtype).le dt from hle)
        cases hB : COp.astype n safe copy B dt with
        | error e => rw [hB] at h; cases h
        | ok B' =>
          cases hC : COp.astype n safe copy C dt with
          | error e => rw [hB, hC] at h; cases h
          | ok C' =>
            rw [hB, hC] at h
            cases h
            have sB := ih.1 hA.1 l1 hB
            have sC := ih.1 hA.2 l2 hC
            refine ⟨?_, ?_, ⟨sB.typed, sC.typed⟩, ?_⟩
            · rw [COp.shape, COp.shape, sB.shape, sC.shape]
            · rw [COp.dtype, sB.dtype, sC.dtype, l3]
            · rw [COp.todense, COp.todense, sB.val, sC.val, sC.shape]
      | transposed B =>
        dsimp only at h
        cases hB : COp.astype n safe copy B dt with
        | error e => rw [hB] at h; cases h
        | ok B' =>
          rw [hB] at h
          have h : COp.T n B' = .ok A' := h
          have sB := ih.1 (show B.Typed from hA) hle hB
          have f := ih.2 sB.typed h
          exact ⟨by rw [f.shape, sB.shape]; rfl, f.dtype.trans sB.dtype, f.typed, by rw [f.val, sB.val]; rfl⟩
      | cast B d =>
        dsimp only at h
        split at h
        · next hc => cases h; exact ⟨rfl, hc.1, hA, rfl⟩
        · split at h
          · next hc =>
            cases h
            refine ⟨rfl, hc.1.symm, hA.1, ?_⟩
            exact ((typed_cast hA.1 hA.2).val).symm
          · cases h
            exact typed_cast (A := .cast B d) hA hle
    · rw [COp.T.eq_def] at h
      dsimp only at h
      cases A with
      | matrix r c M => cases h; exact ⟨rfl, rfl, fun hd i j => hA hd j i, rfl⟩
      | lam r c M => cases h; exact ⟨rfl, rfl, hA, rfl⟩
      | scaling m d f =>
        cases h
        refine ⟨rfl, rfl, hA, ?_⟩
        funext i j
        show (if i = j then f i else 0) = if j = i then f j else 0
        by_cases hij : i = j
        · rw [if_pos hij, if_pos hij.symm, hij]
        · rw [if_neg hij, if_neg (Ne.symm hij)]
      | kron B C =>
        dsimp only at h
        cases hB : COp.T n B with
        | error e => rw [hB] at h; cases h
        | ok B' =>
          cases hC : COp.T n C with
          | error e => rw [hB, hC] at h; cases h
          | ok C' =>
            rw [hB, hC] at h
            cases h
            have fB := ih.2 hA.1 hB
            have fC := ih.2 hA.2 hC
            refine ⟨?_, ?_, ⟨fB.typed, fC.typed⟩, ?_⟩
            · rw [COp.shape, COp.shape, fB.shape, fC.shape]
            · rw [COp.dtype, fB.dtype, fC.dtype]; rfl
            · rw [COp.todense, COp.todense, fB.val, fC.val, fC.shape]
              rfl
      | transposed B => cases h; exact ⟨rfl, rfl, hA, rfl⟩
      | cast B d =>
        dsimp only at h
        cases hB : COp.T n B with
        | error e => rw [hB] at h; cases h
        | ok B' =>
          rw [hB] at h
          have h : COp.astype n false true B' d = .ok A' := h
          have fB := ih.2 hA.1 hB
          have s := ih.1 fB.typed (by rw [fB.dtype]; exact hA.2) h
          refine ⟨by rw [s.shape, fB.shape]; rfl, s.dtype, s.typed, ?_⟩
          rw [s.val, fB.val, (typed_cast hA.1 hA.2).val]

/-! ## C55 -/

/-- A cast that numpy considers safe returns an operator of the requested dtype with the same dense matrix, and its
products are the products with that matrix, in the promoted dtype.  Not covered: casts from float to int
(`cast_to_int_disagrees` shows that products and dense matrix then disagree). -/
theorem cast_agrees_partial {n : ℕ} {copy : Bool} {A A' : COp} {dt : DType} (hA : A.Typed)
    (h : A.astype n true copy dt = .ok A') : A'.dtype = dt ∧ A'.shape = A.shape ∧ A'.todense.val = A.todense.val ∧
      A'.todense.dt = dt ∧
      ∀ x : Arr, x.Typed → (A'.matmul x).dt = resultType dt x.dt ∧
        ∀ i < A'.shape.1, ∀ j, (A'.matmul x).val i j = mmul A'.shape.2 A'.todense.val x.val i j := by
  have hle : A.dtype.le dt := by
    cases n with
    | zero => rw [COp.astype] at h; cases h
    | succ n =>
      rw [COp.astype.eq_def] at h
      dsimp only at h
      split at h
      · cases h
      · next hc =>
        simp only [COp.canCast, Bool.not_true, Bool.false_or, Bool.or_eq_true, beq_iff_eq, Bool.not_eq_true',
          Bool.not_eq_false] at hc
        exact hc
  have s := (cast_flip n).1 hA hle h
  refine ⟨s.dtype, s.shape, s.val, (todense_typed s.typed).2.trans s.dtype, fun x hx => ⟨?_, fun i hi j => ?_⟩⟩
  · rw [(matmul_typed s.typed hx).2, s.dtype]
  · exact matmul_dense s.typed hx hi j

/-- A cast that numpy considers unsafe raises TypeError with `casting="safe"`. -/
theorem cast_rejects {n : ℕ} {copy : Bool} {A : COp} (h : A.dtype = .float) :
    A.astype (n + 1) true copy .int = .error .typeError := by
  rw [COp.astype.eq_def]
  dsimp only
  rw [if_pos]
  rw [h]
  rfl

/-- `0.5` as an operator given by functions. -/
noncomputable def half : COp := .lam 1 1 ⟨.float, fun _ _ => 1 / 2⟩

/-- A Kronecker product of an integer matrix and `half` is cast to float64. -/
example : (COp.kron (.matrix 2 2 ⟨.int, fun i j => i + j⟩) half).Typed ∧
    ∃ A', COp.astype 2 true true (.kron (.matrix 2 2 ⟨.int, fun i j => i + j⟩) half) .float = .ok A' := by
  refine ⟨⟨fun _ i j => ⟨i + j, by push_cast; rfl⟩, fun h => (by cases h)⟩, ?_⟩
  exact ⟨_, rfl⟩

/-- A violation: the operator `[[0.5]]` cast to int64 has the dense matrix `[[0]]`, but its product with `[[2]]` is
`[[1]]`. -/
theorem cast_to_int_disagrees (n : ℕ) : ∃ A', half.astype (n + 1) false true .int = .ok A' ∧
    (A'.matmul ⟨.int, fun _ _ => 2⟩).val 0 0 = 1 ∧
    mmul 1 A'.todense.val (fun _ _ => 2) 0 0 = 0 := by
  refine ⟨.cast half .int, rfl, ?_, ?_⟩
  · show castVal .int (∑ t ∈ range 1, (1 / 2 : ℝ) * 2) = 1
    rw [sum_range_one, one_div, inv_mul_cancel₀ (by norm_num)]
    have := castVal_int .int 1
    rwa [Int.cast_one] at this
  · show ∑ t ∈ range 1, castVal .int (1 / 2 : ℝ) * 2 = 0
    rw [sum_range_one, castVal, if_pos (by norm_num)]
    have : ⌊(1 / 2 : ℝ)⌋ = 0 := by norm_num
    rw [this]
    norm_num

/-- A violation: `A.astype(dtype).T` never returns for an operator given by functions without a transpose. -/
theorem cast_transpose_diverges (r c : ℕ) (M : Arr) (dt : DType) (n : ℕ) :
    COp.T n (.cast (.lam r c M) dt) = .error .recursionError := by
  have key : ∀ n, COp.T n (.cast (.lam r c M) dt) = .error .recursionError ∧
      COp.T (n + 1) (.cast (.lam r c M) dt) = .error .recursionError ∧
      COp.T (n + 2) (.cast (.lam r c M) dt) = .error .recursionError := by
    have T0 : COp.T 0 (.cast (.lam r c M) dt) = .error .recursionError := by rw [COp.T]
    have T1 : COp.T 1 (.cast (.lam r c M) dt) = .error .recursionError := by
      rw [COp.T, COp.T]; rfl
    have step : ∀ k, COp.T k (.cast (.lam r c M) dt) = .error .recursionError →
        COp.T (k + 2) (.cast (.lam r c M) dt) = .error .recursionError := by
      intro k hk
      have e1 : COp.T (k + 1) (.lam r c M) = .ok (.transposed (.lam r c M)) := by rw [COp.T]
      have e2 : COp.astype (k + 1) false true (.transposed (.lam r c M)) dt =
          (COp.astype k false true (.lam r c M) dt >>= fun B' => COp.T k B') := by
        rw [COp.astype, if_neg (by simp [COp.canCast])]
      rw [COp.T, e1]
      show COp.astype (k + 1) false true (.transposed (.lam r c M)) dt = _
      rw [e2]
      cases k with
      | zero => rw [COp.astype]; rfl
      | succ k =>
        have e3 : COp.astype (k + 1) false true (.lam r c M) dt = .ok (.cast (.lam r c M) dt) := by
          rw [COp.astype, if_neg (by simp [COp.canCast])]
          rw [if_neg (by simp)]
        rw [e3]
        exact hk
    intro n
    induction n with
    | zero => exact ⟨T0, T1, step 0 T0⟩
    | succ n ih => exact ⟨ih.2.1, ih.2.2, step (n + 1) ih.2.1⟩
  exact (key n).1

/-- Sums, differences and products of scalings of the same dtype, or with a first operand of float64, have the exact
factors and numpy's dtype.  Not covered: an int64 scaling with a float64 scaling (`scaling_sum_truncates`). -/
theorem scaling_promotes_partial {g : ℝ → ℝ → ℝ} (hg : ∀ x y : ℤ, ∃ z : ℤ, g x y = z) {n : ℕ} {d e : DType} {f h : ℕ → ℝ}
    (hf : (COp.scaling n d f).Typed) (hh : (COp.scaling n e h).Typed) (hde : e.le d) :
    COp.scalingBin g (.scaling n d f) (.scaling n e h) = .ok (.scaling n (resultType d e) fun i => g (f i) (h i)) := by
  have hd : resultType d e = d := by
    rcases hde with rfl | rfl
    · cases e <;> rfl
    · cases e <;> rfl
  rw [COp.scalingBin, if_neg (not_not.2 rfl), hd]
  congr 2
  funext i
  refine castVal_safe (d := d) (fun h1 => ?_) (.inl rfl)
  obtain ⟨x, hx⟩ := hf h1 i
  have he : e = .int := by
    rcases hde with h2 | h2
    · exact h2.trans h1
    · rw [h2] at h1; cases h1
  obtain ⟨y, hy⟩ := hh he i
  rw [hx, hy]
  exact hg x y

/-- A violation: the sum of the int64 scaling by 1 and the float64 scaling by 1/2 is the int64 scaling by 1. -/
theorem scaling_sum_truncates (n : ℕ) :
    COp.scalingBin (· + ·) (.scaling n .int fun _ => 1) (.scaling n .float fun _ => 1 / 2) =
      .ok (.scaling n .int fun _ => 1) := by
  rw [COp.scalingBin, if_neg (not_not.2 rfl)]
  congr 2
  funext _
  rw [castVal, if_pos (by norm_num)]
  have : ⌊(1 : ℝ) + 1 / 2⌋ = 1 := by norm_num [Int.floor_eq_iff]
  rw [this]
  norm_num

end Probnum.Linops.Cast
