import Mathlib.Algebra.Order.Star.Real
import Verif.Linops.Build

/-! # Soundness of the flags the constructors set -/

namespace Probnum.Linops

open Finset

/-! ## Invariance -/

theorem IsSym.congr {r c : ℕ} {M N : Mat} (h : Eqv r c M N) : IsSym r c M → IsSym r c N := by
  rintro ⟨rfl, hs⟩
  exact ⟨rfl, ((trn_congr h).symm.trans hs).trans h⟩

theorem IsLow.congr {r c : ℕ} {M N : Mat} (h : Eqv r c M N) (hl : IsLow r c M) : IsLow r c N :=
  fun i hi j hj hij => by rw [← h i hi j hj, hl i hi j hj hij]

theorem IsUp.congr {r c : ℕ} {M N : Mat} (h : Eqv r c M N) (hl : IsUp r c M) : IsUp r c N :=
  fun i hi j hj hij => by rw [← h i hi j hj, hl i hi j hj hij]

theorem IsPd.congr {r c : ℕ} {M N : Mat} (h : Eqv r c M N) : IsPd r c M → IsPd r c N := by
  rintro ⟨rfl, hs⟩
  exact ⟨rfl, by rw [← h.toM]; exact hs⟩

theorem FlagOk.iff {full : Prop} {v : Option Bool} {P Q : Prop} (h : P ↔ Q) (hv : FlagOk full v P) :
    FlagOk full v Q := ⟨fun e => h.1 (hv.1 e), fun f e hq => hv.2 f e (h.2 hq)⟩

theorem FlagOk.none {full : Prop} {P : Prop} : FlagOk full none P :=
  ⟨fun h => (by cases h), fun _ h => (by cases h)⟩

theorem FlagOk.mono {full : Prop} {v w : Option Bool} {P : Prop} (h : w = Option.none ∨ w = v) (hv : FlagOk full v P) :
    FlagOk full w P := by
  rcases h with rfl | rfl
  · exact FlagOk.none
  · exact hv

theorem Sound.congr {full : Prop} {r c : ℕ} {fl : Flags} {M N : Mat} (h : Eqv r c M N) (hs : Sound full r c fl M) :
    Sound full r c fl N :=
  ⟨hs.sym.iff ⟨IsSym.congr h, IsSym.congr h.symm⟩, hs.low.iff ⟨IsLow.congr h, IsLow.congr h.symm⟩,
    hs.up.iff ⟨IsUp.congr h, IsUp.congr h.symm⟩, hs.pd.iff ⟨IsPd.congr h, IsPd.congr h.symm⟩⟩

theorem Sound.mono {full : Prop} {r c : ℕ} {f g : Flags} {M : Mat} (h : f.Le g) (hs : Sound full r c g M) :
    Sound full r c f M := ⟨hs.sym.mono h.sym, hs.low.mono h.low, hs.up.mono h.up, hs.pd.mono h.pd⟩

theorem isSym_trn {r c : ℕ} {M : Mat} : IsSym r c M → IsSym c r (trn M) := by
  rintro ⟨rfl, h⟩
  exact ⟨rfl, trn_congr h⟩

theorem isPd_trn {r c : ℕ} {M : Mat} : IsPd r c M → IsPd c r (trn M) := by
  rintro ⟨rfl, h⟩
  refine ⟨rfl, ?_⟩
  rw [toM_trn]
  exact h.transpose

theorem Sound.trn {full : Prop} {r c : ℕ} {fl : Flags} {M : Mat} (hs : Sound full r c fl M) :
    Sound full c r fl.swap (trn M) :=
  ⟨hs.sym.iff ⟨isSym_trn, isSym_trn⟩,
    hs.up.iff ⟨fun h i hi j hj hij => h j hj i hi hij, fun h i hi j hj hij => h j hj i hi hij⟩,
    hs.low.iff ⟨fun h i hi j hj hij => h j hj i hi hij, fun h i hi j hj hij => h j hj i hi hij⟩,
    hs.pd.iff ⟨isPd_trn, isPd_trn⟩⟩

/-! ## New flags -/

theorem flagOk_base {full : Prop} {r c : ℕ} {M : Mat} : FlagOk full (base r c).fl.sym (IsSym r c M) := by
  constructor
  · intro h
    simp only [base] at h
    split at h <;> cases h
  · intro _ h hs
    simp [base, hs.1] at h

theorem sound_base {full : Prop} {r c : ℕ} {M : Mat} : Sound full r c (base r c).fl M :=
  ⟨flagOk_base, FlagOk.none, FlagOk.none, FlagOk.none⟩

theorem isSym_kronM {r₁ c₁ r₂ c₂ : ℕ} {A B : Mat} : IsSym r₁ c₁ A → IsSym r₂ c₂ B →
    IsSym (r₁ * r₂) (c₁ * c₂) (kronM r₂ c₂ A B) := by
  rintro ⟨rfl, hA⟩ ⟨rfl, hB⟩
  exact ⟨rfl, by rw [trn_kronM]; exact kronM_congr hA hB⟩

theorem isSym_eye (n : ℕ) : IsSym n n eye := ⟨rfl, Eqv.of_eq trn_eye⟩

theorem isSym_add {r c : ℕ} {A B : Mat} : IsSym r c A → IsSym r c B → IsSym r c (A + B) := by
  rintro ⟨rfl, hA⟩ ⟨-, hB⟩
  exact ⟨rfl, add_congr hA hB⟩

theorem isSym_smul {r c : ℕ} {A : Mat} (s : ℝ) : IsSym r c A → IsSym r c (s • A) := by
  rintro ⟨rfl, hA⟩
  exact ⟨rfl, smul_congr s hA⟩

theorem isLow_smul {r c : ℕ} {A : Mat} (s : ℝ) (h : IsLow r c A) : IsLow r c (s • A) :=
  fun i hi j hj hij => by simp [h i hi j hj hij]

theorem isUp_smul {r c : ℕ} {A : Mat} (s : ℝ) (h : IsUp r c A) : IsUp r c (s • A) :=
  fun i hi j hj hij => by simp [h i hi j hj hij]

theorem isPd_smul {r c : ℕ} {A : Mat} {s : ℝ} (hs : 0 < s) : IsPd r c A → IsPd r c (s • A) := by
  rintro ⟨rfl, h⟩
  exact ⟨rfl, h.smul hs⟩

theorem IsPd.diag_pos {n c : ℕ} {M : Mat} (h : IsPd n c M) {i : ℕ} (hi : i < n) : 0 < M i i :=
  h.2.diag_pos (i := ⟨i, hi⟩)

theorem isSym_of_isPd {r c : ℕ} {M : Mat} : IsPd r c M → IsSym r c M := by
  rintro ⟨rfl, h⟩
  refine ⟨rfl, eqv_iff_toM.2 ?_⟩
  have := h.isHermitian.eq
  rwa [Matrix.conjTranspose_eq_transpose_of_trivial] at this

theorem sound_scaled {full : Prop} {r c : ℕ} {fl : Flags} {M : Mat} {s : ℝ} (hr : 0 < r) (hs : full → s ≠ 0)
    (h : Sound full r c fl M) :
    Sound full r c ⟨fl.sym, fl.low, fl.up, if fl.pd = some true then some (decide (0 < s)) else none⟩ (s • M) := by
  have inv : full → s⁻¹ • s • M = M := fun hf => by rw [smul_smul, inv_mul_cancel₀ (hs hf), one_smul]
  refine ⟨⟨fun e => isSym_smul s (h.sym.1 e), fun f e hS => h.sym.2 f e ?_⟩,
    ⟨fun e => isLow_smul s (h.low.1 e), fun f e hS => h.low.2 f e ?_⟩,
    ⟨fun e => isUp_smul s (h.up.1 e), fun f e hS => h.up.2 f e ?_⟩, ?_⟩
  · rw [← inv f]; exact isSym_smul _ hS
  · rw [← inv f]; exact isLow_smul _ hS
  · rw [← inv f]; exact isUp_smul _ hS
  · by_cases hp : fl.pd = some true
    · simp only [if_pos hp]
      have hP := h.pd.1 hp
      constructor
      · intro e
        simp only [Option.some.injEq, decide_eq_true_eq] at e
        exact isPd_smul e hP
      · intro _ e hN
        simp only [Option.some.injEq, decide_eq_false_iff_not, not_lt] at e
        have h1 := hP.diag_pos hr
        have h2 := hN.diag_pos hr
        simp only [Pi.smul_apply, smul_eq_mul] at h2
        nlinarith
    · simp only [if_neg hp]
      exact FlagOk.none

theorem isSym_diag (n : ℕ) (f : ℕ → ℝ) : IsSym n n (fun i j => if i = j then f i else 0) := by
  refine ⟨rfl, fun i _ j _ => ?_⟩
  simp only [trn]
  by_cases h : i = j
  · simp [h]
  · simp [h, Ne.symm h]

theorem isLow_diag (n : ℕ) (f : ℕ → ℝ) : IsLow n n (fun i j => if i = j then f i else 0) :=
  fun i _ j _ hij => if_neg (by omega)

theorem isUp_diag (n : ℕ) (f : ℕ → ℝ) : IsUp n n (fun i j => if i = j then f i else 0) :=
  fun i _ j _ hij => if_neg (by omega)

theorem isPd_diag {n : ℕ} {f : ℕ → ℝ} : IsPd n n (fun i j => if i = j then f i else 0) ↔ ∀ i < n, 0 < f i := by
  constructor
  · intro h i hi
    simpa using h.diag_pos hi
  · intro h
    refine ⟨rfl, ?_⟩
    have : toM n n (fun i j => if i = j then f i else 0) = Matrix.diagonal fun i : Fin n => f i := by
      ext i j
      simp [Matrix.diagonal_apply, Fin.ext_iff]
    rw [this]
    exact Matrix.PosDef.diagonal fun i => h i i.2

theorem sound_scalingIso {full : Prop} {n : ℕ} (hn : 0 < n) (s : ℝ) :
    Sound full n n ⟨some true, some true, some true, some (decide (0 < s))⟩
      (fun i j => if i = j then (fun _ => s) i else 0) := by
  refine ⟨⟨fun _ => isSym_diag n _, fun _ h => (by cases h)⟩, ⟨fun _ => isLow_diag n _, fun _ h => (by cases h)⟩,
    ⟨fun _ => isUp_diag n _, fun _ h => (by cases h)⟩, ?_, ?_⟩
  · intro h
    simp only [Option.some.injEq, decide_eq_true_eq] at h
    exact isPd_diag.2 fun _ _ => h
  · intro _ h hp
    simp only [Option.some.injEq, decide_eq_false_iff_not] at h
    exact h (isPd_diag.1 hp 0 hn)

theorem sound_scalingAniso {full : Prop} {n : ℕ} (f : ℕ → ℝ) :
    Sound full n n ⟨some true, some true, some true, none⟩ (fun i j => if i = j then f i else 0) :=
  ⟨⟨fun _ => isSym_diag n _, fun _ h => (by cases h)⟩, ⟨fun _ => isLow_diag n _, fun _ h => (by cases h)⟩,
    ⟨fun _ => isUp_diag n _, fun _ h => (by cases h)⟩, FlagOk.none⟩

theorem sound_identity {full : Prop} (n : ℕ) : Sound full n n ⟨some true, some true, some true, some true⟩ eye :=
  ⟨⟨fun _ => isSym_eye n, fun _ h => (by cases h)⟩, ⟨fun _ => isLow_diag n _, fun _ h => (by cases h)⟩,
    ⟨fun _ => isUp_diag n _, fun _ h => (by cases h)⟩,
    ⟨fun _ => isPd_diag.2 fun _ _ => one_pos, fun _ h => (by cases h)⟩⟩

theorem sound_zero {full : Prop} {r c : ℕ} (hr : 0 < r) : Sound full r c (mkZero r c).fl 0 := by
  by_cases h : r = c
  · subst h
    simp only [mkZero, if_true, Op.fl, Op.hdr]
    refine ⟨⟨fun _ => ⟨rfl, Eqv.refl _⟩, fun _ h => (by cases h)⟩, ⟨fun _ _ _ _ _ _ => rfl, fun _ h => (by cases h)⟩,
      ⟨fun _ _ _ _ _ _ => rfl, fun _ h => (by cases h)⟩, fun h => by simp at h, fun _ _ hp => ?_⟩
    have := hp.diag_pos hr
    simp at this
  · simp only [mkZero, if_neg h, Op.fl, Op.hdr]
    exact sound_base

theorem sound_symFlag {full : Prop} {r c : ℕ} {P : Prop} [Decidable P] {M : Mat} (h : P → IsSym r c M) :
    Sound full r c { (base r c).fl with sym := if P then some true else (base r c).fl.sym } M := by
  refine ⟨?_, FlagOk.none, FlagOk.none, FlagOk.none⟩
  by_cases hp : P
  · simp only [if_pos hp]
    exact ⟨fun _ => h hp, fun _ h => (by cases h)⟩
  · simp only [if_neg hp]
    exact flagOk_base

/-! ## Sums -/

theorem isSym_denSum {r c : ℕ} (hrc : r = c) : ∀ {l : List Op}, (∀ b ∈ l, IsSym r c (den b)) → IsSym r c (denSum l)
  | [], _ => by subst hrc; exact ⟨rfl, Eqv.refl _⟩
  | a :: l, h => by
    simp only [denSum]
    exact isSym_add (h a (by simp)) (isSym_denSum hrc fun b hb => h b (by simp [hb]))

theorem isLow_denSum {r c : ℕ} : ∀ {l : List Op}, (∀ b ∈ l, IsLow r c (den b)) → IsLow r c (denSum l)
  | [], _ => fun _ _ _ _ _ => rfl
  | a :: l, h => fun i hi j hj hij => by
    simp only [denSum, Pi.add_apply]
    rw [h a (by simp) i hi j hj hij, isLow_denSum (fun b hb => h b (by simp [hb])) i hi j hj hij, add_zero]

theorem isUp_denSum {r c : ℕ} : ∀ {l : List Op}, (∀ b ∈ l, IsUp r c (den b)) → IsUp r c (denSum l)
  | [], _ => fun _ _ _ _ _ => rfl
  | a :: l, h => fun i hi j hj hij => by
    simp only [denSum, Pi.add_apply]
    rw [h a (by simp) i hi j hj hij, isUp_denSum (fun b hb => h b (by simp [hb])) i hi j hj hij, add_zero]

theorem isPd_denSum {r c : ℕ} : ∀ {a : Op} {l : List Op}, (∀ b ∈ a :: l, IsPd r c (den b)) → IsPd r c (denSum (a :: l))
  | a, [], h => by
    simp only [denSum, add_zero]
    exact h a (by simp)
  | a, b :: l, h => by
    have h1 := h a (by simp)
    have h2 := isPd_denSum (a := b) (l := l) fun x hx => h x (List.mem_cons_of_mem _ hx)
    rw [denSum]
    obtain ⟨rfl, h1⟩ := h1
    exact ⟨rfl, by rw [toM_add]; exact h1.add h2.2⟩

theorem sound_sum {full : Prop} {r c : ℕ} {l : List Op} (hne : l ≠ [])
    (h : ∀ b ∈ l, Sound full r c b.fl (den b)) :
    Sound full r c ⟨if ∀ b ∈ l, b.fl.sym = some true then some true else (base r c).fl.sym,
      if ∀ b ∈ l, b.fl.low = some true then some true else none,
      if ∀ b ∈ l, b.fl.up = some true then some true else none,
      if ∀ b ∈ l, b.fl.pd = some true then some true else none⟩ (denSum l) := by
  obtain ⟨a, t, rfl⟩ := List.exists_cons_of_ne_nil hne
  refine ⟨?_, ?_, ?_, ?_⟩
  · by_cases hp : ∀ b ∈ a :: t, b.fl.sym = some true
    · simp only [if_pos hp]
      have : ∀ b ∈ a :: t, IsSym r c (den b) := fun b hb => (h b hb).sym.1 (hp b hb)
      exact ⟨fun _ => isSym_denSum (this a (by simp)).1 this, fun _ h => (by cases h)⟩
    · simp only [if_neg hp]
      exact flagOk_base
  · by_cases hp : ∀ b ∈ a :: t, b.fl.low = some true
    · simp only [if_pos hp]
      exact ⟨fun _ => isLow_denSum fun b hb => (h b hb).low.1 (hp b hb), fun _ h => (by cases h)⟩
    · simp only [if_neg hp]
      exact FlagOk.none
  · by_cases hp : ∀ b ∈ a :: t, b.fl.up = some true
    · simp only [if_pos hp]
      exact ⟨fun _ => isUp_denSum fun b hb => (h b hb).up.1 (hp b hb), fun _ h => (by cases h)⟩
    · simp only [if_neg hp]
      exact FlagOk.none
  · by_cases hp : ∀ b ∈ a :: t, b.fl.pd = some true
    · simp only [if_pos hp]
      exact ⟨fun _ => isPd_denSum fun b hb => (h b hb).pd.1 (hp b hb), fun _ h => (by cases h)⟩
    · simp only [if_neg hp]
      exact FlagOk.none

/-! ## Inverses -/

theorem invM_invM {n : ℕ} {A : Mat} (h : detM n A ≠ 0) : Eqv n n (invM n (invM n A)) A :=
  (eqv_invM_of_left (mmul_invM h)).symm

theorem isSym_invM {n : ℕ} {A : Mat} : IsSym n n A → IsSym n n (invM n A) := by
  rintro ⟨-, h⟩
  exact ⟨rfl, (trn_invM n A).trans (Eqv.of_eq (invM_congr h))⟩

theorem isPd_invM {n : ℕ} {A : Mat} : IsPd n n A → IsPd n n (invM n A) := by
  rintro ⟨-, h⟩
  exact ⟨rfl, by rw [toM_invM]; exact h.inv⟩

theorem sound_inverse {full : Prop} {n : ℕ} {fl : Flags} {A : Mat} (hd : detM n A ≠ 0) (h : Sound full n n fl A) :
    Sound full n n ⟨fl.sym, none, none, fl.pd⟩ (invM n A) := by
  refine ⟨h.sym.iff ⟨isSym_invM, fun hs => ?_⟩, FlagOk.none, FlagOk.none, h.pd.iff ⟨isPd_invM, fun hs => ?_⟩⟩
  · exact (isSym_invM hs).congr (invM_invM hd)
  · exact (isPd_invM hs).congr (invM_invM hd)

/-! ## Block-diagonal matrices with square blocks -/

theorem denBlock_cons (a : Op) (l : List Op) (i j : ℕ) : denBlock (a :: l) i j =
    if i < a.rows then (if j < a.cols then den a i j else 0)
    else (if j < a.cols then 0 else denBlock l (i - a.rows) (j - a.cols)) := by
  simp only [denBlock]

/-- Rows and columns of the first block. -/
theorem denBlock_head {a : Op} {l : List Op} {i j : ℕ} (hi : i < a.rows) (hj : j < a.cols) :
    denBlock (a :: l) i j = den a i j := by
  rw [denBlock_cons, if_pos hi, if_pos hj]

theorem denBlock_tail (a : Op) (l : List Op) (i j : ℕ) :
    denBlock (a :: l) (a.rows + i) (a.cols + j) = denBlock l i j := by
  rw [denBlock_cons, if_neg (by omega), if_neg (by omega)]
  congr 1 <;> omega

theorem denBlock_off {a : Op} {l : List Op} {i j : ℕ} (h : (i < a.rows ∧ a.cols ≤ j) ∨ (a.rows ≤ i ∧ j < a.cols)) :
    denBlock (a :: l) i j = 0 := by
  rw [denBlock_cons]
  rcases h with ⟨h1, h2⟩ | ⟨h1, h2⟩
  · rw [if_pos h1, if_neg (by omega)]
  · rw [if_neg (by omega), if_pos h2]

/-- The sum of the rows of a list of square blocks. -/
abbrev dimB (l : List Op) : ℕ := (l.map Op.rows).sum

theorem isSym_block : ∀ {l : List Op}, (∀ b ∈ l, b.rows = b.cols) →
    (IsSym (dimB l) (dimB l) (denBlock l) ↔ ∀ b ∈ l, IsSym b.rows b.cols (den b))
  | [], _ => by simp [IsSym, dimB, Eqv]
  | a :: l, hsq => by
    have ha := hsq a (by simp)
    have ih := isSym_block (l := l) fun b hb => hsq b (by simp [hb])
    simp only [List.forall_mem_cons]
    rw [← ih]
    simp only [dimB, List.map_cons, List.sum_cons]
    constructor
    · rintro ⟨-, h⟩
      refine ⟨⟨ha, fun i hi j hj => ?_⟩, rfl, fun i hi j hj => ?_⟩
      · have := h i (by omega) j (by omega)
        simp only [trn] at this ⊢
        rwa [denBlock_head (by omega) (by omega), denBlock_head (by omega) (by omega)] at this
      · have := h (a.rows + i) (by omega) (a.rows + j) (by omega)
        simp only [trn] at this ⊢
        rw [ha] at this
        rw [← denBlock_tail a l i j, ← denBlock_tail a l j i, ha]
        exact this
    · rintro ⟨⟨-, h1⟩, -, h2⟩
      refine ⟨rfl, fun i hi j hj => ?_⟩
      simp only [trn, denBlock_cons]
      by_cases h3 : i < a.rows <;> by_cases h4 : j < a.rows
      · rw [if_pos h4, if_pos (by omega), if_pos h3, if_pos (by omega)]
        exact h1 i h3 j h4
      · rw [if_neg h4, if_pos (by omega), if_pos h3, if_neg (by omega)]
      · rw [if_pos h4, if_neg (by omega), if_neg h3, if_pos (by omega)]
      · rw [if_neg h4, if_neg (by omega), if_neg h3, if_neg (by omega), ← ha]
        exact h2 (i - a.rows) (by omega) (j - a.rows) (by omega)

theorem isLow_block : ∀ {l : List Op}, (∀ b ∈ l, b.rows = b.cols) →
    (IsLow (dimB l) (dimB l) (denBlock l) ↔ ∀ b ∈ l, IsLow b.rows b.cols (den b))
  | [], _ => by simp [IsLow, dimB]
  | a :: l, hsq => by
    have ha := hsq a (by simp)
    have ih := isLow_block (l := l) fun b hb => hsq b (by simp [hb])
    simp only [List.forall_mem_cons]
    rw [← ih]
    simp only [dimB, List.map_cons, List.sum_cons]
    constructor
    · intro h
      refine ⟨fun i hi j hj hij => ?_, fun i hi j hj hij => ?_⟩
      · have := h i (by omega) j (by omega) hij
        rwa [denBlock_head (by omega) (by omega)] at this
      · have := h (a.rows + i) (by omega) (a.cols + j) (by omega) (by omega)
        rwa [denBlock_tail] at this
    · rintro ⟨h1, h2⟩ i hi j hj hij
      rw [denBlock_cons]
      by_cases h3 : i < a.rows <;> by_cases h4 : j < a.cols
      · rw [if_pos h3, if_pos h4]
        exact h1 i h3 j h4 hij
      · rw [if_pos h3, if_neg h4]
      · rw [if_neg h3, if_pos h4]
      · rw [if_neg h3, if_neg h4]
        exact h2 _ (by omega) _ (by omega) (by omega)

theorem isUp_block : ∀ {l : List Op}, (∀ b ∈ l, b.rows = b.cols) →
    (IsUp (dimB l) (dimB l) (denBlock l) ↔ ∀ b ∈ l, IsUp b.rows b.cols (den b))
  | [], _ => by simp [IsUp, dimB]
  | a :: l, hsq => by
    have ha := hsq a (by simp)
    have ih := isUp_block (l := l) fun b hb => hsq b (by simp [hb])
    simp only [List.forall_mem_cons]
    rw [← ih]
    simp only [dimB, List.map_cons, List.sum_cons]
    constructor
    · intro h
      refine ⟨fun i hi j hj hij => ?_, fun i hi j hj hij => ?_⟩
      · have := h i (by omega) j (by omega) hij
        rwa [denBlock_head (by omega) (by omega)] at this
      · have := h (a.rows + i) (by omega) (a.cols + j) (by omega) (by omega)
        rwa [denBlock_tail] at this
    · rintro ⟨h1, h2⟩ i hi j hj hij
      rw [denBlock_cons]
      by_cases h3 : i < a.rows <;> by_cases h4 : j < a.cols
      · rw [if_pos h3, if_pos h4]
        exact h1 i h3 j h4 hij
      · rw [if_pos h3, if_neg h4]
      · rw [if_neg h3, if_pos h4]
      · rw [if_neg h3, if_neg h4]
        exact h2 _ (by omega) _ (by omega) (by omega)

/-- Positive definiteness in terms of entries. -/
theorem isPd_iff {n : ℕ} {M : Mat} : IsPd n n M ↔ IsSym n n M ∧
    ∀ x : ℕ → ℝ, (∃ i < n, x i ≠ 0) → 0 < ∑ i ∈ range n, ∑ j ∈ range n, x i * M i j * x j := by
  have key : ∀ x : ℕ → ℝ, ∑ i ∈ range n, ∑ j ∈ range n, x i * M i j * x j =
      star (fun i : Fin n => x i) ⬝ᵥ (toM n n M).mulVec (fun i : Fin n => x i) := by
    intro x
    simp only [dotProduct, Matrix.mulVec, toM_apply, Finset.mul_sum, Finset.sum_range, star_trivial]
    exact Finset.sum_congr rfl fun i _ => Finset.sum_congr rfl fun j _ => by ring
  constructor
  · intro h
    refine ⟨isSym_of_isPd h, fun x ⟨i, hi, hx⟩ => ?_⟩
    rw [key]
    exact h.2.dotProduct_mulVec_pos fun h0 => hx (congrFun h0 ⟨i, hi⟩)
  · rintro ⟨⟨-, hs⟩, h⟩
    refine ⟨rfl, Matrix.PosDef.of_dotProduct_mulVec_pos ?_ ?_⟩
    · have := hs.toM
      rw [toM_trn] at this
      rw [Matrix.IsHermitian, Matrix.conjTranspose_eq_transpose_of_trivial]
      exact this
    · intro x hx
      let y : ℕ → ℝ := fun i => if hi : i < n then x ⟨i, hi⟩ else 0
      have hy : (fun i : Fin n => y i) = x := by
        funext i
        simp [y]
      have := h y (by
        by_contra hall
        push Not at hall
        exact hx (by funext i; rw [← hy]; exact hall i i.2))
      rw [key, hy] at this
      exact this

theorem quad_block (a : Op) (l : List Op) (ha : a.rows = a.cols) (x : ℕ → ℝ) :
    ∑ i ∈ range (a.rows + dimB l), ∑ j ∈ range (a.rows + dimB l), x i * denBlock (a :: l) i j * x j
      = ∑ i ∈ range a.rows, ∑ j ∈ range a.rows, x i * den a i j * x j
        + ∑ i ∈ range (dimB l), ∑ j ∈ range (dimB l), x (a.rows + i) * denBlock l i j * x (a.rows + j) := by
  rw [Finset.sum_range_add]
  congr 1
  · refine Finset.sum_congr rfl fun i hi => ?_
    rw [Finset.mem_range] at hi
    rw [Finset.sum_range_add, Finset.sum_eq_zero (s := range (dimB l)), add_zero]
    · refine Finset.sum_congr rfl fun j hj => ?_
      rw [Finset.mem_range] at hj
      rw [denBlock_head hi (by omega)]
    · intro j _
      rw [denBlock_off (.inl ⟨hi, by omega⟩)]
      ring
  · refine Finset.sum_congr rfl fun i hi => ?_
    rw [Finset.sum_range_add, Finset.sum_eq_zero (s := range a.rows), zero_add]
    · refine Finset.sum_congr rfl fun j hj => ?_
      have := denBlock_tail a l i j
      rw [← ha] at this
      rw [this]
    · intro j hj
      rw [Finset.mem_range] at hj
      rw [denBlock_off (.inr ⟨by omega, by omega⟩)]
      ring

theorem isPd_block : ∀ {l : List Op}, (∀ b ∈ l, b.rows = b.cols) →
    (IsPd (dimB l) (dimB l) (denBlock l) ↔ ∀ b ∈ l, IsPd b.rows b.cols (den b))
  | [], _ => by
    simp only [List.not_mem_nil, false_imp_iff, implies_true, iff_true]
    refine isPd_iff.2 ⟨⟨rfl, fun i hi => ?_⟩, fun x ⟨i, hi, _⟩ => ?_⟩
    · simp [dimB] at hi
    · simp [dimB] at hi
  | a :: l, hsq => by
    have ha := hsq a (by simp)
    have hsq' : ∀ b ∈ l, b.rows = b.cols := fun b hb => hsq b (by simp [hb])
    have ih := isPd_block (l := l) hsq'
    have hS := isSym_block hsq
    have hS' := isSym_block hsq'
    simp only [List.forall_mem_cons] at hS ⊢
    rw [← ih, ← ha, isPd_iff, isPd_iff, isPd_iff, hS, hS', ← ha]
    simp only [dimB, List.map_cons, List.sum_cons]
    constructor
    · rintro ⟨⟨h1, h2⟩, h⟩
      refine ⟨⟨h1, fun x ⟨i, hi, hx⟩ => ?_⟩, ⟨h2, fun x ⟨i, hi, hx⟩ => ?_⟩⟩
      · have := h (fun j => if j < a.rows then x j else 0) ⟨i, by omega, by simpa [hi] using hx⟩
        rw [quad_block a l ha, Finset.sum_eq_zero (s := range (dimB l)), add_zero] at this
        · refine lt_of_lt_of_eq this (Finset.sum_congr rfl fun i hi => Finset.sum_congr rfl fun j hj => ?_)
          rw [Finset.mem_range] at hi hj
          simp [hi, hj]
        · intro i _
          refine Finset.sum_eq_zero fun j _ => ?_
          simp
      · have := h (fun j => if j < a.rows then 0 else x (j - a.rows)) ⟨a.rows + i, by omega, by simpa using hx⟩
        rw [quad_block a l ha, Finset.sum_eq_zero (s := range a.rows), zero_add] at this
        · simpa using this
        · intro i hi
          rw [Finset.mem_range] at hi
          refine Finset.sum_eq_zero fun j _ => ?_
          simp [hi]
    · rintro ⟨⟨h1, h2⟩, h3, h4⟩
      refine ⟨⟨h1, h3⟩, fun x ⟨i, hi, hx⟩ => ?_⟩
      rw [quad_block a l ha]
      have nn1 : 0 ≤ ∑ i ∈ range a.rows, ∑ j ∈ range a.rows, x i * den a i j * x j := by
        by_cases hz : ∃ i < a.rows, x i ≠ 0
        · exact (h2 x hz).le
        · push Not at hz
          refine le_of_eq (Finset.sum_eq_zero fun i hi => Finset.sum_eq_zero fun j _ => ?_).symm
          rw [hz i (Finset.mem_range.1 hi)]
          ring
      have nn2 : 0 ≤ ∑ i ∈ range (dimB l), ∑ j ∈ range (dimB l), x (a.rows + i) * denBlock l i j * x (a.rows + j) := by
        by_cases hz : ∃ i < dimB l, x (a.rows + i) ≠ 0
        · exact (h4 (fun i => x (a.rows + i)) hz).le
        · push Not at hz
          refine le_of_eq (Finset.sum_eq_zero fun i hi => Finset.sum_eq_zero fun j _ => ?_).symm
          rw [hz i (Finset.mem_range.1 hi)]
          ring
      by_cases hia : i < a.rows
      · exact add_pos_of_pos_of_nonneg (h2 x ⟨i, hia, hx⟩) nn2
      · refine add_pos_of_nonneg_of_pos nn1 (h4 (fun i => x (a.rows + i)) ⟨i - a.rows, by omega, ?_⟩)
        simpa [show a.rows + (i - a.rows) = i by omega] using hx

theorem flagOk_infer {full : Prop} {p : Op → Option Bool} {l : List Op} {P : Op → Prop} {Q : Prop}
    (h : ∀ b ∈ l, FlagOk full (p b) (P b)) (hQ : Q ↔ ∀ b ∈ l, P b) : FlagOk full (inferProp p l) Q := by
  constructor
  · intro e
    rw [inferProp_true] at e
    exact hQ.2 fun b hb => (h b hb).1 (e b hb)
  · intro hf e hq
    obtain ⟨b, hb, hbf⟩ := inferProp_false e
    exact (h b hb).2 hf hbf (hQ.1 hq b hb)

theorem sound_block {full : Prop} {l : List Op} (hsq : ∀ b ∈ l, b.rows = b.cols)
    (h : ∀ b ∈ l, Sound full b.rows b.cols b.fl (den b)) :
    Sound full (dimB l) (dimB l) ⟨inferProp (fun b => b.fl.sym) l, inferProp (fun b => b.fl.low) l,
      inferProp (fun b => b.fl.up) l, inferProp (fun b => b.fl.pd) l⟩ (denBlock l) :=
  ⟨flagOk_infer (fun b hb => (h b hb).sym) (isSym_block hsq), flagOk_infer (fun b hb => (h b hb).low) (isLow_block hsq),
    flagOk_infer (fun b hb => (h b hb).up) (isUp_block hsq), flagOk_infer (fun b hb => (h b hb).pd) (isPd_block hsq)⟩

end Probnum.Linops
