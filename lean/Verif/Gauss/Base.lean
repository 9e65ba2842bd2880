import Verif.Gauss.Conditional

/-!
# Helper lemmas: functions of a standard normal base sample
-/

namespace Probnum.Gauss

open MeasureTheory ProbabilityTheory Matrix

/-- The law of a standard normal base sample indexed by `ι`. -/
noncomputable abbrev stdBase (ι : Type*) [Fintype ι] : Measure (ι → ℝ) := Measure.pi fun _ : ι => gaussianReal 0 1

/-- `F` reads only the entries in `S`. -/
def Reads {ι α : Type*} (F : (ι → ℝ) → α) (S : Finset ι) : Prop := ∀ x y : ι → ℝ, (∀ i ∈ S, x i = y i) → F x = F y

theorem Reads.mono {ι α : Type*} {F : (ι → ℝ) → α} {S T : Finset ι} (h : Reads F S) (hST : S ⊆ T) : Reads F T :=
  fun x y hxy => h x y fun i hi => hxy i (hST hi)

theorem Reads.comp {ι α β : Type*} {F : (ι → ℝ) → α} {S : Finset ι} (h : Reads F S) (g : α → β) :
    Reads (fun x => g (F x)) S := fun x y hxy => by simp only [h x y hxy]

theorem Reads.prod {ι α β : Type*} {F : (ι → ℝ) → α} {G : (ι → ℝ) → β} {S : Finset ι} (hF : Reads F S)
    (hG : Reads G S) : Reads (fun x => (F x, G x)) S := fun x y hxy => by simp only [hF x y hxy, hG x y hxy]

theorem Reads.pi {ι α κ : Type*} {F : κ → (ι → ℝ) → α} {S : Finset ι} (hF : ∀ k, Reads (F k) S) :
    Reads (fun x k => F k x) S := fun x y hxy => funext fun k => hF k x y hxy

theorem Reads.map₂ {ι α β γ : Type*} {F : (ι → ℝ) → α} {G : (ι → ℝ) → β} {S : Finset ι} (hF : Reads F S)
    (hG : Reads G S) (g : α → β → γ) : Reads (fun x => g (F x) (G x)) S :=
  fun x y hxy => by simp only [hF x y hxy, hG x y hxy]

/-- Functions of disjoint parts of the base sample are independent. -/
theorem base_indep {ι : Type*} [Fintype ι] {α β : Type*} [MeasurableSpace α] [MeasurableSpace β]
    {F : (ι → ℝ) → α} {G : (ι → ℝ) → β} {S T : Finset ι} (hST : Disjoint S T) (hF : Measurable F) (hG : Measurable G)
    (hFS : Reads F S) (hGT : Reads G T) : IndepFun F G (stdBase ι) := by
  classical
  have hi : iIndepFun (fun (i : ι) (x : ι → ℝ) => x i) (stdBase ι) :=
    iIndepFun_pi (X := fun _ x => x) (fun _ => aemeasurable_id)
  have h := hi.indepFun_finset S T hST (fun i => measurable_pi_apply i)
  let ext : (S : Finset ι) → (S → ℝ) → ι → ℝ := fun S u i => if h : i ∈ S then u ⟨i, h⟩ else 0
  have hext : ∀ S : Finset ι, Measurable (ext S) := by
    intro S
    rw [measurable_pi_iff]
    intro i
    by_cases h : i ∈ S
    · simp only [ext, h, dite_true]; exact measurable_pi_apply _
    · simp only [ext, h, dite_false]; exact measurable_const
  have h2 := h.comp (hF.comp (hext S)) (hG.comp (hext T))
  have e1 : (F ∘ ext S) ∘ (fun (a : ι → ℝ) (i : S) => a i) = F := by
    funext x
    refine hFS _ _ fun i hi => ?_
    simp [ext, hi]
  have e2 : (G ∘ ext T) ∘ (fun (a : ι → ℝ) (i : T) => a i) = G := by
    funext x
    refine hGT _ _ fun i hi => ?_
    simp [ext, hi]
  rw [e1, e2] at h2
  exact h2

/-- Selecting entries of the base sample along an injection gives a standard normal vector. -/
theorem base_select {ι κ : Type*} [Fintype ι] [Fintype κ] [DecidableEq ι] [DecidableEq κ] (e : κ → ι)
    (he : Function.Injective e) : IsNormal (stdBase ι) (fun x k => x (e k)) 0 1 := by
  have h := (std_isNormal ι).affine (Matrix.of fun k i => if e k = i then (1 : ℝ) else 0 : Matrix κ ι ℝ) 0
  have e1 : ∀ x : ι → ℝ, (Matrix.of fun k i => if e k = i then (1 : ℝ) else 0 : Matrix κ ι ℝ) *ᵥ x + 0
      = fun k => x (e k) := by
    intro x; ext k; simp [Matrix.mulVec, dotProduct]
  have e2 : (Matrix.of fun k i => if e k = i then (1 : ℝ) else 0 : Matrix κ ι ℝ) * (1 : Matrix ι ι ℝ)
      * (Matrix.of fun k i => if e k = i then (1 : ℝ) else 0 : Matrix κ ι ℝ)ᵀ = 1 := by
    ext k l
    simp only [Matrix.mul_one, Matrix.mul_apply, Matrix.of_apply, Matrix.transpose_apply]
    by_cases hkl : k = l
    · subst hkl; simp
    · rw [Matrix.one_apply_ne hkl]
      refine Finset.sum_eq_zero fun i _ => ?_
      by_cases h1 : e k = i
      · have : e l ≠ i := fun h2 => hkl (he (h1.trans h2.symm))
        simp [this]
      · simp [h1]
  simpa only [e1, e2, Matrix.mulVec_zero, zero_add] using h

/-- `c + L z` for selected entries `z` is `N(c, L Lᵀ)`. -/
theorem base_normal {ι κ μ : Type*} [Fintype ι] [Fintype κ] [Fintype μ] [DecidableEq ι] [DecidableEq κ] (e : κ → ι)
    (he : Function.Injective e) (L : Matrix μ κ ℝ) (c : μ → ℝ) :
    IsNormal (stdBase ι) (fun x => L *ᵥ (fun k => x (e k)) + c) c (L * Lᵀ) := by
  have := (base_select e he).affine L c
  simpa using this

end Probnum.Gauss
