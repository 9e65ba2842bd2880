import Verif.RandVars.Lemmas
import Mathlib.Tactic.FieldSimp

/-! Helper lemmas for sums, differences and multiples. -/

namespace Probnum.RandVars

open MeasureTheory ProbabilityTheory Finset Gauss

variable {Ω : Type*} {mΩ : MeasurableSpace Ω} {P : Measure Ω} {X Y : Ω → Arr} {N M N' : Normal}

theorem map_ok {α β : Type} {x : Res α} {f : α → β} {y : β} (h : x.map f = .ok y) : ∃ a, x = .ok a ∧ y = f a := by
  cases x with
  | error e => cases h
  | ok a => cases h; exact ⟨a, rfl, rfl⟩

theorem bind_ok {α β : Type} {x : Res α} {f : α → Res β} {y : β} (h : x.bind f = .ok y) :
    ∃ a, x = .ok a ∧ f a = .ok y := by
  cases x with
  | error e => cases h
  | ok a => exact ⟨a, rfl, h⟩

theorem bin_select_left {g : ℝ → ℝ → ℝ} {α : ℝ} {h : ℝ → ℝ} (hg : ∀ t u, g t u = α * t + h u) {s s' : List ℕ} {c : Arr}
    (hb : bshape s c.shape = .ok s') (hp : s'.prod = s.prod) :
    SelectOp (fun x => x.bin g c) s s' id α (fun i => h (c.bget (unravel s' i))) := by
  intro x hx
  subst hx
  refine ⟨_, Arr.bin_eq hb, rfl, fun i hi => ⟨by rw [← hp]; exact hi, ?_⟩⟩
  show g (x.bget (unravel s' i)) (c.bget (unravel s' i)) = _
  rw [hg, Arr.bget_flat hb hp (by rw [Arr.size, ← hp]; exact hi)]; rfl

theorem bin_select_right {g : ℝ → ℝ → ℝ} {α : ℝ} {h : ℝ → ℝ} (hg : ∀ u t, g u t = α * t + h u) {s s' : List ℕ} {c : Arr}
    (hb : bshape c.shape s = .ok s') (hp : s'.prod = s.prod) :
    SelectOp (fun x => c.bin g x) s s' id α (fun i => h (c.bget (unravel s' i))) := by
  intro x hx
  subst hx
  refine ⟨_, Arr.bin_eq hb, rfl, fun i hi => ⟨by rw [← hp]; exact hi, ?_⟩⟩
  show g (c.bget (unravel s' i)) (x.bget (unravel s' i)) = _
  rw [hg, Arr.bget_flat ((bshape_comm _ _).trans hb) hp (by rw [Arr.size, ← hp]; exact hi)]; rfl

theorem bin_comm {g : ℝ → ℝ → ℝ} (hg : ∀ t u, g t u = g u t) (a b : Arr) : a.bin g b = b.bin g a := by
  unfold Arr.bin
  rw [bshape_comm]
  congr 1
  funext u
  congr 1
  funext idx
  exact hg _ _

theorem shift_root {m : Arr} (h : N.Root) (hs : m.size = N.mean.size) : Normal.Root ⟨m, N.cov, N.chol⟩ := by
  intro L hL
  have := h L hL
  unfold Normal.covAt at *
  rw [hs]
  exact this

/-- Adding a constant (`f` is the operation on values): the common part of the three operators. -/
theorem shift_law {f : Arr → Res Arr} {α : ℝ} (hα : α ^ 2 = 1) (hX : Law P X N) (hN : N.WF) {m : Arr} {R : Normal}
    (hm : f N.mean = .ok m) (hR : mkNormal m N.cov N.chol = .ok R)
    (hf : ∀ s', m.shape = s' → s'.prod = N.mean.shape.prod → ∃ b, SelectOp f N.mean.shape s' id α b) :
    R.WF ∧ (∃ Z : Ω → Arr, (∀ ω, f (X ω) = .ok (Z ω)) ∧ Law P Z R) ∧ (N.Root → R.Root) := by
  obtain ⟨rfl, hW, _, hc, _⟩ := mkNormal_ok hR
  have hp : m.shape.prod = N.mean.shape.prod := expectedCov_inj (hc.symm.trans hN.cov)
  obtain ⟨b, hb⟩ := hf _ rfl hp
  refine ⟨hW, law_select hX hb hm fun i _ j _ => ?_, fun h => shift_root h hp⟩
  rw [hα, one_mul]
  show N.cov.flat (i * m.size + j) = N.cov.flat (i * N.mean.size + j)
  rw [show m.size = N.mean.size from hp]

theorem brev_prod_one : ∀ {s t u : List ℕ}, s.prod = 1 → brev s t = some u → u.prod = t.prod
  | [], t, u, _, h => by simp only [brev, Option.some.injEq] at h; rw [h]
  | a :: s, [], u, h1, h => by simp only [brev, Option.some.injEq] at h; rw [← h, h1]; rfl
  | a :: s, b :: t, u, h1, h => by
    rw [brev] at h
    obtain ⟨e, r, h2, h3, rfl⟩ := consOpt_some h
    rw [List.prod_cons] at h1
    have ha := Nat.eq_one_of_mul_eq_one_right h1
    have hs := Nat.eq_one_of_mul_eq_one_left h1
    rw [List.prod_cons, List.prod_cons, brev_prod_one hs h3]
    congr 1
    rcases bdim_cases h2 with h4 | ⟨_, h4⟩
    · subst ha
      unfold bdim at h2
      split at h2
      · rename_i h5; rw [h4, h5]
      · simp at h2; exact h2.symm
    · exact h4

theorem bshape_prod_one {s t u : List ℕ} (h : s.prod = 1) (hb : bshape s t = .ok u) : u.prod = t.prod := by
  have := brev_prod_one (by rw [List.prod_reverse]; exact h) (bshape_ok hb)
  rwa [List.prod_reverse, List.prod_reverse] at this

/-- Entries of an array scaled by an array with one entry. -/
theorem scale_flat {g : ℝ → ℝ → ℝ} {c a y : Arr} (hc : c.size = 1) (h : c.bin g a = .ok y) {k : ℕ} (hk : k < a.size) :
    y.flat k = g (c.flat 0) (a.flat k) ∧ y.size = a.size := by
  obtain ⟨h1, h2⟩ := Arr.bin_ok h
  have hp := bshape_prod_one hc h1
  refine ⟨?_, hp⟩
  rw [Arr.flat, h2, Arr.bget_single h1 hc, Arr.bget_flat ((bshape_comm _ _).trans h1) hp hk]

theorem scale_size {g : ℝ → ℝ → ℝ} {c a y : Arr} (hc : c.size = 1) (h : c.bin g a = .ok y) : y.size = a.size :=
  bshape_prod_one hc (Arr.bin_ok h).1

theorem bin_swap (g : ℝ → ℝ → ℝ) (a b : Arr) : a.bin g b = b.bin (fun t u => g u t) a := by
  unfold Arr.bin
  rw [bshape_comm]

theorem map_size {f : ℝ → ℝ} {c : Arr} : (c.map f).size = c.size := rfl

theorem map_flat {f : ℝ → ℝ} {c : Arr} (k : ℕ) : (c.map f).flat k = f (c.flat k) := rfl

/-- Multiplying by one number: the common part of `*` and `/`. -/
theorem scale_law {g : ℝ → ℝ → ℝ} {φ : ℝ → ℝ} {c : Arr} {α : ℝ} (hc : c.size = 1) (hg : ∀ t, g (c.flat 0) t = α * t)
    (hg2 : ∀ t, g (φ (c.flat 0)) t = α ^ 2 * t) (hX : Law P X N) (hN : N.WF) {m C : Arr} {L : Option Arr} {R : Normal}
    (hL : mapFactor N.chol (c.bin g) = .ok L) (hm : c.bin g N.mean = .ok m) (hC : (c.map φ).bin g N.cov = .ok C)
    (hR : mkNormal m C L = .ok R) :
    R.WF ∧ (∃ Z : Ω → Arr, (∀ ω, c.bin g (X ω) = .ok (Z ω)) ∧ Law P Z R) ∧ (N.Root → R.Root) := by
  obtain ⟨rfl, hW, _, hcov, _⟩ := mkNormal_ok hR
  have hp : m.size = N.mean.size := scale_size hc hm
  have hCat : ∀ i < N.mean.size, ∀ j < N.mean.size, (⟨m, C, L⟩ : Normal).covAt i j = α ^ 2 * N.covAt i j := by
    intro i hi j hj
    show C.flat (i * m.size + j) = α ^ 2 * N.cov.flat (i * N.mean.size + j)
    rw [hp, (scale_flat (map_size.trans hc) hC (by rw [hN.cov_size]; exact mul_add_lt hi hj)).1, map_flat, hg2]
  refine ⟨hW, ?_, ?_⟩
  · have hsel : SelectOp (fun x => c.bin g x) N.mean.shape m.shape id α (fun _ => 0) := by
      intro x hx
      have hb : bshape c.shape x.shape = .ok m.shape := by rw [hx]; exact (Arr.bin_ok hm).1
      refine ⟨_, Arr.bin_eq hb, rfl, fun i hi => ⟨?_, ?_⟩⟩
      · show i < N.mean.size
        rw [← hp]; exact hi
      · have hxs : i < x.size := by
          rw [Arr.size, hx]
          show i < N.mean.size
          rw [← hp]; exact hi
        rw [(scale_flat hc (Arr.bin_eq (f := g) hb) hxs).1, hg, add_zero]; rfl
    exact law_select hX hsel hm fun i hi j hj => hCat i (hp ▸ (show i < m.size from hi)) j (hp ▸ (show j < m.size from hj))
  · intro hroot L' hL'
    change L = some L' at hL'
    subst hL'
    unfold mapFactor at hL
    cases h : N.chol with
    | none => rw [h] at hL; cases hL
    | some L₀ =>
      rw [h] at hL
      obtain ⟨L₁, h1, h2⟩ := map_ok hL
      cases h2
      obtain ⟨hs, hr⟩ := hroot L₀ h
      refine ⟨?_, fun i hi j hj => ?_⟩
      · show L'.size = m.size * m.size
        rw [scale_size hc h1, hs, hp]
      · change i < m.size at hi
        change j < m.size at hj
        rw [hp] at hi hj
        rw [hCat i hi j hj, ← hr i hi j hj, Finset.mul_sum]
        show ∑ k ∈ range m.size, L'.flat (i * m.size + k) * L'.flat (j * m.size + k) = _
        rw [hp]
        refine Finset.sum_congr rfl fun k hk => ?_
        have hk := mem_range.1 hk
        rw [(scale_flat hc h1 (by rw [hs]; exact mul_add_lt hi hk)).1,
          (scale_flat hc h1 (by rw [hs]; exact mul_add_lt hj hk)).1, hg, hg]
        ring

end Probnum.RandVars
