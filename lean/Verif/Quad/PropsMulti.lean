import Verif.Quad.PropsFront

/-! # Property C80, continued: multilevel Bayesian quadrature -/

namespace Probnum.Quad

open Probnum Probnum.Linops Probnum.Cov Finset MeasureTheory ProbabilityTheory Probnum.Gauss
open scoped Matrix

/-! ## Specification -/

/-- The nodes of a level: those given for the level, or the only ones given. -/
def levelNodes {X : Type} (nodes : List X) (l : ℕ) : Option X := if nodes.length = 1 then nodes[0]? else nodes[l]?

/-- The kernel of a level; `none`: the default. -/
def levelKernel (kernels : Option (List AnyKernel)) (l : ℕ) : Option AnyKernel := kernels.bind fun ks => ks[l]?

/-! ## The loop -/

theorem levels_iff {D : ℕ} {measure : Option SomeMeasure} {domain : Option (List (Arr ℝ))} {o : Options} :
    ∀ (ls : List (Rows (Fin D → ℝ) × Rows ℝ × Option AnyKernel)) (b : ℝ × ℝ) (infos : List Info) (r : (ℝ × ℝ) × List Info),
      levels measure domain o ls b infos = .ok r ↔
        ∃ rs : List ((ℝ × ℝ) × Info), rs.length = ls.length ∧
          (∀ (i : ℕ) (h : i < ls.length) (h' : i < rs.length),
            bayesquadFromData ls[i].1 ls[i].2.1 ls[i].2.2 measure domain o = .ok rs[i]) ∧
          r = ((b.1 + (rs.map fun q => q.1.1).sum, b.2 + (rs.map fun q => q.1.2).sum), infos ++ rs.map fun q => q.2)
  | [], b, infos, r => by
    rw [levels]
    constructor
    · intro h
      cases h
      exact ⟨[], rfl, fun i h => absurd h (Nat.not_lt_zero _), by simp⟩
    · rintro ⟨rs, h1, _, h3⟩
      rw [List.length_nil, List.length_eq_zero_iff] at h1
      subst h1
      rw [h3]
      simp
  | (x, y, k) :: rest, b, infos, r => by
    rw [levels]
    cases hb : bayesquadFromData x y k measure domain o with
    | error e =>
      refine ⟨fun h => (by cases h), ?_⟩
      rintro ⟨rs, h1, h2, _⟩
      have h2 := h2 0 (by simp) (by rw [h1]; simp)
      rw [List.getElem_cons_zero, hb] at h2
      cases h2
    | ok q =>
      obtain ⟨bl, il⟩ := q
      dsimp only
      rw [levels_iff rest]
      constructor
      · rintro ⟨rs, h1, h2, rfl⟩
        refine ⟨(bl, il) :: rs, by simp [h1], fun i h h' => ?_, ?_⟩
        · cases i with
          | zero => simpa using hb
          | succ i => simpa using h2 i (by simpa using h) (by simpa using h')
        · simp [add_assoc]
      · rintro ⟨rs, h1, h2, h3⟩
        cases rs with
        | nil => simp at h1
        | cons q rs =>
          have hq := h2 0 (by simp) (by simp)
          simp only [List.getElem_cons_zero] at hq
          rw [hb] at hq
          obtain rfl := Except.ok.inj hq
          refine ⟨rs, by simpa using h1, fun i h h' => ?_, ?_⟩
          · exact h2 (i + 1) (by simpa using h) (by simpa using h')
          · rw [h3]
            simp [add_assoc]

/-- **C80.**  What `multilevel_bayesquad_from_data` returns: the sums of the means and the variances of the levels, and the
information of each; the number of nodes and kernels has to be that of the function values, except that one set of nodes is
used for all levels. -/
theorem multilevel_iff {D : ℕ} (nodes : List (Rows (Fin D → ℝ))) (evals : List (Rows ℝ)) (kernels : Option (List AnyKernel))
    (measure : Option SomeMeasure) (domain : Option (List (Arr ℝ))) (o : Options) (r : (ℝ × ℝ) × List Info) :
    multilevelFromData nodes evals kernels measure domain o = .ok r ↔
      (nodes.length = 1 ∨ nodes.length = evals.length) ∧ (∀ ks, kernels = some ks → ks.length = evals.length) ∧
      ∃ rs : Fin evals.length → (ℝ × ℝ) × Info,
        (∀ l : Fin evals.length, ∃ x, levelNodes nodes l = some x ∧
          bayesquadFromData x evals[l] (levelKernel kernels l) measure domain o = .ok (rs l)) ∧
        r = ((∑ l, (rs l).1.1, ∑ l, (rs l).1.2), List.ofFn fun l => (rs l).2) := by
  let n := evals.length
  let ks : List (Option AnyKernel) := match kernels with | none => List.replicate n none | some ks => ks.map some
  let xs := match nodes with | [x] => List.replicate n x | xs => xs
  have hks : ks.length = n ↔ ∀ ks, kernels = some ks → ks.length = evals.length := by
    cases kernels with
    | none => simp [ks]
    | some ks' => simp [ks, n]
  have hxs : xs.length = n ↔ (nodes.length = 1 ∨ nodes.length = evals.length) := by
    rcases nodes with _ | ⟨x, _ | ⟨y, t⟩⟩ <;> simp [xs, n]
  have hkl : ks.length = n → ∀ (i : ℕ) (h : i < ks.length), ks[i] = levelKernel kernels i := by
    intro hl i h
    cases kernels with
    | none => simp [ks, levelKernel]
    | some ks' =>
      have : i < ks'.length := by simpa [ks] using h
      simp [ks, levelKernel, List.getElem?_eq_getElem this]
  have hxl : xs.length = n → ∀ (i : ℕ) (h : i < xs.length), some xs[i] = levelNodes nodes i := by
    intro hl i h
    rcases nodes with _ | ⟨x, _ | ⟨y, t⟩⟩
    · simp [xs] at h
    · simp [xs, levelNodes]
    · have h' : i < (x :: y :: t).length := h
      rw [levelNodes, if_neg (by simp), List.getElem?_eq_getElem h']
  have e : multilevelFromData nodes evals kernels measure domain o =
      if xs.length = n ∧ n = ks.length then levels measure domain o (xs.zip (evals.zip ks)) (0, 0) [] else .error .valueError := rfl
  rw [e]
  by_cases hc : xs.length = n ∧ n = ks.length
  · rw [if_pos hc, levels_iff]
    obtain ⟨c1, c2⟩ := hc
    have hlen : (xs.zip (evals.zip ks)).length = n := by
      rw [List.length_zip, List.length_zip]
      show min xs.length (min n ks.length) = n
      omega
    have hget : ∀ (i : ℕ) (h : i < (xs.zip (evals.zip ks)).length) (h1 : i < evals.length) (h2 : i < xs.length),
        (xs.zip (evals.zip ks))[i] = (xs[i], evals[i], levelKernel kernels i) := by
      intro i h h1 h2
      rw [List.getElem_zip, List.getElem_zip, hkl c2.symm]
    constructor
    · rintro ⟨rs, h1, h2, h3⟩
      refine ⟨hxs.1 c1, hks.1 c2.symm, fun l => rs[l]'(by rw [h1, hlen]; exact l.2), fun l => ?_, ?_⟩
      · have hl : (l : ℕ) < n := l.2
        have hx : (l : ℕ) < xs.length := by omega
        refine ⟨xs[l], (hxl c1 l hx).symm, ?_⟩
        have := h2 l (by omega) (by omega)
        rw [hget l (by omega) l.2 hx] at this
        exact this
      · rw [h3]
        have hrs : rs = List.ofFn fun l : Fin n => rs[l]'(by rw [h1, hlen]; exact l.2) := by
          refine List.ext_getElem (by simp; omega) fun i h h' => ?_
          simp
        have s1 : ∀ f : (ℝ × ℝ) × Info → ℝ, (rs.map f).sum = ∑ l : Fin n, f (rs[l]'(by rw [h1, hlen]; exact l.2)) := by
          intro f
          conv_lhs => rw [hrs]
          rw [List.map_ofFn, List.sum_ofFn]
          rfl
        rw [s1, s1]
        simp only [zero_add, List.nil_append]
        congr 1
        conv_lhs => rw [hrs]
        rw [List.map_ofFn]
        rfl
    · rintro ⟨_, _, rs, h1, h2⟩
      refine ⟨List.ofFn rs, by simp [hlen, n], fun i h h' => ?_, ?_⟩
      · have hi : i < evals.length := by omega
        have hx : i < xs.length := by omega
        rw [hget i h hi hx]
        obtain ⟨x, hx1, hx2⟩ := h1 ⟨i, hi⟩
        rw [← hxl c1 i hx] at hx1
        cases hx1
        simpa using hx2
      · rw [h2, List.map_ofFn, List.map_ofFn, List.map_ofFn, List.sum_ofFn, List.sum_ofFn]
        simp only [zero_add, List.nil_append]
        rfl
  · rw [if_neg hc]
    refine ⟨fun h => (by cases h), ?_⟩
    rintro ⟨h1, h2, _⟩
    exact absurd ⟨hxs.2 h1, (hks.2 h2).symm⟩ hc

/-- **C80.**  A wrong number of nodes or kernels is a ValueError. -/
theorem multilevel_rejects {D : ℕ} (nodes : List (Rows (Fin D → ℝ))) (evals : List (Rows ℝ)) (kernels : Option (List AnyKernel))
    (measure : Option SomeMeasure) (domain : Option (List (Arr ℝ))) (o : Options)
    (h : (nodes.length ≠ 1 ∧ nodes.length ≠ evals.length) ∨ ∃ ks, kernels = some ks ∧ ks.length ≠ evals.length) :
    multilevelFromData nodes evals kernels measure domain o = .error .valueError := by
  unfold multilevelFromData
  refine if_neg ?_
  rintro ⟨h1, h2⟩
  rcases h with ⟨h3, h4⟩ | ⟨ks, rfl, h3⟩
  · rcases nodes with _ | ⟨x, _ | ⟨y, t⟩⟩
    · exact h4 h1
    · exact h3 rfl
    · exact h4 h1
  · exact h3 (by simpa using h2.symm)

/-! ## The belief -/

theorem from_data_problem {D : ℕ} {nodes : Rows (Fin D → ℝ)} {evals : Rows ℝ} {kernel : Option AnyKernel}
    {measure : Option SomeMeasure} {domain : Option (List (Arr ℝ))} {o : Options} {r : (ℝ × ℝ) × Info}
    (h : bayesquadFromData nodes evals kernel measure domain o = .ok r) {m : AnyMeasure D} {w : Bool}
    (hc : checkCompat D domain measure = .ok (⟨D, m⟩, w)) :
    ∃ P : Problem (Fin D → ℝ), problemOf (kernel.getD (defaultKernel D)) ⟨D, m⟩ = .ok P := by
  rw [from_data_eq, hc] at h
  split at h
  · cases h
  dsimp only at h
  split at h
  · cases h
  split at h
  · cases h
  split at h
  · cases h
  · next P hP => exact ⟨P, hP⟩

/-- Integrals and observations on the levels are independent. -/
theorem levels_independent {Ω X L : Type} [MeasurableSpace Ω] [MeasurableSpace X] [Fintype L] {n : L → ℕ}
    {Q : Measure Ω} {g : L → X → Ω → ℝ} {e : ∀ l, Fin (n l) → Ω → ℝ} {c : L → X → X → ℝ} {v : L → ℝ}
    (h : IsMultiPrior Q g e c v) {μ : Measure X} [IsFiniteMeasure μ] (hi : ∀ l, Integrable (fun x => c l x x) μ)
    (x : ∀ l, Fin (n l) → X) :
    iIndepFun (fun l ω => ((fun _ : Fin 1 => ∫ x, g l x ω ∂μ), fun i => g l (x l i) ω + e l i ω)) Q := by
  classical
  rcases isEmpty_or_nonempty L with hL | ⟨⟨l0⟩⟩
  · rw [iIndepFun_iff_measure_inter_preimage_eq_mul]
    intro S sets _
    have := h.gaussian.isProbabilityMeasure
    have : S = ∅ := Finset.eq_empty_of_isEmpty S
    subst this
    simp
  have := (h.level l0).prob
  let H : (Σ l, X ⊕ Fin (n l)) → Ω → ℝ := fun t => Sum.elim (g t.1) (e t.1) t.2
  have h0 : ∀ t, ∫ ω, H t ω ∂Q = 0 := fun t => (h.level t.1).zero t.2
  have lift : ∀ l (Z : Ω → ℝ), Generated Q (Sum.elim (g l) (e l) : X ⊕ Fin (n l) → Ω → ℝ) Z → Generated Q H Z :=
    fun l Z hZ => ⟨hZ.memLp, fun U hU hU0 => hZ.orth U hU fun t => hU0 ⟨l, t⟩⟩
  let V : ∀ l, Fin 1 ⊕ Fin (n l) → Ω → ℝ := fun l => Sum.elim (fun _ ω => ∫ x, g l x ω ∂μ) fun i ω => g l (x l i) ω + e l i ω
  have gen : ∀ l t, Generated Q (Sum.elim (g l) (e l) : X ⊕ Fin (n l) → Ω → ℝ) (V l t) := by
    rintro l (t | i)
    · exact ((h.level l).integral (hi l)).1
    · exact ((h.level l).gen (.inl (x l i))).add ((h.level l).gen (.inr i))
  have gauss := Generated.gaussian h.gaussian h0 (Z := fun t : Σ l, Fin 1 ⊕ Fin (n l) => V t.1 t.2) fun t => lift _ _ (gen t.1 t.2)
  have joint : HasGaussianLaw (fun ω l t => V l t ω) Q := by
    let T : ((Σ l, Fin 1 ⊕ Fin (n l)) → ℝ) →ₗ[ℝ] (∀ l, Fin 1 ⊕ Fin (n l) → ℝ) :=
      { toFun := fun z l t => z ⟨l, t⟩, map_add' := fun _ _ => rfl, map_smul' := fun _ _ => rfl }
    exact gauss.map_fun T.toContinuousLinearMap
  -- a variable uncorrelated with one level is uncorrelated with its integral and observations
  have step : ∀ l (U : Ω → ℝ), MemLp U 2 Q → (∀ t, cov[(Sum.elim (g l) (e l) t : Ω → ℝ), U; Q] = 0) → ∀ t, cov[V l t, U; Q] = 0 := by
    rintro l U hU hz (t | i)
    · show cov[fun ω => ∫ x, g l x ω ∂μ, U; Q] = 0
      rw [((h.level l).integral (hi l)).2 U hU]
      have : ∀ y, cov[g l y, U; Q] = 0 := fun y => hz (.inl y)
      simp [this]
    · show cov[fun ω => g l (x l i) ω + e l i ω, U; Q] = 0
      rw [cov_add_left (U := g l (x l i)) (V := e l i) (W := U) ((h.level l).memLp (.inl _)) ((h.level l).memLp (.inr i)) hU]
      have h1 : cov[g l (x l i), U; Q] = 0 := hz (.inl _)
      have h2 : cov[e l i, U; Q] = 0 := hz (.inr i)
      rw [h1, h2, add_zero]
  have cross : ∀ l l', l ≠ l' → ∀ t t', cov[V l t, V l' t'; Q] = 0 := by
    intro l l' hl t t'
    refine step l _ (gen l' t').memLp (fun s => ?_) t
    rw [covariance_comm]
    refine step l' _ ((h.level l).memLp s) (fun s' => ?_) t'
    rw [covariance_comm]
    exact h.across l l' hl s s'
  have ind := joint.iIndepFun_of_covariance_eval cross
  exact ind.comp (fun l (z : Fin 1 ⊕ Fin (n l) → ℝ) => ((fun i => z (.inl i)), fun i => z (.inr i))) fun l => by fun_prop

/-- **C80.**  Whatever `multilevel_bayesquad_from_data` returns is the conditional distribution of the sum of the integrals
of the levels, under the prior that the levels are independent Gaussian processes with the kernels of the levels times
scales `v l` (1 if they are not estimated). -/
theorem multilevel_conditional {D : ℕ} {evals : List (Rows ℝ)} {nodes : List (Rows (Fin D → ℝ))}
    {kernels : Option (List AnyKernel)} {measure : Option SomeMeasure} {domain : Option (List (Arr ℝ))} {o : Options}
    {belief : ℝ × ℝ} {infos : List Info} (h : multilevelFromData nodes evals kernels measure domain o = .ok (belief, infos))
    (hk : ∀ l, ((levelKernel kernels l).getD (defaultKernel D)).Proper) {m : AnyMeasure D} {w : Bool}
    (hm : checkCompat D domain measure = .ok (⟨D, m⟩, w)) {μ : Measure (Fin D → ℝ)} (hμ : IsMeasure m μ)
    {x : Fin evals.length → Rows (Fin D → ℝ)} (hx : ∀ l : Fin evals.length, levelNodes nodes l = some (x l))
    (hn : ∀ l, ∀ y ∈ (x l).rows, y ∈ region ((levelKernel kernels l).getD (defaultKernel D)) m) :
    ∃ v : Fin evals.length → ℝ, (∀ l, 0 ≤ v l) ∧ (o.scale = some .keep → ∀ l, v l = 1) ∧
      (∀ l : Fin evals.length, infos[(l : ℕ)]? = some ⟨0, (x l).rows.length, true⟩) ∧
      ∀ (Ω : Type) (_ : MeasurableSpace Ω) (Q : Measure Ω) (g : Fin evals.length → (Fin D → ℝ) → Ω → ℝ)
        (e : ∀ l, Fin (x l).rows.length → Ω → ℝ),
        IsMultiPrior Q g e (fun l y z => v l * kernelValue ((levelKernel kernels l).getD (defaultKernel D)) y z)
          (fun l => v l * o.jitter.getD 1e-8) →
        ∃ f : (∀ l, Fin (x l).rows.length → ℝ) → Fin 1 → ℝ,
          IsConditional Q (fun ω _ => ∑ l, ∫ x, g l x ω ∂μ) (fun ω l i => g l (x l).rows[i] ω + e l i ω) f !![belief.2] ∧
          f (fun l i => evals[l].rows.getD i 0) = ![belief.1] := by
  obtain ⟨_, _, rs, hrs, hr⟩ := (multilevel_iff ..).1 h
  obtain ⟨hr1, hr2⟩ := Prod.mk.inj hr
  have hrun : ∀ l, bayesquadFromData (x l) evals[l] (levelKernel kernels l) measure domain o = .ok ((rs l).1, (rs l).2) := by
    intro l
    obtain ⟨x', h1, h2⟩ := hrs l
    rw [hx l] at h1
    cases h1
    exact h2
  have each := fun l => from_data_conditional (hrun l) (hk l)
  choose ml wl v hml hv0 hv1 _ hinfo hcond using each
  have hmm : ∀ l, ml l = m := by
    intro l
    have := (hml l).symm.trans hm
    have := Except.ok.inj this
    have := (Prod.mk.inj this).1
    exact eq_of_heq (Sigma.mk.inj this).2
  refine ⟨v, hv0, fun hs l => hv1 l hs, fun l => ?_, ?_⟩
  · rw [hr2, List.getElem?_ofFn]
    simp [hinfo]
  · intro Ω _ Q g e hg
    have hP := fun l => from_data_problem (hrun l) hm
    choose P hP using hP
    have hE := fun l => (problemOf_embeds (hP l) (hk l))
    have c1 := fun l => hcond l μ Ω _ Q (g l) (e l) (by rw [hmm]; exact hμ) (by rw [hmm]; exact hn l) (hg.level l)
    choose f hf1 hf2 using c1
    have hint : ∀ l, Integrable (fun y => v l * kernelValue ((levelKernel kernels l).getD (defaultKernel D)) y y) μ := by
      intro l
      have := ((hE l).2.2.2 μ hμ).diag
      rw [(hE l).1] at this
      exact this.const_mul _
    have hfin : IsFiniteMeasure μ := by
      cases m with
      | lebesgue a b c => obtain ⟨_, _, rfl⟩ := hμ; exact box_finite a b c
      | gaussian g => have := hμ.2.isProbabilityMeasure; infer_instance
      | other => cases hμ
    have ind := levels_independent hg hint fun l i => (x l).rows[i]
    have hY : ∀ l, AEMeasurable (fun ω (i : Fin (x l).rows.length) => g l (x l).rows[i] ω + e l i ω) Q := fun l =>
      aemeasurable_pi_lambda _ fun i =>
        (((hg.level l).memLp (.inl _)).aestronglyMeasurable.add ((hg.level l).memLp (.inr i)).aestronglyMeasurable).aemeasurable
    have key := IsConditional.sum (X := fun l ω (_ : Fin 1) => ∫ x, g l x ω ∂μ) hf1 hY ind
    refine ⟨fun y => ∑ l, f l (y l), ?_, ?_⟩
    · convert key using 1
      · funext ω i
        simp
      · ext a b
        fin_cases a; fin_cases b
        rw [hr1, Matrix.sum_apply]
        simp
    · dsimp only
      simp only [hf2]
      rw [hr1]
      funext a
      fin_cases a
      simp

end Probnum.Quad
