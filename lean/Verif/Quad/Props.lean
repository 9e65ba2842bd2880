import Verif.Quad.Lemmas
import Mathlib.Analysis.InnerProductSpace.Basic
import Mathlib.MeasureTheory.Integral.Bochner.Basic
import Mathlib.MeasureTheory.Function.L2Space

/-! # Properties C40 (batching), C41 (variance), C60 (acquisition functions) of Bayesian quadrature -/

namespace Probnum.Quad

open Probnum Probnum.Linops Finset

/-! ## Specification -/

/-- One update per batch of nodes and function values. -/
noncomputable def updates {X : Type} (u : Update) (P : Problem X) : State X → List (List X × List ℝ) → Res (State X)
  | s, [] => .ok s
  | s, b :: bs => match u.call P s b.1 b.2 with
    | .error e => .error e
    | .ok s => updates u P s bs

/-- The kernel, its mean and its variance belong together: they are the covariances of a function and its integral.
For all locations and coefficients, the variance of `c₀ ∫f + ∑ cᵢ f(xᵢ)` is not negative. -/
structure Consistent {X : Type} (P : Problem X) : Prop where
  sym : ∀ x y, P.k x y = P.k y x
  psd : ∀ (n : ℕ) (x : Fin n → X) (c₀ : ℝ) (c : Fin n → ℝ),
    0 ≤ c₀ ^ 2 * P.var + 2 * c₀ * ∑ i, c i * P.mean (x i) + ∑ i, ∑ j, c i * c j * P.k (x i) (x j)

/-- The states that updates of the initial state with data can reach. -/
def Reachable {X : Type} (u : Update) (P : Problem X) (s : State X) : Prop :=
  ∃ batches, updates u P (State.initial P) batches = .ok s

/-! ## Consistent embeddings exist -/

/-- A kernel with features in a Hilbert space, and the integrals of its features. -/
theorem consistent_of_features {X : Type} {H : Type} [NormedAddCommGroup H] [InnerProductSpace ℝ H] (φ : X → H) (I : H)
    (density : X → ℝ) : Consistent (⟨fun x y => inner ℝ (φ x) (φ y), fun x => inner ℝ (φ x) I, inner ℝ I I, density⟩ :
      Problem X) := by
  refine ⟨fun x y => real_inner_comm _ _, fun n x c₀ c => ?_⟩
  have h := real_inner_self_nonneg (x := c₀ • I + ∑ i, c i • φ (x i))
  refine h.trans_eq ?_
  dsimp only
  have e1 : inner ℝ (∑ i, c i • φ (x i)) I = ∑ i, c i * inner ℝ (φ (x i)) I := by
    rw [sum_inner]
    exact sum_congr rfl fun i _ => by rw [real_inner_smul_left]
  have e2 : inner ℝ (∑ i, c i • φ (x i)) (∑ i, c i • φ (x i)) = ∑ i, ∑ j, c i * c j * inner ℝ (φ (x i)) (φ (x j)) := by
    rw [sum_inner]
    refine sum_congr rfl fun i _ => ?_
    rw [inner_sum]
    exact sum_congr rfl fun j _ => by rw [real_inner_smul_left, real_inner_smul_right]; ring
  have e3 : inner ℝ I (∑ i, c i • φ (x i)) = ∑ i, c i * inner ℝ (φ (x i)) I := (real_inner_comm _ _).trans e1
  rw [inner_add_left, inner_add_right, inner_add_right, e2, real_inner_smul_left, real_inner_smul_right,
    real_inner_smul_left, real_inner_smul_right, e1, e3]
  ring

open MeasureTheory in
/-- The problem whose kernel is given by features: kernel mean and kernel variance are integrals of the kernel. -/
theorem consistent_of_integrals {X : Type} [MeasurableSpace X] {H : Type} [NormedAddCommGroup H] [InnerProductSpace ℝ H]
    [CompleteSpace H] (μ : Measure X) (φ : X → H) (hφ : Integrable φ μ) (P : Problem X)
    (hk : ∀ x y, P.k x y = inner ℝ (φ x) (φ y)) (hm : ∀ x, P.mean x = ∫ y, P.k x y ∂μ)
    (hv : P.var = ∫ x, ∫ y, P.k x y ∂μ ∂μ) : Consistent P := by
  have h := consistent_of_features φ (∫ y, φ y ∂μ) P.density
  have e : P = ⟨fun x y => inner ℝ (φ x) (φ y), fun x => inner ℝ (φ x) (∫ y, φ y ∂μ),
      inner ℝ (∫ y, φ y ∂μ) (∫ y, φ y ∂μ), P.density⟩ := by
    have e1 : ∀ x, ∫ y, P.k x y ∂μ = inner ℝ (φ x) (∫ y, φ y ∂μ) := by
      intro x
      rw [← integral_inner hφ]
      exact integral_congr_ae (.of_forall fun y => hk x y)
    have e2 : ∫ x, ∫ y, P.k x y ∂μ ∂μ = inner ℝ (∫ y, φ y ∂μ) (∫ y, φ y ∂μ) := by
      simp only [e1]
      rw [← integral_inner hφ]
      exact integral_congr_ae (.of_forall fun y => real_inner_comm _ _)
    cases P with
    | mk k m v d =>
      simp only [Problem.mk.injEq, and_true]
      exact ⟨funext fun x => funext fun y => hk x y, funext fun x => (hm x).trans (e1 x), hv.trans e2⟩
  rw [e]
  exact h

/-! ## Helper lemmas -/

section

variable {X : Type} {u : Update} {P : Problem X}

theorem updates_closed (sym : ∀ x y, P.k x y = P.k y x) : ∀ (batches : List (List X × List ℝ)) {s s' : State X}, Fits P s →
    updates u P s batches = .ok s' →
      Fits P s' ∧ s'.nodes = s.nodes ++ (batches.map Prod.fst).flatten ∧
        s'.evals = s.evals ++ (batches.map Prod.snd).flatten ∧
        (batches ≠ [] → closed u P s.scaleSq s'.nodes s'.evals = .ok (s'.scaleSq, s'.belief) ∧
          s'.factor = s'.gram + u.jitter • eye)
  | [], s, s', hs, h => by
    cases h
    exact ⟨hs, by simp, by simp, fun h => absurd rfl h⟩
  | b :: bs, s, s', hs, h => by
    rw [updates] at h
    cases hb : u.call P s b.1 b.2 with
    | error e => rw [hb] at h; cases h
    | ok t =>
      rw [hb] at h
      obtain ⟨ht, h1, h2, h3, h4, _⟩ := hs.call sym hb
      obtain ⟨hs', h5, h6, h7⟩ := updates_closed sym bs ht h
      refine ⟨hs', ?_, ?_, fun _ => ?_⟩
      · rw [h5, h1, List.map_cons, List.flatten_cons, List.append_assoc]
      · rw [h6, h2, List.map_cons, List.flatten_cons, List.append_assoc]
      · cases bs with
        | nil =>
          cases h
          exact ⟨h3, h4⟩
        | cons b' bs' =>
          obtain ⟨h8, h9⟩ := h7 (List.cons_ne_nil _ _)
          refine ⟨?_, h9⟩
          rw [← h8, closed, closed]
          dsimp only
          cases hsc : u.scale with
          | keep =>
            have : t.scaleSq = s.scaleSq := by
              rw [closed] at h3
              dsimp only at h3
              rw [hsc, estimateScale] at h3
              split at h3
              · dsimp only at h3
                split at h3
                · cases h3
                · exact (congrArg Prod.fst (Except.ok.inj h3)).symm
              · cases h3
            rw [estimateScale, estimateScale, this]
          | mle => rfl
          | other => rfl

theorem posDef_prefix {nodes more : List X} {j : ℝ}
    (h : (toM (nodes ++ more).length (nodes ++ more).length
      (kernelMatrix P.k (nodes ++ more) (nodes ++ more) + j • eye)).PosDef) :
    (toM nodes.length nodes.length (kernelMatrix P.k nodes nodes + j • eye)).PosDef := by
  have hlen : nodes.length ≤ (nodes ++ more).length := by rw [List.length_append]; omega
  have e : ∀ i < nodes.length, ∀ t < nodes.length,
      (kernelMatrix P.k (nodes ++ more) (nodes ++ more) + j • eye) i t = (kernelMatrix P.k nodes nodes + j • eye) i t := by
    intro i hi t ht
    show kernelMatrix P.k _ _ i t + _ = kernelMatrix P.k _ _ i t + _
    rw [kernelMatrix_get _ _ _ (by omega) (by omega), kernelMatrix_get _ _ _ hi ht, List.getElem_append_left hi,
      List.getElem_append_left ht]
  rw [posDef_iff] at h ⊢
  refine ⟨fun i hi t ht => ?_, fun v ⟨i, hi, hv⟩ => ?_⟩
  · rw [← e i hi t ht, ← e t ht i hi]
    exact h.1 i (by omega) t (by omega)
  · have hp := h.2 (fun i => if i < nodes.length then v i else 0) ⟨i, by omega, by rw [if_pos hi]; exact hv⟩
    refine hp.trans_eq ?_
    rw [List.length_append, bil, sum_range_add]
    have z : ∑ x ∈ range more.length, ∑ t ∈ range (nodes.length + more.length),
        (if nodes.length + x < nodes.length then v (nodes.length + x) else 0) *
          (kernelMatrix P.k (nodes ++ more) (nodes ++ more) + j • eye) (nodes.length + x) t *
          (if t < nodes.length then v t else 0) = 0 :=
      sum_eq_zero fun x _ => sum_eq_zero fun t _ => by rw [if_neg (by omega)]; ring
    rw [z, add_zero]
    refine sum_congr rfl fun a ha => ?_
    rw [sum_range_add]
    have z : ∑ x ∈ range more.length, (if a < nodes.length then v a else 0) *
        (kernelMatrix P.k (nodes ++ more) (nodes ++ more) + j • eye) a (nodes.length + x) *
          (if nodes.length + x < nodes.length then v (nodes.length + x) else 0) = 0 :=
      sum_eq_zero fun x _ => by rw [if_neg (show ¬ nodes.length + x < nodes.length by omega)]; ring
    rw [z, add_zero]
    refine sum_congr rfl fun b hb => ?_
    rw [if_pos (mem_range.1 ha), if_pos (mem_range.1 hb), e a (mem_range.1 ha) b (mem_range.1 hb)]

/-- The extended kernel matrix is positive semi-definite. -/
theorem Consistent.nonneg (hP : Consistent P) (nodes : List X) (c₀ : ℝ) (c : ℕ → ℝ) :
    0 ≤ c₀ ^ 2 * P.var + 2 * c₀ * dot nodes.length c (vec (nodes.map P.mean)) +
      bil nodes.length (kernelMatrix P.k nodes nodes) c c := by
  have h := hP.psd nodes.length (fun i => nodes[i]) c₀ fun i => c i
  refine h.trans_eq ?_
  congr 1
  · congr 2
    rw [dot, sum_range]
    exact sum_congr rfl fun i _ => by rw [vec_means P.mean nodes i.2]; rfl
  · rw [bil, sum_range]
    refine sum_congr rfl fun i _ => ?_
    rw [sum_range]
    refine sum_congr rfl fun j _ => ?_
    rw [kernelMatrix_get _ _ _ i.2 j.2]
    show c i * c j * P.k nodes[(i : ℕ)] nodes[(j : ℕ)] = _
    ring

/-- The unscaled variance after observing the nodes. -/
noncomputable def postVar (P : Problem X) (j : ℝ) (nodes : List X) : ℝ :=
  P.var - dot nodes.length (choSolve nodes.length (kernelMatrix P.k nodes nodes + j • eye) (vec (nodes.map P.mean)))
    (vec (nodes.map P.mean))

theorem postVar_nonneg (hP : Consistent P) {j : ℝ} (hj : 0 ≤ j) {nodes : List X}
    (hp : (toM nodes.length nodes.length (kernelMatrix P.k nodes nodes + j • eye)).PosDef) : 0 ≤ postVar P j nodes := by
  set n := nodes.length
  set z := vec (nodes.map P.mean)
  set M := kernelMatrix P.k nodes nodes + j • eye with hM
  set w := choSolve n M z with hwdef
  have hw : Solves n M w z := choSolve_solves hp z
  have h1 : bil n M w w = dot n w z := bil_solves hw
  have h2 : bil n M w w = bil n (kernelMatrix P.k nodes nodes) w w + j * dot n w w := bil_jitter ..
  have h3 := hP.nonneg nodes (-1) w
  have h4 := mul_nonneg hj (dot_self_nonneg n w)
  show 0 ≤ P.var - dot n w z
  have h5 : (-1 : ℝ) ^ 2 * P.var + 2 * -1 * dot n w z + bil n (kernelMatrix P.k nodes nodes) w w ≥ 0 := h3
  linarith

theorem postVar_le (j : ℝ) {nodes : List X}
    (hp : (toM nodes.length nodes.length (kernelMatrix P.k nodes nodes + j • eye)).PosDef) : postVar P j nodes ≤ P.var := by
  rw [postVar, ← bil_solves (u := choSolve _ _ _) (choSolve_solves hp _)]
  linarith [PosDefM.nonneg hp (choSolve nodes.length (kernelMatrix P.k nodes nodes + j • eye) (vec (nodes.map P.mean)))]

theorem sum_ext_zero {a b : ℕ} (f : ℕ → ℝ) (hf : ∀ i, a ≤ i → f i = 0) : ∑ i ∈ range (a + b), f i = ∑ i ∈ range a, f i := by
  rw [sum_range_add, sum_eq_zero (s := range b) fun i _ => hf _ (by omega), add_zero]

theorem postVar_antitone (j : ℝ) {nodes more : List X}
    (hp : (toM (nodes ++ more).length (nodes ++ more).length
      (kernelMatrix P.k (nodes ++ more) (nodes ++ more) + j • eye)).PosDef) :
    postVar P j (nodes ++ more) ≤ postVar P j nodes := by
  have hp' := posDef_prefix hp
  set n := nodes.length with hn
  set N := (nodes ++ more).length with hN
  have hlen : N = n + more.length := List.length_append
  set M := kernelMatrix P.k nodes nodes + j • eye with hM
  set M' := kernelMatrix P.k (nodes ++ more) (nodes ++ more) + j • eye with hM'
  set z := vec (nodes.map P.mean) with hz
  set z' := vec ((nodes ++ more).map P.mean) with hz'
  set w := choSolve n M z with hw
  set w' := choSolve N M' z' with hw'
  set v : ℕ → ℝ := fun i => if i < n then w i else 0 with hv
  have hs : Solves n M w z := choSolve_solves hp' z
  have hs' : Solves N M' w' z' := choSolve_solves hp z'
  have key := variation ((posDef_iff _ _).1 hp).1 hs' v P.var
  have hpos := PosDefM.nonneg hp (fun i => 1 * v i + (-1) * w' i)
  have d : dot N v z' = dot n w z := by
    rw [dot, hlen, sum_ext_zero _ fun i hi => by rw [hv]; dsimp only; rw [if_neg (by omega), zero_mul]]
    refine sum_congr rfl fun i hi => ?_
    have hi := mem_range.1 hi
    rw [hv]
    dsimp only
    rw [if_pos hi, hz, hz', vec_means P.mean nodes hi, vec_means P.mean (nodes ++ more) (by rw [← hN, hlen]; omega),
      List.getElem_append_left hi]
  have b : bil N M' v v = bil n M w w := by
    rw [bil, hlen, sum_ext_zero _ fun i hi => sum_eq_zero fun t _ => by
      rw [hv]; dsimp only; rw [if_neg (show ¬ i < n by omega), zero_mul, zero_mul]]
    refine sum_congr rfl fun i hi => ?_
    have hi := mem_range.1 hi
    rw [sum_ext_zero _ fun t ht => by rw [hv]; dsimp only; rw [if_neg (show ¬ t < n by omega), mul_zero]]
    refine sum_congr rfl fun t ht => ?_
    have ht := mem_range.1 ht
    rw [hv]
    dsimp only
    rw [if_pos hi, if_pos ht]
    show _ * (kernelMatrix P.k _ _ i t + _) * _ = _ * (kernelMatrix P.k _ _ i t + _) * _
    rw [kernelMatrix_get _ _ _ (by rw [← hN, hlen]; omega) (by rw [← hN, hlen]; omega), kernelMatrix_get _ _ _ hi ht,
      List.getElem_append_left hi, List.getElem_append_left ht]
  rw [d, b, bil_solves hs] at key
  show P.var - dot N w' z' ≤ P.var - dot n w z
  linarith

theorem scale_nonneg {nodes : List X} {evals : List ℝ} {old scale : ℝ} (hold : 0 ≤ old) {M : Mat}
    (hp : (toM nodes.length nodes.length M).PosDef)
    (h : estimateScale u.scale nodes.length M evals old = .ok scale) : 0 ≤ scale := by
  cases hsc : u.scale with
  | keep =>
    rw [hsc, estimateScale] at h
    cases h
    exact hold
  | mle =>
    rw [hsc, estimateScale] at h
    split at h
    · cases h
    · split at h
      · cases h
      · cases h
        refine div_nonneg ?_ (Nat.cast_nonneg _)
        rw [dot_comm, ← bil_solves (u := choSolve _ _ _) (choSolve_solves hp _)]
        exact PosDefM.nonneg hp _
  | other => rw [hsc, estimateScale] at h; cases h

theorem closed_spec {sc : ℝ} {nodes : List X} {evals : List ℝ} {r : ℝ × (ℝ × ℝ)} (h : closed u P sc nodes evals = .ok r) :
    (toM nodes.length nodes.length (kernelMatrix P.k nodes nodes + u.jitter • eye)).PosDef ∧
      estimateScale u.scale nodes.length (kernelMatrix P.k nodes nodes + u.jitter • eye) evals sc = .ok r.1 ∧
      r.2.1 = dot nodes.length (choSolve nodes.length (kernelMatrix P.k nodes nodes + u.jitter • eye)
        (vec (nodes.map P.mean))) (vec evals) ∧
      r.2.2 = r.1 * postVar P u.jitter nodes ∧ evals.length = nodes.length := by
  rw [closed] at h
  dsimp only at h
  split at h
  · next hp =>
    split at h
    · cases h
    · next scale hscale =>
      split at h
      · cases h
      · next hl =>
        cases h
        exact ⟨hp, hscale, rfl, rfl, not_not.1 hl⟩
  · cases h

end

/-! ## C40 -/

section

variable {X : Type} {u : Update} {P : Problem X}

/-- Data in any sequence of batches gives the state of one update with all data; only the list of previous beliefs
differs. -/
theorem bq_batching (sym : ∀ x y, P.k x y = P.k y x) {batches : List (List X × List ℝ)} (hne : batches ≠ []) {s : State X}
    (h : updates u P (State.initial P) batches = .ok s) :
    ∃ s', u.call P (State.initial P) (batches.map Prod.fst).flatten (batches.map Prod.snd).flatten = .ok s' ∧
      s'.nodes = s.nodes ∧ s'.evals = s.evals ∧ s'.kernelMeans = s.kernelMeans ∧ s'.scaleSq = s.scaleSq ∧
      s'.belief = s.belief ∧ Eqv s.nodes.length s.nodes.length s'.gram s.gram ∧
      Eqv s.nodes.length s.nodes.length s'.factor s.factor := by
  obtain ⟨hs, h1, h2, h3⟩ := updates_closed sym batches (fits_initial P) h
  obtain ⟨h3, h4⟩ := h3 hne
  obtain ⟨G, hG, e⟩ := call_closed u P sym (fits_initial P) (batches.map Prod.fst).flatten (batches.map Prod.snd).flatten
  rw [← h1, ← h2, h3] at e
  rw [← h1] at hG
  refine ⟨_, e, rfl, rfl, hs.means.symm, rfl, rfl, hG.trans hs.gram.symm, ?_⟩
  rw [h4]
  exact add_congr (hG.trans hs.gram.symm) (Eqv.refl _)

/-- If the update with all data succeeds, so do the updates with the batches, provided that every batch has as many
values as nodes, and the first batch is not empty. -/
theorem bq_batching_succeeds (sym : ∀ x y, P.k x y = P.k y x) {b : List X × List ℝ} {bs : List (List X × List ℝ)}
    (hlen : ∀ c ∈ b :: bs, c.1.length = c.2.length) (hb : b.1 ≠ []) {s' : State X}
    (h : u.call P (State.initial P) ((b :: bs).map Prod.fst).flatten ((b :: bs).map Prod.snd).flatten = .ok s') :
    ∃ s, updates u P (State.initial P) (b :: bs) = .ok s := by
  obtain ⟨_, h1, h2, h3, _⟩ := (fits_initial P).call sym h
  have hp := (closed_lengths h3).1
  have hest : u.scale ≠ .other := by
    intro ho
    obtain ⟨_, h4, _⟩ := closed_spec h3
    rw [ho, estimateScale] at h4
    cases h4
  have key : ∀ (cs : List (List X × List ℝ)) (s : State X), Fits P s → (∀ c ∈ cs, c.1.length = c.2.length) →
      (s.nodes ≠ [] ∨ ∃ c cs', cs = c :: cs' ∧ c.1 ≠ []) → s.nodes ++ (cs.map Prod.fst).flatten = s'.nodes →
      ∃ t, updates u P s cs = .ok t := by
    intro cs
    induction cs with
    | nil => exact fun s _ _ _ _ => ⟨s, rfl⟩
    | cons c cs ih =>
      intro s hs hl hne hnodes
      have hne' : s.nodes ++ c.1 ≠ [] := by
        rcases hne with h | ⟨c', cs', e, h⟩
        · exact fun h0 => h (List.append_eq_nil_iff.1 h0).1
        · cases e
          exact fun h0 => h (List.append_eq_nil_iff.1 h0).2
      have hpc : (toM (s.nodes ++ c.1).length (s.nodes ++ c.1).length
          (kernelMatrix P.k (s.nodes ++ c.1) (s.nodes ++ c.1) + u.jitter • eye)).PosDef := by
        refine posDef_prefix (more := (cs.map Prod.fst).flatten) ?_
        rw [List.map_cons, List.flatten_cons, ← List.append_assoc] at hnodes
        rw [hnodes]
        exact hp
      have hcl : (s.evals ++ c.2).length = (s.nodes ++ c.1).length := by
        rw [List.length_append, List.length_append, hs.evals, hl c (List.mem_cons_self ..)]
      obtain ⟨G, hG, e⟩ := call_closed u P sym hs c.1 c.2
      have hok : ∃ r, closed u P s.scaleSq (s.nodes ++ c.1) (s.evals ++ c.2) = .ok r := by
        rw [closed]
        dsimp only
        rw [if_pos hpc]
        have : ∃ sc, estimateScale u.scale (s.nodes ++ c.1).length
            (kernelMatrix P.k (s.nodes ++ c.1) (s.nodes ++ c.1) + u.jitter • eye) (s.evals ++ c.2) s.scaleSq = .ok sc := by
          cases hsc : u.scale with
          | keep => exact ⟨_, rfl⟩
          | mle =>
            rw [estimateScale, if_neg (not_not.2 hcl), if_neg (by rw [List.length_eq_zero_iff]; exact hne')]
            exact ⟨_, rfl⟩
          | other => exact absurd hsc hest
        obtain ⟨sc, hsc⟩ := this
        rw [hsc]
        dsimp only
        rw [if_neg (not_not.2 hcl)]
        exact ⟨_, rfl⟩
      obtain ⟨⟨sc, bel⟩, hr⟩ := hok
      rw [hr] at e
      have ht := (hs.call sym e).1
      rw [updates, e]
      refine ih _ ht (fun c' hc' => hl c' (List.mem_cons_of_mem _ hc')) (.inl hne') ?_
      rw [List.map_cons, List.flatten_cons, ← List.append_assoc] at hnodes
      exact hnodes
  exact key (b :: bs) _ (fits_initial P) hlen (.inr ⟨b, bs, rfl, hb⟩) h1.symm

/-! ## C41 -/

theorem reach_spec (sym : ∀ x y, P.k x y = P.k y x) {s : State X} (h : Reachable u P s) (hne : s.nodes ≠ []) :
    Fits P s ∧ closed u P 1 s.nodes s.evals = .ok (s.scaleSq, s.belief) ∧ s.factor = s.gram + u.jitter • eye := by
  obtain ⟨batches, h⟩ := h
  obtain ⟨hs, h1, h2, h3⟩ := updates_closed sym batches (fits_initial P) h
  have : batches ≠ [] := by
    rintro rfl
    exact hne h1
  obtain ⟨h3, h4⟩ := h3 this
  exact ⟨hs, h3, h4⟩

theorem reach_nil (sym : ∀ x y, P.k x y = P.k y x) {s : State X} (h : Reachable u P s) (hs : s.nodes = []) :
    s.belief = (0, P.var) ∧ s.scaleSq = 1 ∧ s.evals = [] := by
  obtain ⟨batches, h⟩ := h
  obtain ⟨hf, h1, h2, h3⟩ := updates_closed sym batches (fits_initial P) h
  have he : s.evals = [] := List.length_eq_zero_iff.1 (by rw [hf.evals, hs]; rfl)
  cases batches with
  | nil => cases h; exact ⟨rfl, rfl, rfl⟩
  | cons b bs =>
    obtain ⟨h3, _⟩ := h3 (List.cons_ne_nil _ _)
    obtain ⟨_, h4, h5, h6, _⟩ := closed_spec h3
    rw [hs, he] at h4
    cases hsc : u.scale with
    | keep =>
      rw [hsc, estimateScale] at h4
      have h4 : (State.initial P).scaleSq = s.scaleSq := Except.ok.inj h4
      have h4 : 1 = s.scaleSq := h4
      rw [hs, he] at h5
      rw [hs, postVar, ← h4] at h6
      refine ⟨Prod.ext h5 (h6.trans ?_), h4.symm, he⟩
      show 1 * (P.var - 0) = P.var
      ring
    | mle => rw [hsc, estimateScale] at h4; cases h4
    | other => rw [hsc, estimateScale] at h4; cases h4

/-- The variance of the integral is not negative. -/
theorem bq_variance_nonneg (hP : Consistent P) (hj : 0 ≤ u.jitter) {s : State X} (h : Reachable u P s) : 0 ≤ s.belief.2 := by
  by_cases hne : s.nodes = []
  · rw [(reach_nil hP.sym h hne).1]
    have := hP.psd 0 (fun i => i.elim0) 1 fun i => i.elim0
    simpa using this
  · obtain ⟨_, h3, _⟩ := reach_spec hP.sym h hne
    obtain ⟨hp, h4, _, h5, _⟩ := closed_spec h3
    rw [h5]
    exact mul_nonneg (scale_nonneg zero_le_one hp h4) (postVar_nonneg hP hj hp)

/-- With a fixed scale the variance is at most the variance before any data. -/
theorem bq_variance_le_prior (hP : Consistent P) (hk : u.scale = .keep) {s : State X} (h : Reachable u P s) :
    s.belief.2 ≤ P.var := by
  by_cases hne : s.nodes = []
  · rw [(reach_nil hP.sym h hne).1]
  · obtain ⟨_, h3, _⟩ := reach_spec hP.sym h hne
    obtain ⟨hp, h4, _, h5, _⟩ := closed_spec h3
    rw [hk, estimateScale] at h4
    have h4 : 1 = s.scaleSq := Except.ok.inj h4
    rw [h5, ← h4, one_mul]
    exact postVar_le _ hp

/-- With a fixed scale the variance does not increase when data is added. -/
theorem bq_variance_antitone (hP : Consistent P) (hk : u.scale = .keep) {s s' : State X} (h : Reachable u P s)
    {new : List X} {evs : List ℝ} (h' : u.call P s new evs = .ok s') : s'.belief.2 ≤ s.belief.2 := by
  obtain ⟨batches, hb⟩ := h
  have hs := (updates_closed hP.sym batches (fits_initial P) hb).1
  obtain ⟨_, e1, e2, h3, _⟩ := hs.call hP.sym h'
  obtain ⟨hp, h4, _, h5, _⟩ := closed_spec h3
  rw [hk, estimateScale] at h4
  have h4 : s.scaleSq = s'.scaleSq := Except.ok.inj h4
  by_cases hne : s.nodes = []
  · obtain ⟨hb1, hb2, _⟩ := reach_nil hP.sym ⟨batches, hb⟩ hne
    rw [h5, ← h4, hb2, hb1, one_mul]
    exact postVar_le _ hp
  · obtain ⟨_, h3', _⟩ := reach_spec hP.sym ⟨batches, hb⟩ hne
    obtain ⟨hp', h4', _, h5', _⟩ := closed_spec h3'
    rw [hk, estimateScale] at h4'
    have h4' : 1 = s.scaleSq := Except.ok.inj h4'
    rw [h5, h5', ← h4, ← h4', one_mul, one_mul, e1]
    rw [e1] at hp
    exact postVar_antitone _ hp

/-- The mean is a linear function of the values, with weights that depend only on the nodes. -/
theorem bq_mean_linear (sym : ∀ x y, P.k x y = P.k y x) (nodes : List X) : ∃ w : ℕ → ℝ, ∀ s : State X,
    Reachable u P s → s.nodes = nodes → s.belief.1 = ∑ i ∈ range nodes.length, w i * s.evals.getD i 0 := by
  refine ⟨choSolve nodes.length (kernelMatrix P.k nodes nodes + u.jitter • eye) (vec (nodes.map P.mean)), fun s h e => ?_⟩
  by_cases hne : nodes = []
  · subst hne
    rw [(reach_nil sym h e).1]
    rfl
  · obtain ⟨_, h3, _⟩ := reach_spec sym h (e ▸ hne)
    obtain ⟨_, _, h5, _⟩ := closed_spec h3
    rw [h5, e]
    rfl

/-- The weights are those of the best linear estimate: the variance after the data is the least variance of
`∫f − ∑ wᵢ (f(xᵢ) + noise)` over all weights. -/
theorem bq_variance_optimal (hP : Consistent P) {s : State X} (h : Reachable u P s) (hk : u.scale = .keep) (w : ℕ → ℝ) :
    s.belief.2 ≤ P.var - 2 * ∑ i ∈ range s.nodes.length, w i * vec (s.nodes.map P.mean) i +
      ∑ i ∈ range s.nodes.length, ∑ j ∈ range s.nodes.length,
        w i * (kernelMatrix P.k s.nodes s.nodes i j + if i = j then u.jitter else 0) * w j := by
  by_cases hne : s.nodes = []
  · rw [(reach_nil hP.sym h hne).1, hne]
    simp
  · obtain ⟨_, h3, _⟩ := reach_spec hP.sym h hne
    obtain ⟨hp, h4, _, h5, _⟩ := closed_spec h3
    rw [hk, estimateScale] at h4
    have h4 : 1 = s.scaleSq := Except.ok.inj h4
    rw [h5, ← h4, one_mul]
    have key := variation ((posDef_iff _ _).1 hp).1 (choSolve_solves hp (vec (s.nodes.map P.mean))) w P.var
    have hpos := PosDefM.nonneg hp fun i => 1 * w i + (-1) * choSolve s.nodes.length
      (kernelMatrix P.k s.nodes s.nodes + u.jitter • eye) (vec (s.nodes.map P.mean)) i
    have e : bil s.nodes.length (kernelMatrix P.k s.nodes s.nodes + u.jitter • eye) w w =
        ∑ i ∈ range s.nodes.length, ∑ j ∈ range s.nodes.length,
          w i * (kernelMatrix P.k s.nodes s.nodes i j + if i = j then u.jitter else 0) * w j := by
      refine sum_congr rfl fun i _ => sum_congr rfl fun j _ => ?_
      show w i * (kernelMatrix P.k s.nodes s.nodes i j + u.jitter * eye i j) * w j = _
      rw [eye]
      split <;> simp
    rw [e] at key
    show P.var - dot _ _ _ ≤ P.var - 2 * dot _ _ _ + _
    linarith

end

end Probnum.Quad
