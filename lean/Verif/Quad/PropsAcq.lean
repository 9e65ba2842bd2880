import Verif.Quad.Props

/-! # Property C60: acquisition functions of Bayesian quadrature -/

namespace Probnum.Quad

open Probnum Probnum.Linops Finset

variable {X : Type} {u : Update} {P : Problem X}

/-! ## Helper lemmas -/

theorem reach_unified (hsym : ∀ x y, P.k x y = P.k y x) {s : State X} (h : Reachable u P s) :
    Fits P s ∧ s.belief.2 = s.scaleSq * postVar P u.jitter s.nodes ∧ 0 ≤ s.scaleSq ∧
      (toM s.nodes.length s.nodes.length (kernelMatrix P.k s.nodes s.nodes + u.jitter • eye)).PosDef ∧
      Eqv s.nodes.length s.nodes.length s.factor (kernelMatrix P.k s.nodes s.nodes + u.jitter • eye) := by
  obtain ⟨batches, hb⟩ := h
  have hs := (updates_closed hsym batches (fits_initial P) hb).1
  refine ⟨hs, ?_⟩
  by_cases hne : s.nodes = []
  · obtain ⟨hb1, hb2, _⟩ := reach_nil hsym ⟨batches, hb⟩ hne
    rw [hb1, hb2, hne]
    refine ⟨?_, zero_le_one, ?_, fun i hi => absurd hi (Nat.not_lt_zero _)⟩
    · show P.var = 1 * (P.var - 0)
      ring
    · rw [posDef_iff]
      exact ⟨fun i hi => absurd hi (Nat.not_lt_zero _), fun v ⟨i, hi, _⟩ => absurd hi (Nat.not_lt_zero _)⟩
  · obtain ⟨_, h3, h4⟩ := reach_spec hsym ⟨batches, hb⟩ hne
    obtain ⟨hp, h5, _, h6, _⟩ := closed_spec h3
    exact ⟨h6, scale_nonneg zero_le_one hp h5, hp, h4 ▸ add_congr hs.gram (Eqv.refl _)⟩

/-- The posterior covariance of the integral and `f(x)`. -/
noncomputable def postEmb (P : Problem X) (j : ℝ) (nodes : List X) (x : X) : ℝ :=
  P.mean x - dot nodes.length (vec (nodes.map P.mean))
    (choSolve nodes.length (kernelMatrix P.k nodes nodes + j • eye) fun i => kernelMatrix P.k nodes [x] i 0)

/-- The posterior variance of `f(x)`. -/
noncomputable def postPoint (P : Problem X) (j : ℝ) (nodes : List X) (x : X) : ℝ :=
  P.k x x - dot nodes.length
    (choSolve nodes.length (kernelMatrix P.k nodes nodes + j • eye) fun i => kernelMatrix P.k nodes [x] i 0)
    fun i => kernelMatrix P.k nodes [x] i 0

theorem predict_var {s : State X} (hs : Fits P s) {j : ℝ}
    (hf : Eqv s.nodes.length s.nodes.length s.factor (kernelMatrix P.k s.nodes s.nodes + j • eye)) (x : X) :
    (predict P s x).2 = s.scaleSq * postPoint P j s.nodes x := by
  rw [predict]
  dsimp only
  split
  · rw [hs.evals, choSolve_congr hf fun _ _ => rfl]
    rfl
  · next h =>
    rw [not_not] at h
    rw [postPoint, ← hs.evals, h]
    show _ = s.scaleSq * (P.k x x - 0)
    rw [sub_zero]

theorem ivr_eq {s : State X} (hs : Fits P s) {j : ℝ}
    (hf : Eqv s.nodes.length s.nodes.length s.factor (kernelMatrix P.k s.nodes s.nodes + j • eye)) (x : X)
    (hden : s.belief.2 * (predict P s x).2 ≠ 0) :
    ivr P s x = some ((s.scaleSq * postEmb P j s.nodes x) ^ 2 / (s.belief.2 * (predict P s x).2)) := by
  rw [ivr, if_neg hden]
  have e : (if 0 < s.evals.length then P.mean x - dot s.evals.length (vec s.kernelMeans)
      (choSolve s.evals.length s.factor (crossCov P s x)) else P.mean x) = postEmb P j s.nodes x := by
    split
    · rw [hs.evals, hs.means, choSolve_congr hf fun _ _ => rfl]
      rfl
    · next h =>
      have h : s.evals.length = 0 := by omega
      rw [postEmb, ← hs.evals, h]
      show _ = P.mean x - 0
      rw [sub_zero]
  rw [e]

theorem cross_get (nodes : List X) (x : X) {i : ℕ} (hi : i < nodes.length) :
    kernelMatrix P.k nodes [x] i 0 = P.k nodes[i] x := kernelMatrix_get _ _ _ hi (by simp)

/-- The kernel matrix with one more node. -/
theorem append_entries (hP : Consistent P) (nodes : List X) (x : X) (j : ℝ) :
    (∀ i < nodes.length, ∀ t < nodes.length, (kernelMatrix P.k (nodes ++ [x]) (nodes ++ [x]) + j • eye) i t =
        (kernelMatrix P.k nodes nodes + j • eye) i t) ∧
      (∀ i < nodes.length, (kernelMatrix P.k (nodes ++ [x]) (nodes ++ [x]) + j • eye) i nodes.length =
        kernelMatrix P.k nodes [x] i 0) ∧
      (∀ i < nodes.length, (kernelMatrix P.k (nodes ++ [x]) (nodes ++ [x]) + j • eye) nodes.length i =
        kernelMatrix P.k nodes [x] i 0) ∧
      (kernelMatrix P.k (nodes ++ [x]) (nodes ++ [x]) + j • eye) nodes.length nodes.length = P.k x x + j := by
  have hl : (nodes ++ [x]).length = nodes.length + 1 := by simp
  have hlast : (nodes ++ [x])[nodes.length]'(by omega) = x := by simp
  refine ⟨fun i hi t ht => ?_, fun i hi => ?_, fun i hi => ?_, ?_⟩
  · show kernelMatrix P.k _ _ i t + j * eye i t = kernelMatrix P.k _ _ i t + j * eye i t
    rw [kernelMatrix_get _ _ _ (by omega) (by omega), kernelMatrix_get _ _ _ hi ht, List.getElem_append_left hi,
      List.getElem_append_left ht]
  · show kernelMatrix P.k _ _ i nodes.length + j * eye i nodes.length = _
    rw [kernelMatrix_get _ _ _ (by omega) (by omega), cross_get nodes x hi, List.getElem_append_left hi, hlast, eye,
      if_neg (by omega), mul_zero, add_zero]
  · show kernelMatrix P.k _ _ nodes.length i + j * eye nodes.length i = _
    rw [kernelMatrix_get _ _ _ (by omega) (by omega), cross_get nodes x hi, List.getElem_append_left hi, hlast, eye,
      if_neg (by omega), mul_zero, add_zero, hP.sym]
  · show kernelMatrix P.k _ _ nodes.length nodes.length + j * eye nodes.length nodes.length = _
    rw [kernelMatrix_get _ _ _ (by omega) (by omega), hlast, eye, if_pos rfl, mul_one]

theorem postVar_append (hP : Consistent P) {j : ℝ} {nodes : List X} {x : X}
    (hp : (toM (nodes ++ [x]).length (nodes ++ [x]).length
      (kernelMatrix P.k (nodes ++ [x]) (nodes ++ [x]) + j • eye)).PosDef) :
    0 < postPoint P j nodes x + j ∧
    postVar P j (nodes ++ [x]) = postVar P j nodes - postEmb P j nodes x ^ 2 / (postPoint P j nodes x + j) := by
  have hp' := posDef_prefix hp
  obtain ⟨e1, e2, e3, e4⟩ := append_entries hP nodes x j
  have hN : (nodes ++ [x]).length = nodes.length + 1 := by simp
  set n := nodes.length with hn
  set M := kernelMatrix P.k nodes nodes + j • eye with hM
  set M' := kernelMatrix P.k (nodes ++ [x]) (nodes ++ [x]) + j • eye with hM'
  set z := vec (nodes.map P.mean) with hz
  set z' := vec ((nodes ++ [x]).map P.mean) with hz'
  set kx : ℕ → ℝ := fun i => kernelMatrix P.k nodes [x] i 0 with hkx
  set w := choSolve n M z with hw
  set wx := choSolve n M kx with hwx
  have hs : Solves n M w z := choSolve_solves hp' z
  have hsx : Solves n M wx kx := choSolve_solves hp' kx
  have symM : SymOn n M := ((posDef_iff _ _).1 hp').1
  have hv : postPoint P j nodes x = P.k x x - dot n wx kx := rfl
  have he : postEmb P j nodes x = P.mean x - dot n z wx := rfl
  set v := postPoint P j nodes x
  set e := postEmb P j nodes x
  -- the Schur complement is positive
  have hpos : 0 < v + j := by
    have h := ((posDef_iff _ _).1 hp).2 (fun i => if i < n then -wx i else 1) ⟨n, by omega, by
      rw [if_neg (by omega)]; exact one_ne_zero⟩
    have calc1 : bil (nodes ++ [x]).length M' (fun i => if i < n then -wx i else 1)
        (fun i => if i < n then -wx i else 1) = v + j := by
      rw [hN, bil, sum_range_succ, sum_range_succ, if_neg (lt_irrefl n), e4]
      have a1 : ∑ i ∈ range n, ∑ t ∈ range (n + 1), (if i < n then -wx i else 1) * M' i t * (if t < n then -wx t else 1) =
          bil n M wx wx - dot n wx kx := by
        rw [bil, dot, ← sum_sub_distrib]
        refine sum_congr rfl fun i hi => ?_
        have hi := mem_range.1 hi
        rw [sum_range_succ, if_neg (lt_irrefl n), if_pos hi, e2 i hi]
        have : ∑ t ∈ range n, -wx i * M' i t * (if t < n then -wx t else 1) = ∑ t ∈ range n, wx i * M i t * wx t :=
          sum_congr rfl fun t ht => by
            rw [if_pos (mem_range.1 ht), e1 i hi t (mem_range.1 ht)]; ring
        rw [this]
        show _ + -wx i * kx i * 1 = _ - wx i * kx i
        ring
      have a2 : ∑ t ∈ range n, 1 * M' n t * (if t < n then -wx t else 1) = -dot n wx kx := by
        rw [dot, ← sum_neg_distrib]
        refine sum_congr rfl fun t ht => ?_
        rw [if_pos (mem_range.1 ht), e3 t (mem_range.1 ht)]
        show 1 * kx t * -wx t = _
        ring
      rw [a1, a2, bil_solves hsx, hv]
      ring
    rw [calc1] at h
    exact h
  refine ⟨hpos, ?_⟩
  set c := e / (v + j) with hc
  have hcv : c * (v + j) = e := div_mul_cancel₀ _ hpos.ne'
  have hz1 : ∀ i < n, z' i = z i := by
    intro i hi
    rw [hz, hz', vec_means P.mean nodes hi, vec_means P.mean (nodes ++ [x]) (by omega), List.getElem_append_left hi]
  have hz2 : z' n = P.mean x := by
    rw [hz', vec_means P.mean (nodes ++ [x]) (by omega)]
    simp [hn]
  have hwz : dot n kx w = dot n z wx := by
    rw [dot_comm n kx w, ← bil_solves (u := w) hsx, bil_comm symM, bil_solves hs, dot_comm]
  have hs' : Solves (nodes ++ [x]).length M' (fun i => if i < n then w i - c * wx i else c) z' := by
    intro i hi
    rw [hN] at hi ⊢
    rw [sum_range_succ]
    dsimp only
    rw [if_neg (lt_irrefl n)]
    by_cases h : i < n
    · rw [e2 i h, hz1 i h, ← hs i h]
      have : ∑ t ∈ range n, M' i t * (if t < n then w t - c * wx t else c) =
          ∑ t ∈ range n, M i t * w t - c * ∑ t ∈ range n, M i t * wx t := by
        rw [mul_sum, ← sum_sub_distrib]
        exact sum_congr rfl fun t ht => by rw [if_pos (mem_range.1 ht), e1 i h t (mem_range.1 ht)]; ring
      rw [this, hsx i h]
      ring
    · have h : i = n := by omega
      subst h
      rw [e4, hz2]
      have : ∑ t ∈ range n, M' n t * (if t < n then w t - c * wx t else c) = dot n kx w - c * dot n wx kx := by
        rw [dot, dot, mul_sum, ← sum_sub_distrib]
        refine sum_congr rfl fun t ht => ?_
        rw [if_pos (mem_range.1 ht), e3 t (mem_range.1 ht)]
        show kx t * _ = _
        ring
      rw [this, hwz]
      linear_combination hcv + he - c * hv
  have hu := solves_unique hp (choSolve_solves hp z') hs'
  have hd : dot (nodes ++ [x]).length (choSolve (nodes ++ [x]).length M' z') z' = dot n w z + c * e := by
    rw [dot_congr hu fun _ _ => rfl, hN, dot, sum_range_succ, if_neg (lt_irrefl n), hz2]
    have : ∑ i ∈ range n, (if i < n then w i - c * wx i else c) * z' i = dot n w z - c * dot n z wx := by
      rw [dot, dot, mul_sum, ← sum_sub_distrib]
      exact sum_congr rfl fun i hi => by rw [if_pos (mem_range.1 hi), hz1 i (mem_range.1 hi)]; ring
    rw [this]
    linear_combination (-c) * he
  show P.var - dot (nodes ++ [x]).length (choSolve (nodes ++ [x]).length M' z') z' = P.var - dot n w z - e ^ 2 / (v + j)
  rw [hd, hc]
  ring

/-- Cauchy–Schwarz for the posterior of the integral and `f(x)`. -/
theorem emb_sq_le (hP : Consistent P) {j : ℝ} (hj : 0 ≤ j) {nodes : List X} (x : X)
    (hp : (toM nodes.length nodes.length (kernelMatrix P.k nodes nodes + j • eye)).PosDef) (a b : ℝ) :
    0 ≤ a ^ 2 * postVar P j nodes + 2 * a * b * postEmb P j nodes x + b ^ 2 * postPoint P j nodes x := by
  have hN : (nodes ++ [x]).length = nodes.length + 1 := by simp
  obtain ⟨e1, e2, e3, e4⟩ := append_entries hP nodes x 0
  simp only [zero_smul, add_zero] at e1 e2 e3 e4
  set n := nodes.length with hn
  set K := kernelMatrix P.k nodes nodes with hK
  set M := K + j • eye with hM
  set K' := kernelMatrix P.k (nodes ++ [x]) (nodes ++ [x]) with hK'
  set z := vec (nodes.map P.mean) with hz
  set kx : ℕ → ℝ := fun i => kernelMatrix P.k nodes [x] i 0 with hkx
  set w := choSolve n M z with hw
  set wx := choSolve n M kx with hwx
  have hs : Solves n M w z := choSolve_solves hp z
  have hsx : Solves n M wx kx := choSolve_solves hp kx
  have symM : SymOn n M := ((posDef_iff _ _).1 hp).1
  set y : ℕ → ℝ := fun i => a * w i + b * wx i with hy
  have h := hP.nonneg (nodes ++ [x]) a (fun i => if i < n then -y i else b)
  have hz2 : vec ((nodes ++ [x]).map P.mean) n = P.mean x := by
    rw [vec_means P.mean (nodes ++ [x]) (by omega)]
    simp [hn]
  have d : dot (nodes ++ [x]).length (fun i => if i < n then -y i else b) (vec ((nodes ++ [x]).map P.mean)) =
      b * P.mean x - dot n y z := by
    rw [hN, dot, sum_range_succ, if_neg (lt_irrefl n), hz2]
    have : ∑ i ∈ range n, (if i < n then -y i else b) * vec ((nodes ++ [x]).map P.mean) i = -dot n y z := by
      rw [dot, ← sum_neg_distrib]
      refine sum_congr rfl fun i hi => ?_
      have hi := mem_range.1 hi
      rw [if_pos hi, hz, vec_means P.mean nodes hi, vec_means P.mean (nodes ++ [x]) (by omega),
        List.getElem_append_left hi]
      ring
    rw [this]
    ring
  have bl : bil (nodes ++ [x]).length K' (fun i => if i < n then -y i else b) (fun i => if i < n then -y i else b) =
      bil n K y y - 2 * b * dot n y kx + b ^ 2 * P.k x x := by
    rw [hN, bil, sum_range_succ, sum_range_succ, if_neg (lt_irrefl n), e4]
    have a1 : ∑ i ∈ range n, ∑ t ∈ range (n + 1), (if i < n then -y i else b) * K' i t * (if t < n then -y t else b) =
        bil n K y y - b * dot n y kx := by
      rw [bil, dot, mul_sum, ← sum_sub_distrib]
      refine sum_congr rfl fun i hi => ?_
      have hi := mem_range.1 hi
      rw [sum_range_succ, if_neg (lt_irrefl n), if_pos hi, e2 i hi]
      have : ∑ t ∈ range n, -y i * K' i t * (if t < n then -y t else b) = ∑ t ∈ range n, y i * K i t * y t :=
        sum_congr rfl fun t ht => by
          rw [if_pos (mem_range.1 ht), e1 i hi t (mem_range.1 ht)]; ring
      rw [this]
      show _ + -y i * kx i * b = _ - b * (y i * kx i)
      ring
    have a2 : ∑ t ∈ range n, b * K' n t * (if t < n then -y t else b) = -(b * dot n y kx) := by
      rw [dot, mul_sum, ← sum_neg_distrib]
      refine sum_congr rfl fun t ht => ?_
      rw [if_pos (mem_range.1 ht), e3 t (mem_range.1 ht)]
      show b * kx t * -y t = _
      ring
    rw [a1, a2]
    ring
  rw [d, bl] at h
  have j1 : bil n M y y = bil n K y y + j * dot n y y := bil_jitter ..
  have j2 := mul_nonneg hj (dot_self_nonneg n y)
  have y1 : bil n M y y = a * dot n y z + b * dot n y kx := by
    have := bil_comb' (n := n) M a b w wx y
    rw [this, bil_solves hs, bil_solves hsx]
  have y2 : dot n y z = a * dot n w z + b * dot n wx z := dot_comb a b w wx z
  have y3 : dot n y kx = a * dot n w kx + b * dot n wx kx := dot_comb a b w wx kx
  have y4 : dot n w kx = dot n wx z := by
    rw [← bil_solves (u := w) hsx, bil_comm symM, bil_solves hs]
  have hV : postVar P j nodes = P.var - dot n w z := rfl
  have hE : postEmb P j nodes x = P.mean x - dot n z wx := rfl
  have hQ : postPoint P j nodes x = P.k x x - dot n wx kx := rfl
  rw [hV, hE, hQ, dot_comm n z wx]
  rw [y2, y3, y4] at y1
  rw [y2, y3, y4] at h
  nlinarith [h, j1, j2, y1]

/-! ## C60 -/

/-- Integral variance reduction lies in `[0, 1]`, for every state with positive integral variance and every candidate
with positive predictive variance (otherwise the code divides by zero). -/
theorem ivr_in_unit (hP : Consistent P) (hj : 0 ≤ u.jitter) {s : State X} (h : Reachable u P s) (hs : 0 < s.belief.2)
    {x : X} (hx : 0 < (predict P s x).2) : ∃ v, ivr P s x = some v ∧ 0 ≤ v ∧ v ≤ 1 := by
  obtain ⟨hf, hb, hsc, hp, hfac⟩ := reach_unified hP.sym h
  have hpv := predict_var hf hfac x
  refine ⟨_, ivr_eq hf hfac x (mul_pos hs hx).ne', div_nonneg (sq_nonneg _) (mul_pos hs hx).le, ?_⟩
  rw [div_le_one (mul_pos hs hx), hb, hpv]
  have hsc' : 0 < s.scaleSq := by
    rcases hsc.lt_or_eq with h | h
    · exact h
    · rw [← h, zero_mul] at hb; linarith
  have hpt : 0 < postPoint P u.jitter s.nodes x := by
    rw [hpv] at hx
    exact pos_of_mul_pos_right hx hsc
  have key := emb_sq_le hP hj x hp (postPoint P u.jitter s.nodes x) (-postEmb P u.jitter s.nodes x)
  have k2 : 0 ≤ postPoint P u.jitter s.nodes x *
      (postPoint P u.jitter s.nodes x * postVar P u.jitter s.nodes - postEmb P u.jitter s.nodes x ^ 2) := by
    refine key.trans_eq ?_
    ring
  have k3 := nonneg_of_mul_nonneg_right k2 hpt
  have k4 := mul_nonneg (sq_nonneg s.scaleSq) k3
  nlinarith [k4]

/-- Integral variance reduction and the relative reduction of the variance by an observation at the candidate (with the
scale kept): they agree up to the factor `v(x) / (v(x) + scale * jitter)`, which is 1 without jitter. -/
theorem ivr_is_reduction (hP : Consistent P) {s s' : State X} (h : Reachable u P s) (hs : 0 < s.belief.2)
    {x : X} (hx : 0 < (predict P s x).2) {y : ℝ} (h' : Update.call ⟨u.jitter, .keep⟩ P s [x] [y] = .ok s') :
    ∃ v, ivr P s x = some v ∧ (s.belief.2 - s'.belief.2) / s.belief.2 =
      v * ((predict P s x).2 / ((predict P s x).2 + s.scaleSq * u.jitter)) := by
  obtain ⟨hf, hb, hsc, hp, hfac⟩ := reach_unified hP.sym h
  have hpv := predict_var hf hfac x
  refine ⟨_, ivr_eq hf hfac x (mul_pos hs hx).ne', ?_⟩
  have hsc' : 0 < s.scaleSq := by
    rcases hsc.lt_or_eq with h | h
    · exact h
    · rw [← h, zero_mul] at hb; linarith
  obtain ⟨_, e1, _, h3, _⟩ := hf.call hP.sym h'
  obtain ⟨hp', h4, _, h5, _⟩ := closed_spec h3
  have h4 : s.scaleSq = s'.scaleSq := Except.ok.inj h4
  have h5 : s'.belief.2 = s'.scaleSq * postVar P u.jitter s'.nodes := h5
  rw [e1] at hp' h5
  obtain ⟨hpos, hred⟩ := postVar_append hP hp'
  have hpt : 0 < postPoint P u.jitter s.nodes x := by
    rw [hpv] at hx
    exact pos_of_mul_pos_right hx hsc
  have hV : 0 < postVar P u.jitter s.nodes := by
    rw [hb] at hs
    exact pos_of_mul_pos_right hs hsc
  rw [h5, ← h4, hred, hb, hpv]
  have := hpt.ne'
  have := hV.ne'
  have := hsc'.ne'
  have := hpos.ne'
  field_simp
  ring

/-- Without jitter the value is the relative reduction of the integral variance. -/
theorem ivr_exact_partial (hP : Consistent P) (hj : u.jitter = 0) {s s' : State X} (h : Reachable u P s)
    (hs : 0 < s.belief.2) {x : X} (hx : 0 < (predict P s x).2) {y : ℝ}
    (h' : Update.call ⟨u.jitter, .keep⟩ P s [x] [y] = .ok s') :
    ivr P s x = some ((s.belief.2 - s'.belief.2) / s.belief.2) := by
  obtain ⟨v, hv, e⟩ := ivr_is_reduction hP h hs hx h'
  rw [hv, e, hj, mul_zero, add_zero, div_self hx.ne', mul_one]

/-- Mutual information is not negative (it is infinite where the correlation is one). -/
theorem mutual_information_nonneg (hP : Consistent P) (hj : 0 ≤ u.jitter) {s : State X} (h : Reachable u P s)
    (hs : 0 < s.belief.2) {x : X} (hx : 0 < (predict P s x).2) :
    ∃ v, mutualInformation P s x = some v ∧ 0 ≤ v := by
  obtain ⟨v, hv, h0, h1⟩ := ivr_in_unit hP hj h hs hx
  rw [mutualInformation, hv]
  dsimp only
  rw [if_neg (by linarith)]
  split
  · exact ⟨_, rfl, le_top⟩
  · next hne =>
    refine ⟨_, rfl, ?_⟩
    have h2 : 0 < 1 - v := lt_of_le_of_ne (by linarith) (Ne.symm hne)
    have h3 := Real.log_nonpos h2.le (by linarith)
    exact_mod_cast (by linarith : (0 : ℝ) ≤ -(1 / 2) * Real.log (1 - v))

/-- The predictive variance is not negative, and so is its product with the squared density. -/
theorem weighted_variance_nonneg (hP : Consistent P) (hj : 0 ≤ u.jitter) {s : State X} (h : Reachable u P s) (x : X) :
    0 ≤ (predict P s x).2 ∧ ∀ v, weightedVariance P s x = some v → 0 ≤ v := by
  obtain ⟨hf, hb, hsc, hp, hfac⟩ := reach_unified hP.sym h
  have hpt : 0 ≤ postPoint P u.jitter s.nodes x := by
    have := emb_sq_le hP hj x hp 0 1
    simpa using this
  have h1 : 0 ≤ (predict P s x).2 := by
    rw [predict_var hf hfac x]
    exact mul_nonneg hsc hpt
  refine ⟨h1, fun v hv => ?_⟩
  rw [weightedVariance] at hv
  split at hv
  · cases hv
  · cases hv
    exact mul_nonneg (mul_nonneg h1 (one_div_nonneg.2 hsc)) (sq_nonneg _)

/-! ## A concrete case -/

/-- The kernel `x y` on `[0, 1]` with Lebesgue measure. -/
noncomputable def linearProblem : Problem ℝ := ⟨fun x y => x * y, fun x => x / 2, 1 / 4, fun _ => 1⟩

theorem linearProblem_consistent : Consistent linearProblem := by
  have h := consistent_of_features (X := ℝ) (H := ℝ) id (1 / 2) fun _ => 1
  have e : linearProblem = ⟨fun x y => inner ℝ (id x) (id y), fun x => inner ℝ (id x) (1 / 2), inner ℝ (1 / 2 : ℝ) (1 / 2),
      fun _ => 1⟩ := by
    simp only [linearProblem, Problem.mk.injEq, and_true]
    refine ⟨?_, ?_, ?_⟩
    · funext x y
      show x * y = y * x
      ring
    · funext x
      show x / 2 = 1 / 2 * x
      ring
    · show (1 / 4 : ℝ) = 1 / 2 * (1 / 2)
      norm_num
  rw [e]
  exact h

/-- An update with the value 3 at the node 1. -/
theorem linearProblem_call' (sc : ScaleEst) (hsc : sc ≠ .other) : ∃ s, Update.call ⟨1, sc⟩ linearProblem (State.initial linearProblem) [1] [3] = .ok s ∧
    s.nodes = [1] ∧ s.evals = [3] := by
  obtain ⟨G, hG, e⟩ := call_closed ⟨1, sc⟩ linearProblem linearProblem_consistent.sym (fits_initial _) [1] [3]
  have hp : (toM 1 1 (kernelMatrix linearProblem.k [1] [1] + (1 : ℝ) • eye)).PosDef := by
    rw [posDef_iff]
    refine ⟨fun i hi t ht => by rw [Nat.lt_one_iff.1 hi, Nat.lt_one_iff.1 ht], fun v ⟨i, hi, hv⟩ => ?_⟩
    rw [Nat.lt_one_iff.1 hi] at hv
    rw [bil, sum_range_one, sum_range_one]
    show 0 < v 0 * ((1 : ℝ) * 1 + 1 * 1) * v 0
    have := mul_self_pos.2 hv
    linarith
  have hc : ∃ r, closed ⟨1, sc⟩ linearProblem 1 [1] [3] = .ok r := by
    rw [closed]
    dsimp only
    rw [if_pos (by exact hp)]
    cases sc with
    | keep => exact ⟨_, rfl⟩
    | mle => exact ⟨_, rfl⟩
    | other => exact absurd rfl hsc
  obtain ⟨r, hr⟩ := hc
  have hr' : closed ⟨1, sc⟩ linearProblem (State.initial linearProblem).scaleSq
      ((State.initial linearProblem).nodes ++ [1]) ((State.initial linearProblem).evals ++ [3]) = .ok r := hr
  rw [hr'] at e
  exact ⟨_, e, rfl, rfl⟩

theorem linearProblem_call : ∃ s, Update.call ⟨1, .keep⟩ linearProblem (State.initial linearProblem) [1] [3] = .ok s ∧
    s.nodes = [1] ∧ s.evals = [3] := linearProblem_call' .keep (by decide)

theorem linearProblem_update : ∃ s, Reachable ⟨1, .keep⟩ linearProblem s ∧ s.nodes = [1] ∧ s.evals = [3] := by
  obtain ⟨s, h1, h2⟩ := linearProblem_call
  exact ⟨s, ⟨[([1], [3])], by rw [updates, h1]; rfl⟩, h2⟩

example : ∃ s, Reachable ⟨1, .keep⟩ linearProblem s ∧ 0 ≤ s.belief.2 ∧ s.belief.2 ≤ 1 / 4 := by
  obtain ⟨s, hs, _⟩ := linearProblem_update
  exact ⟨s, hs, bq_variance_nonneg linearProblem_consistent zero_le_one hs,
    bq_variance_le_prior linearProblem_consistent rfl hs⟩

/-- The hypotheses on positive variances hold before any data. -/
example : Reachable ⟨1, .keep⟩ linearProblem (State.initial linearProblem) ∧
    0 < (State.initial linearProblem).belief.2 ∧ 0 < (predict linearProblem (State.initial linearProblem) 1).2 := by
  refine ⟨⟨[], rfl⟩, ?_, ?_⟩
  · show (0 : ℝ) < 1 / 4
    norm_num
  · rw [predict]
    dsimp only
    rw [if_neg (by decide +revert)]
    show (0 : ℝ) < 1 * (1 * 1)
    norm_num

/-- **C41.**  A belief update can be constructed for exactly the non-negative jitters, and no belief reached by a
constructed update has a negative variance. -/
theorem bq_update_accepts (j : ℝ) (sc : ScaleEst) :
    (j < 0 → Update.mk? j sc = .error .valueError) ∧
      (0 ≤ j → ∃ u, Update.mk? j sc = .ok u ∧ u.jitter = j ∧ u.scale = sc) ∧
      ∀ u, Update.mk? j sc = .ok u → ∀ {X : Type} {P : Problem X}, Consistent P → ∀ {s : State X}, Reachable u P s →
        0 ≤ s.belief.2 := by
  rw [Update.mk?]
  refine ⟨fun h => if_pos h, fun h => ⟨⟨j, sc⟩, if_neg (not_lt.2 h), rfl, rfl⟩, fun u hu X P hP s hs => ?_⟩
  by_cases h : j < 0
  · rw [if_pos h] at hu; cases hu
  · rw [if_neg h] at hu
    cases hu
    exact bq_variance_nonneg hP (not_lt.1 h) hs

example : ∃ u s, Update.mk? 1 .keep = .ok u ∧ Reachable u linearProblem s ∧ s.nodes = [1] := by
  obtain ⟨s, hs, hn, _⟩ := linearProblem_update
  exact ⟨_, s, if_neg (by norm_num), hs, hn⟩

end Probnum.Quad
