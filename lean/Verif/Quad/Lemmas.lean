import Verif.Quad.Model
import Mathlib.Analysis.Matrix.PosDef
import Mathlib.Tactic.Linarith
import Mathlib.Tactic.Ring
import Mathlib.Tactic.FieldSimp

/-! # Helper lemmas on Bayesian quadrature -/

namespace Probnum.Quad

open Probnum Probnum.Linops Finset

/-! ## Bilinear forms -/

/-- `uᵀ M v`. -/
def bil (n : ℕ) (M : Mat) (u v : ℕ → ℝ) : ℝ := ∑ i ∈ range n, ∑ j ∈ range n, u i * M i j * v j

/-- The matrix is symmetric. -/
def SymOn (n : ℕ) (M : Mat) : Prop := ∀ i < n, ∀ j < n, M i j = M j i

/-- `w` solves `M w = z`. -/
def Solves (n : ℕ) (M : Mat) (w z : ℕ → ℝ) : Prop := ∀ i < n, ∑ j ∈ range n, M i j * w j = z i

theorem bil_solves {n : ℕ} {M : Mat} {u w z : ℕ → ℝ} (h : Solves n M w z) : bil n M u w = dot n u z := by
  refine sum_congr rfl fun i hi => ?_
  rw [← h i (mem_range.1 hi), mul_sum]
  exact sum_congr rfl fun j _ => by ring

theorem bil_comm {n : ℕ} {M : Mat} (hM : SymOn n M) (u v : ℕ → ℝ) : bil n M u v = bil n M v u := by
  rw [bil, sum_comm]
  refine sum_congr rfl fun i hi => sum_congr rfl fun j hj => ?_
  rw [hM j (mem_range.1 hj) i (mem_range.1 hi)]
  ring

theorem bil_comb {n : ℕ} (M : Mat) (a b : ℝ) (u v w : ℕ → ℝ) :
    bil n M (fun i => a * u i + b * v i) w = a * bil n M u w + b * bil n M v w := by
  simp only [bil, mul_sum, ← sum_add_distrib]
  exact sum_congr rfl fun i _ => sum_congr rfl fun j _ => by ring

theorem bil_comb' {n : ℕ} (M : Mat) (a b : ℝ) (u v w : ℕ → ℝ) :
    bil n M w (fun i => a * u i + b * v i) = a * bil n M w u + b * bil n M w v := by
  simp only [bil, mul_sum, ← sum_add_distrib]
  exact sum_congr rfl fun i _ => sum_congr rfl fun j _ => by ring

theorem bil_congr {n : ℕ} {M N : Mat} (h : Eqv n n M N) (u v : ℕ → ℝ) : bil n M u v = bil n N u v :=
  sum_congr rfl fun i hi => sum_congr rfl fun j hj => by rw [h i (mem_range.1 hi) j (mem_range.1 hj)]

theorem dot_comm (n : ℕ) (a b : ℕ → ℝ) : dot n a b = dot n b a := sum_congr rfl fun i _ => by ring

theorem dot_comb {n : ℕ} (a b : ℝ) (u v w : ℕ → ℝ) :
    dot n (fun i => a * u i + b * v i) w = a * dot n u w + b * dot n v w := by
  simp only [dot, mul_sum, ← sum_add_distrib]
  exact sum_congr rfl fun i _ => by ring

theorem dot_self_nonneg (n : ℕ) (u : ℕ → ℝ) : 0 ≤ dot n u u := sum_nonneg fun i _ => mul_self_nonneg _

theorem dot_congr {n : ℕ} {a a' b b' : ℕ → ℝ} (h : ∀ i < n, a i = a' i) (h' : ∀ i < n, b i = b' i) :
    dot n a b = dot n a' b' := sum_congr rfl fun i hi => by rw [h i (mem_range.1 hi), h' i (mem_range.1 hi)]

theorem bil_jitter (n : ℕ) (K : Mat) (j : ℝ) (u v : ℕ → ℝ) :
    bil n (K + j • eye) u v = bil n K u v + j * dot n u v := by
  simp only [bil, dot, mul_sum, ← sum_add_distrib]
  refine sum_congr rfl fun i hi => ?_
  have e : ∀ t ∈ range n, u i * (K + j • eye) i t * v t = u i * K i t * v t + if i = t then j * (u i * v i) else 0 := by
    intro t _
    show u i * (K i t + j * eye i t) * v t = _
    rw [eye]
    by_cases h : i = t
    · subst h; rw [if_pos rfl, if_pos rfl]; ring
    · rw [if_neg h, if_neg h]; ring
  rw [sum_congr rfl e, sum_add_distrib, sum_ite_eq, if_pos hi]

theorem symOn_jitter {n : ℕ} {K : Mat} (h : SymOn n K) (j : ℝ) : SymOn n (K + j • eye) := by
  intro i hi t ht
  show K i t + j * eye i t = K t i + j * eye t i
  rw [h i hi t ht, eye, eye]
  by_cases e : i = t
  · rw [if_pos e, if_pos e.symm]
  · rw [if_neg e, if_neg (Ne.symm e)]

/-! ## Positive definite systems -/

theorem bil_eq_matrix (n : ℕ) (M : Mat) (u v : ℕ → ℝ) :
    bil n M u v = dotProduct (fun i : Fin n => u i) ((toM n n M).mulVec fun i : Fin n => v i) := by
  rw [bil, sum_range]
  refine sum_congr rfl fun i _ => ?_
  rw [sum_range, Matrix.mulVec, dotProduct, mul_sum]
  exact sum_congr rfl fun j _ => by rw [toM, Matrix.of_apply]; ring

theorem posDef_iff (n : ℕ) (M : Mat) : (toM n n M).PosDef ↔
    SymOn n M ∧ ∀ u : ℕ → ℝ, (∃ i < n, u i ≠ 0) → 0 < bil n M u u := by
  constructor
  · intro h
    refine ⟨fun i hi j hj => ?_, fun u ⟨i, hi, hu⟩ => ?_⟩
    · have := congrFun (congrFun h.1 ⟨j, hj⟩) ⟨i, hi⟩
      simpa [toM, Matrix.conjTranspose_apply] using this
    · rw [bil_eq_matrix]
      have hne : (fun i : Fin n => u i) ≠ 0 := fun h0 => hu (congrFun h0 ⟨i, hi⟩)
      have := h.dotProduct_mulVec_pos hne
      simpa using this
  · rintro ⟨hs, hp⟩
    refine Matrix.PosDef.of_dotProduct_mulVec_pos ?_ fun x hx => ?_
    · ext i j
      exact hs j j.2 i i.2
    · have key := hp (fun i => if h : i < n then x ⟨i, h⟩ else 0) (by
        obtain ⟨i, hi⟩ := Function.ne_iff.1 hx
        exact ⟨i, i.2, by rw [dif_pos i.2]; exact hi⟩)
      rw [bil_eq_matrix] at key
      have e : (fun i : Fin n => if h : (i : ℕ) < n then x ⟨i, h⟩ else 0) = x := funext fun i => dif_pos i.2
      rw [e] at key
      simpa using key

theorem PosDefM.nonneg {n : ℕ} {M : Mat} (h : (toM n n M).PosDef) (u : ℕ → ℝ) : 0 ≤ bil n M u u := by
  by_cases hu : ∃ i < n, u i ≠ 0
  · exact (((posDef_iff n M).1 h).2 u hu).le
  · push Not at hu
    refine le_of_eq (sum_eq_zero fun i hi => sum_eq_zero fun j _ => ?_).symm
    rw [hu i (mem_range.1 hi)]; ring

theorem det_ne {n : ℕ} {M : Mat} (h : (toM n n M).PosDef) : detM n M ≠ 0 := h.det_pos.ne'

theorem choSolve_solves {n : ℕ} {M : Mat} (h : (toM n n M).PosDef) (z : ℕ → ℝ) : Solves n M (choSolve n M z) z := by
  intro i hi
  have e := mmul_invM (det_ne h)
  calc ∑ j ∈ range n, M i j * choSolve n M z j
      = ∑ t ∈ range n, (∑ j ∈ range n, M i j * invM n M j t) * z t := by
        simp only [choSolve, mul_sum, sum_mul]
        rw [sum_comm]
        exact sum_congr rfl fun t _ => sum_congr rfl fun j _ => by ring
    _ = ∑ t ∈ range n, eye i t * z t :=
        sum_congr rfl fun t ht => by rw [← e i hi t (mem_range.1 ht)]; rfl
    _ = z i := by
        rw [sum_eq_single i]
        · rw [eye, if_pos rfl, one_mul]
        · intro t _ ht
          rw [eye, if_neg (Ne.symm ht), zero_mul]
        · intro hi'
          exact absurd (mem_range.2 hi) hi'

theorem solves_unique {n : ℕ} {M : Mat} (h : (toM n n M).PosDef) {w w' z : ℕ → ℝ} (hw : Solves n M w z)
    (hw' : Solves n M w' z) : ∀ i < n, w i = w' i := by
  by_contra hne
  push Not at hne
  obtain ⟨i, hi, hne⟩ := hne
  have hp := ((posDef_iff n M).1 h).2 (fun i => 1 * w i + (-1) * w' i) ⟨i, hi, by
    intro h0; exact hne (by linarith)⟩
  rw [bil_comb', bil_solves hw, bil_solves hw'] at hp
  linarith

theorem choSolve_congr {n : ℕ} {M N : Mat} (h : Eqv n n M N) {z z' : ℕ → ℝ} (hz : ∀ i < n, z i = z' i) :
    choSolve n M z = choSolve n N z' := by
  funext i
  rw [choSolve, choSolve, invM_congr h]
  exact sum_congr rfl fun j hj => by rw [hz j (mem_range.1 hj)]

/-! ## Variational form of the variance -/

theorem variation {n : ℕ} {M : Mat} (hM : SymOn n M) {w z : ℕ → ℝ} (hw : Solves n M w z) (u : ℕ → ℝ) (V : ℝ) :
    V - 2 * dot n u z + bil n M u u = V - dot n w z + bil n M (fun i => 1 * u i + (-1) * w i) (fun i => 1 * u i + (-1) * w i) := by
  rw [bil_comb, bil_comb', bil_comb', bil_comm hM w u, bil_solves hw, bil_solves hw]
  ring

/-! ## Gram matrices -/

theorem kernelMatrix_get {X : Type} (k : X → X → ℝ) (xs ys : List X) {i j : ℕ} (hi : i < xs.length) (hj : j < ys.length) :
    kernelMatrix k xs ys i j = k xs[i] ys[j] := by
  rw [kernelMatrix, List.getElem?_eq_getElem hi, List.getElem?_eq_getElem hj]

theorem kernelMatrix_sym {X : Type} {k : X → X → ℝ} (h : ∀ x y, k x y = k y x) (xs : List X) :
    SymOn xs.length (kernelMatrix k xs xs) := by
  intro i hi j hj
  rw [kernelMatrix_get k xs xs hi hj, kernelMatrix_get k xs xs hj hi, h]

theorem blocks_eqv {X : Type} {k : X → X → ℝ} (h : ∀ x y, k x y = k y x) {xs : List X} (ys : List X) {G : Mat}
    (hG : Eqv xs.length xs.length G (kernelMatrix k xs xs)) :
    Eqv (xs ++ ys).length (xs ++ ys).length
      (blocks xs.length G (kernelMatrix k ys xs) (kernelMatrix k ys ys)) (kernelMatrix k (xs ++ ys) (xs ++ ys)) := by
  intro i hi j hj
  rw [kernelMatrix_get _ _ _ hi hj, blocks]
  rw [List.length_append] at hi hj
  by_cases h1 : j < xs.length <;> by_cases h2 : i < xs.length
  · rw [if_pos h1, if_pos h2, hG i h2 j h1, kernelMatrix_get _ _ _ h2 h1, List.getElem_append_left h1,
      List.getElem_append_left h2]
  · rw [if_pos h1, if_neg h2, kernelMatrix_get _ _ _ (by omega) h1, List.getElem_append_left h1,
      List.getElem_append_right (by omega)]
  · rw [if_neg h1, if_pos h2, trn, kernelMatrix_get _ _ _ (by omega) h2, List.getElem_append_left h2,
      List.getElem_append_right (by omega), h]
  · rw [if_neg h1, if_neg h2, kernelMatrix_get _ _ _ (by omega) (by omega), List.getElem_append_right (by omega),
      List.getElem_append_right (by omega)]

/-- The gram matrix and kernel means of the state are those of its nodes. -/
structure Fits {X : Type} (P : Problem X) (s : State X) : Prop where
  gram : Eqv s.nodes.length s.nodes.length s.gram (kernelMatrix P.k s.nodes s.nodes)
  means : s.kernelMeans = s.nodes.map P.mean
  evals : s.evals.length = s.nodes.length

theorem fits_initial {X : Type} (P : Problem X) : Fits P (State.initial P) where
  gram := fun i hi => absurd hi (Nat.not_lt_zero _)
  means := rfl
  evals := rfl

open Classical in
/-- Scale and belief computed from all data. -/
noncomputable def closed {X : Type} (u : Update) (P : Problem X) (scale0 : ℝ) (nodes : List X) (evals : List ℝ) :
    Res (ℝ × (ℝ × ℝ)) :=
  let n := nodes.length
  let M := kernelMatrix P.k nodes nodes + u.jitter • eye
  if (toM n n M).PosDef then
    match estimateScale u.scale n M evals scale0 with
    | .error e => .error e
    | .ok scale =>
      let w := choSolve n M (vec (nodes.map P.mean))
      if evals.length ≠ n then .error .valueError
      else .ok (scale, (dot n w (vec evals), scale * (P.var - dot n w (vec (nodes.map P.mean)))))
  else .error .linAlgError

theorem estimateScale_congr {est : ScaleEst} {n : ℕ} {M N : Mat} (h : Eqv n n M N) (evals : List ℝ) (old : ℝ) :
    estimateScale est n M evals old = estimateScale est n N evals old := by
  cases est
  · rfl
  · rw [estimateScale, estimateScale, choSolve_congr h fun _ _ => rfl]
  · rfl

theorem call_closed {X : Type} (u : Update) (P : Problem X) (sym : ∀ x y, P.k x y = P.k y x) {s : State X} (hs : Fits P s)
    (new : List X) (evs : List ℝ) :
    ∃ G, Eqv (s.nodes ++ new).length (s.nodes ++ new).length G (kernelMatrix P.k (s.nodes ++ new) (s.nodes ++ new)) ∧
      u.call P s new evs = match closed u P s.scaleSq (s.nodes ++ new) (s.evals ++ evs) with
        | .error e => .error e
        | .ok (scale, belief) => .ok {
            scaleSq := scale, belief := belief, previous := s.previous ++ [s.belief], nodes := s.nodes ++ new,
            evals := s.evals ++ evs, gram := G, factor := G + u.jitter • eye,
            kernelMeans := (s.nodes ++ new).map P.mean } := by
  set G := if s.nodes.length = 0 then kernelMatrix P.k (s.nodes ++ new) (s.nodes ++ new)
    else blocks s.nodes.length s.gram (kernelMatrix P.k new s.nodes) (kernelMatrix P.k new new) with hGdef
  have hG : Eqv (s.nodes ++ new).length (s.nodes ++ new).length G
      (kernelMatrix P.k (s.nodes ++ new) (s.nodes ++ new)) := by
    rw [hGdef]
    split
    · exact Eqv.refl _
    · exact blocks_eqv sym new hs.gram
  have hJ : Eqv (s.nodes ++ new).length (s.nodes ++ new).length (G + u.jitter • eye)
      (kernelMatrix P.k (s.nodes ++ new) (s.nodes ++ new) + u.jitter • eye) := add_congr hG (Eqv.refl _)
  have hm : (if s.nodes.length = 0 then (s.nodes ++ new).map P.mean else s.kernelMeans ++ new.map P.mean) =
      (s.nodes ++ new).map P.mean := by
    split
    · rfl
    · rw [hs.means, List.map_append]
  refine ⟨G, hG, ?_⟩
  rw [Update.call, closed]
  dsimp only
  rw [← hGdef, hm, choFactor, hJ.toM]
  by_cases hp : (toM (s.nodes ++ new).length (s.nodes ++ new).length
      (kernelMatrix P.k (s.nodes ++ new) (s.nodes ++ new) + u.jitter • eye)).PosDef
  · rw [if_pos hp, if_pos hp]
    dsimp only
    rw [estimateScale_congr hJ, choSolve_congr hJ (fun _ _ => rfl)]
    cases estimateScale u.scale (s.nodes ++ new).length
      (kernelMatrix P.k (s.nodes ++ new) (s.nodes ++ new) + u.jitter • eye) (s.evals ++ evs) s.scaleSq with
    | error e => rfl
    | ok scale =>
      dsimp only
      split <;> rfl
  · rw [if_neg hp, if_neg hp]

theorem closed_lengths {X : Type} {u : Update} {P : Problem X} {sc : ℝ} {nodes : List X} {evals : List ℝ} {r : ℝ × (ℝ × ℝ)}
    (h : closed u P sc nodes evals = .ok r) :
    (toM nodes.length nodes.length (kernelMatrix P.k nodes nodes + u.jitter • eye)).PosDef ∧
      evals.length = nodes.length := by
  rw [closed] at h
  dsimp only at h
  split at h
  · next hp =>
    refine ⟨hp, ?_⟩
    split at h
    · cases h
    · split at h
      · cases h
      · next hl => exact not_not.1 hl
  · cases h

theorem Fits.call {X : Type} {u : Update} {P : Problem X} (sym : ∀ x y, P.k x y = P.k y x) {s s' : State X}
    (hs : Fits P s) {new : List X} {evs : List ℝ} (h : u.call P s new evs = .ok s') :
    Fits P s' ∧ s'.nodes = s.nodes ++ new ∧ s'.evals = s.evals ++ evs ∧
      closed u P s.scaleSq s'.nodes s'.evals = .ok (s'.scaleSq, s'.belief) ∧ s'.factor = s'.gram + u.jitter • eye ∧
      s'.previous = s.previous ++ [s.belief] := by
  obtain ⟨G, hG, e⟩ := call_closed u P sym hs new evs
  rw [e] at h
  cases hc : closed u P s.scaleSq (s.nodes ++ new) (s.evals ++ evs) with
  | error e => rw [hc] at h; cases h
  | ok r =>
    obtain ⟨scale, belief⟩ := r
    rw [hc] at h
    cases h
    exact ⟨⟨hG, rfl, (closed_lengths hc).2⟩, rfl, rfl, hc, rfl, rfl⟩

theorem vec_means {X : Type} (m : X → ℝ) (nodes : List X) {i : ℕ} (hi : i < nodes.length) :
    vec (nodes.map m) i = m nodes[i] := by
  rw [vec, List.getD_eq_getElem?_getD, List.getElem?_map, List.getElem?_eq_getElem hi]
  rfl

end Probnum.Quad
