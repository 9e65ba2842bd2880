import Verif.Cov.KernelSpec
import Verif.Cov.AlgebraLemmas
import Verif.Cov.PropsMatern
import Verif.Cov.BesselLemmas
import Mathlib.Analysis.SpecialFunctions.Sqrt
import Mathlib.Tactic.FieldSimp

/-!
# The array code of the library's covariance functions computes the documented formulas at every pair of points
-/

namespace Probnum.Cov

open Finset RandVars Functions

/-! ## Broadcasting of batches -/

theorem brev_append : ∀ (s : List ℕ) {t0 t1 u : List ℕ}, brev t0 t1 = some u → brev (s ++ t0) (s ++ t1) = some (s ++ u)
  | [], _, _, _, h => h
  | a :: s, t0, t1, u, h => by
    show consOpt (bdim a a) (brev (s ++ t0) (s ++ t1)) = _
    rw [brev_append s h]
    simp [consOpt, bdim]

theorem bshape_append {b0 b1 b : List ℕ} (i : List ℕ) (h : bshape b0 b1 = .ok b) : bshape (b0 ++ i) (b1 ++ i) = .ok (b ++ i) := by
  have := brev_append i.reverse (bshape_ok h)
  rw [bshape, List.reverse_append, List.reverse_append, this]
  simp

theorem bir_append : ∀ {s k : List ℕ}, s.length = k.length → ∀ t l, bir (s ++ t) (k ++ l) = bir s k ++ bir t l
  | [], [], _, t, l => by simp [bir]
  | a :: s, j :: k, h, t, l => by
    show (if a = 1 then 0 else j) :: bir (s ++ t) (k ++ l) = (if a = 1 then 0 else j) :: bir s k ++ bir t l
    rw [bir_append (by simpa using h)]; rfl
  | [], _ :: _, h, _, _ => by simp at h
  | _ :: _, [], h, _, _ => by simp at h

theorem bget_point {i b : List ℕ} {a : Arr} (ha : a.shape = b ++ i) (idx : List ℕ) {k : List ℕ} (hk : Valid i k) :
    a.bget (idx ++ k) = pointAt i a idx k := by
  have e : a.shape.take (a.shape.length - i.length) = b := by rw [ha]; simp
  rw [Arr.bget, pointAt, e, ha, List.reverse_append, List.reverse_append, bir_append (by simpa using hk.length),
    List.reverse_append, bir_valid hk.rev, List.reverse_reverse]

theorem pointAt_valid {i b : List ℕ} {a : Arr} (ha : a.shape = b ++ i) {idx : List ℕ} (hi : Valid b idx) (k : List ℕ) :
    pointAt i a idx k = a.get (idx ++ k) := by
  have e : a.shape.take (a.shape.length - i.length) = b := by rw [ha]; simp
  rw [pointAt, e, bir_valid hi.rev, List.reverse_reverse]

theorem bin_point (op : ℝ → ℝ → ℝ) {i b b0 b1 : List ℕ} {x y : Arr} (hx : x.shape = b0 ++ i) (hy : y.shape = b1 ++ i)
    (hb : bshape b0 b1 = .ok b) : ∃ d, Arr.bin op x y = .ok d ∧ d.shape = b ++ i ∧
      ∀ idx k, Valid i k → d.get (idx ++ k) = op (pointAt i x idx k) (pointAt i y idx k) := by
  refine ⟨⟨b ++ i, fun idx => op (x.bget idx) (y.bget idx)⟩, ?_, rfl, fun idx k hk => ?_⟩
  · simp only [Arr.bin]
    rw [hx, hy, bshape_append i hb]; rfl
  · show op (x.bget (idx ++ k)) (y.bget (idx ++ k)) = _
    rw [bget_point hx idx hk, bget_point hy idx hk]

theorem sumTail_shape {i b : List ℕ} {a : Arr} (ha : a.shape = b ++ i) : (sumTail i.length a).shape = b := by
  rw [sumTail, ha]; simp

theorem sumTail_get {i b : List ℕ} {a : Arr} (ha : a.shape = b ++ i) (idx : List ℕ) :
    (sumTail i.length a).get idx = ∑ j ∈ range i.prod, a.get (idx ++ unravel i j) := by
  have e : a.shape.drop (a.shape.length - i.length) = i := by rw [ha]; simp
  rw [sumTail]
  show ∑ j ∈ range (a.shape.drop (a.shape.length - i.length)).prod, _ = _
  rw [e]

theorem brev_absorb : ∀ {s i : List ℕ} (t : List ℕ), brev s i = some i → brev s (i ++ t) = some (i ++ t)
  | [], _, _, _ => rfl
  | a :: s, [], _, h => by simp [brev] at h
  | a :: s, c :: i, t, h => by
    have h' : consOpt (bdim a c) (brev s i) = some (c :: i) := h
    obtain ⟨e, r, h1, h2, h3⟩ := consOpt_some h'
    obtain ⟨h4, h5⟩ := List.cons.inj h3
    subst h4; subst h5
    show consOpt (bdim a c) (brev s (i ++ t)) = _
    rw [brev_absorb t h2, h1]; rfl

theorem bir_prefix : ∀ {s k : List ℕ} (l : List ℕ), s.length ≤ k.length → bir s (k ++ l) = bir s k
  | [], _, _, _ => by simp [bir]
  | a :: s, j :: k, l, h => by
    show (if a = 1 then 0 else j) :: bir s (k ++ l) = (if a = 1 then 0 else j) :: bir s k
    rw [bir_prefix l (by simpa using h)]
  | _ :: _, [], _, h => by simp at h

theorem imul_point {i b : List ℕ} {d s : Arr} (hd : d.shape = b ++ i) (hs : bshape s.shape i = .ok i) :
    ∃ r, imul false d s = .ok r ∧ r.shape = b ++ i ∧ ∀ idx k, Valid b idx → Valid i k →
      r.get (idx ++ k) = d.get (idx ++ k) * s.bget k := by
  have h1 : brev s.shape.reverse i.reverse = some i.reverse := bshape_ok hs
  have h2 : bshape d.shape s.shape = .ok (b ++ i) := by
    rw [bshape_comm, bshape, hd, List.reverse_append, brev_absorb _ h1]; simp
  refine ⟨⟨b ++ i, fun idx => d.bget idx * s.bget idx⟩, ?_, rfl, fun idx k hi hk => ?_⟩
  · rw [imul, if_neg (by simp)]
    simp only [Arr.mul, Arr.bin, h2, Except.map, Except.bind]
    rw [if_pos hd.symm]
  · show d.bget (idx ++ k) * s.bget (idx ++ k) = _
    rw [bget_valid (by rw [hd]; exact hi.append hk)]
    congr 1
    rw [Arr.bget, Arr.bget, List.reverse_append, bir_prefix]
    have := brev_length h1
    rw [List.length_reverse] at this ⊢
    rw [List.length_reverse] at this ⊢
    rw [← hk.length]; exact this

/-! ## Distances and inner products -/

/-- What a `_evaluate` of scalar output has to return. -/
def Returns (i b : List ℕ) (x0 : Inp) (x1 : Option Inp) (r : Res Arr) (v : Point → Point → ℝ) : Prop :=
  ∃ y, r = .ok y ∧ y.shape = b ∧ ∀ idx, Valid b idx →
    y.get idx = v (pointAt i x0.arr idx) (pointAt i (x1.getD x0).arr idx)

theorem Returns.map {i b : List ℕ} {x0 : Inp} {x1 : Option Inp} {r : Res Arr} {v w : Point → Point → ℝ}
    (h : Returns i b x0 x1 r v) (f : ℝ → ℝ) (hw : ∀ x y, f (v x y) = w x y) : Returns i b x0 x1 (r.map (Arr.map f)) w := by
  obtain ⟨y, hy, hs, hv⟩ := h
  refine ⟨y.map f, by rw [hy]; rfl, hs, fun idx hi => ?_⟩
  show f (y.get idx) = _
  rw [hv idx hi, hw]

theorem Returns.congr {i b : List ℕ} {x0 : Inp} {x1 : Option Inp} {r : Res Arr} {v w : Point → Point → ℝ}
    (h : Returns i b x0 x1 r v) (hw : ∀ x y, v x y = w x y) : Returns i b x0 x1 r w := by
  obtain ⟨y, hy, hs, hv⟩ := h
  exact ⟨y, hy, hs, fun idx hi => by rw [hv idx hi, hw]⟩

theorem fullBatch_returns {i b : List ℕ} {x0 : Inp} (hb : Batch i x0 none b) (c : ℝ) {v : Point → Point → ℝ}
    (hv : ∀ x, v x x = c) : Returns i b x0 none (.ok (fullBatch i x0 c)) v := by
  have h : x0.arr.shape = b ++ i := hb
  refine ⟨_, rfl, ?_, fun idx _ => (hv _).symm⟩
  rw [fullBatch, h]
  exact sliceTo_append b i

theorem innerProducts_returns {i b : List ℕ} {x0 : Inp} {x1 : Option Inp} (hb : Batch i x0 x1 b) (hi : i.length ≤ 1) :
    Returns i b x0 x1 (innerProducts i x0 x1) fun x y => ∑ j ∈ range i.prod, x.at i j * y.at i j := by
  have hp : ∃ d, products x0 x1 = .ok d ∧ d.shape = b ++ i ∧ ∀ idx k, Valid b idx → Valid i k →
      d.get (idx ++ k) = pointAt i x0.arr idx k * pointAt i (x1.getD x0).arr idx k := by
    cases x1 with
    | none =>
      have h : x0.arr.shape = b ++ i := hb
      refine ⟨_, rfl, h, fun idx k hi hk => ?_⟩
      show x0.arr.get (idx ++ k) ^ 2 = _
      rw [Option.getD_none, pointAt_valid h hi, sq]
    | some x1 =>
      obtain ⟨b0, b1, h0, h1, h⟩ := hb
      obtain ⟨d, hd, hs, hv⟩ := bin_point (· * ·) h0 h1 h
      exact ⟨d, hd, hs, fun idx k _ hk => hv idx k hk⟩
  obtain ⟨d, hd, hs, hv⟩ := hp
  by_cases h0 : i.length = 0
  · have hi0 : i = [] := List.length_eq_zero_iff.mp h0
    subst hi0
    refine ⟨d, by simp only [innerProducts, hd, Except.bind]; rfl, by simpa using hs, fun idx hidx => ?_⟩
    have := hv idx [] hidx List.Forall₂.nil
    rw [List.append_nil] at this
    rw [this]
    simp [Point.at, unravel_nil]
  · have h1 : i.length = 1 := by omega
    refine ⟨sumTail i.length d, ?_, sumTail_shape hs, fun idx hidx => ?_⟩
    · simp only [innerProducts, hd, Except.bind]
      rw [if_neg h0, if_neg (by simp [h1])]
    · rw [sumTail_get hs]
      refine sum_congr rfl fun j hj => hv idx _ hidx (unravel_valid (mem_range.mp hj))

theorem sqDists_returns {i b : List ℕ} {x0 x1 : Inp} (hb : Batch i x0 (some x1) b) (hf : (x0.int && x1.int) = false)
    {s : Option Arr} (hs : ∀ a, s = some a → bshape a.shape i = .ok i) :
    Returns i b x0 (some x1) (sqDists i s x0 (some x1)) fun x y =>
      ∑ j ∈ range i.prod, ((x.at i j - y.at i j) * (s.map fun a => a.bget (unravel i j)).getD 1) ^ 2 := by
  obtain ⟨b0, b1, h0, h1, h⟩ := hb
  obtain ⟨d, hd, hds, hdv⟩ := bin_point (· - ·) h0 h1 h
  have hr : ∃ r, applyScale (x0.int && x1.int) s d = .ok r ∧ r.shape = b ++ i ∧ ∀ idx k, Valid b idx → Valid i k →
      r.get (idx ++ k) = (pointAt i x0.arr idx k - pointAt i x1.arr idx k) * (s.map fun a => a.bget k).getD 1 := by
    cases s with
    | none => exact ⟨d, rfl, hds, fun idx k _ hk => by rw [hdv idx k hk]; simp⟩
    | some a =>
      obtain ⟨r, hr, hrs, hrv⟩ := imul_point hds (hs a rfl)
      refine ⟨r, by rw [hf]; exact hr, hrs, fun idx k hi hk => ?_⟩
      rw [hrv idx k hi hk, hdv idx k hk]; rfl
  obtain ⟨r, hr, hrs, hrv⟩ := hr
  refine ⟨sumTail i.length (r.map fun v => v * v), ?_, sumTail_shape (a := r.map fun v => v * v) hrs, fun idx hidx => ?_⟩
  · have hd' : x0.arr.sub x1.arr = .ok d := hd
    simp only [sqDists, hd', Except.bind, hr, Except.map]
  · rw [sumTail_get (a := r.map fun v => v * v) hrs]
    refine sum_congr rfl fun j hj => ?_
    show r.get _ * r.get _ = _
    rw [hrv idx _ hidx (unravel_valid (mem_range.mp hj)), sq]; rfl

theorem scaledSq_self (i : List ℕ) (ls : Arr) (x : Point) : scaledSq i ls x x = 0 := by simp [scaledSq]

theorem scaledSq_nonneg (i : List ℕ) (ls : Arr) (x y : Point) : 0 ≤ scaledSq i ls x y := sum_nonneg fun _ _ => sq_nonneg _

theorem scaled_sum (i : List ℕ) (ls : Arr) {c : ℝ} (x y : Point) :
    ∑ j ∈ range i.prod, ((x.at i j - y.at i j) * ((some (ls.map fun l => c / l)).map fun a => a.bget (unravel i j)).getD 1) ^ 2 =
      c ^ 2 * scaledSq i ls x y := by
  rw [scaledSq, mul_sum]
  refine sum_congr rfl fun j _ => ?_
  show ((x.at i j - y.at i j) * (c / scaleAt i ls j)) ^ 2 = _
  ring

theorem checkLengthscales_ok {i : List ℕ} {ls : Arr} (h : checkLengthscales i ls = .ok ()) :
    (∀ k < ls.size, 0 < ls.flat k) ∧ bshape ls.shape i = .ok i := by
  unfold checkLengthscales at h
  split at h
  · cases h
  · rename_i hn
    split at h
    · rename_i hb
      exact ⟨fun k hk => not_le.mp fun h => hn ⟨k, hk, h⟩, hb⟩
    · cases h

/-! ## Matérn -/

theorem maternRadial_spec {ν u : ℝ} (hν : 0 < ν) (hu : 0 ≤ u) : maternRadial ν u = maternSpec ν u := by
  unfold maternRadial maternSpec
  split
  · rename_i h
    rw [maternValue_doc _ hu, ← h, sub_add_cancel]
  · have he : 0 < machineEps := by unfold machineEps; positivity
    have hm : 0 < max u machineEps := lt_max_of_lt_right he
    rw [maternBessel, maternDoc, if_neg hm.ne']

theorem maternEval_returns {i b : List ℕ} {x0 : Inp} {x1 : Option Inp} (hb : Batch i x0 x1 b) (hf : x0.int = false) {ν : ℝ}
    (hν : 0 < ν) {ls : Arr} (hl : bshape ls.shape i = .ok i) : Returns i b x0 x1 (maternEval i ν ls x0 x1)
      fun x y => maternSpec ν (Real.sqrt (2 * ν) * Real.sqrt (scaledSq i ls x y)) := by
  have hd : Returns i b x0 x1 (dists i (ls.map fun l => Real.sqrt (2 * ν) / l) x0 x1)
      fun x y => Real.sqrt (2 * ν) * Real.sqrt (scaledSq i ls x y) := by
    cases x1 with
    | none => exact fullBatch_returns hb 0 fun x => by rw [scaledSq_self]; simp
    | some x1 =>
      refine (sqDists_returns hb (by simp [hf]) (s := some (ls.map fun l => Real.sqrt (2 * ν) / l)) ?_).map Real.sqrt
        fun x y => ?_
      · rintro a ⟨⟩; exact hl
      · rw [scaled_sum i ls x y, Real.sqrt_mul (sq_nonneg _), Real.sqrt_sq (Real.sqrt_nonneg _)]
  rw [maternEval, if_neg (by simp [hf])]
  exact hd.map (maternRadial ν) fun x y =>
    maternRadial_spec hν (mul_nonneg (Real.sqrt_nonneg _) (Real.sqrt_nonneg _))

/-- The parameters of a one-dimensional Matérn covariance function as its value. -/
noncomputable def maternOne (m : ℝ × ℝ) (d : ℝ) : ℝ := maternSpec m.1 (Real.sqrt (2 * m.1) * (|d| / m.2))

theorem scaledSq_nil {l : ℝ} (hl : 0 < l) (x y : Point) :
    Real.sqrt (scaledSq [] ⟨[], fun _ => l⟩ x y) = |x [] - y []| / l := by
  have : scaledSq [] ⟨[], fun _ => l⟩ x y = ((x [] - y []) / l) ^ 2 := by
    simp [scaledSq, Point.at, unravel_nil, scaleAt, Arr.bget]
  rw [this, Real.sqrt_sq_eq_abs, abs_div, abs_of_pos hl]

theorem maternNil_call {b : List ℕ} {x0 : Inp} {x1 : Option Inp} (hb : Batch [] x0 x1 b) (hf : x0.int = false) {m : ℝ × ℝ}
    (hm : 0 < m.1 ∧ 0 < m.2) : Returns [] b x0 x1 (covCall [] [] [] [] (maternEval [] m.1 ⟨[], fun _ => m.2⟩) x0 x1)
      fun x y => maternOne m (x [] - y []) := by
  obtain ⟨y, hy, hs, hv⟩ := maternEval_returns hb hf hm.1 (ls := ⟨[], fun _ => m.2⟩) rfl
  refine ⟨y, covCall_ok hb hy (by simpa using hs), hs, fun idx hi => ?_⟩
  rw [hv idx hi]; beta_reduce; rw [scaledSq_nil hm.2]; rfl

theorem pickLast_batch {n : ℕ} {b : List ℕ} {x0 : Inp} {x1 : Option Inp} (hb : Batch [n] x0 x1 b) (d : ℕ) :
    Batch [] ⟨pickLast x0.arr d, x0.int⟩ (x1.map fun x => ⟨pickLast x.arr d, x.int⟩) b := by
  have hp : ∀ {a : Arr} {c : List ℕ}, a.shape = c ++ [n] → (pickLast a d).shape = c ++ [] := by
    intro a c h
    show a.shape.dropLast = _
    rw [h]; simp
  cases x1 with
  | none => exact hp hb
  | some x1 =>
    obtain ⟨b0, b1, h0, h1, h⟩ := hb
    exact ⟨b0, b1, hp h0, hp h1, h⟩

theorem pickLast_point {n : ℕ} {c : List ℕ} {a : Arr} (ha : a.shape = c ++ [n]) (d : ℕ) (idx : List ℕ) :
    pointAt [] (pickLast a d) idx [] = pointAt [n] a idx [d] := by
  unfold pointAt pickLast
  simp [ha]

theorem maternDim_returns {n : ℕ} {b : List ℕ} {x0 : Inp} {x1 : Option Inp} (hb : Batch [n] x0 x1 b) (hf : x0.int = false)
    {m : ℝ × ℝ} (hm : 0 < m.1 ∧ 0 < m.2) (d : ℕ) : Returns [n] b x0 x1 (maternDim m d x0 x1) fun x y => maternOne m (x [d] - y [d]) := by
  obtain ⟨y, hy, hs, hv⟩ := maternNil_call (pickLast_batch hb d) hf hm
  refine ⟨y, hy, hs, fun idx hi => ?_⟩
  rw [hv idx hi]
  have h0 : ∃ c, x0.arr.shape = c ++ [n] := by
    cases x1 with
    | none => exact ⟨b, hb⟩
    | some x1 => obtain ⟨b0, b1, h0, h1, h⟩ := hb; exact ⟨b0, h0⟩
  obtain ⟨c, hc⟩ := h0
  have e0 := pickLast_point hc d idx
  have e1 : pointAt [] ((x1.map fun x => (⟨pickLast x.arr d, x.int⟩ : Inp)).getD ⟨pickLast x0.arr d, x0.int⟩).arr idx [] =
      pointAt [n] (x1.getD x0).arr idx [d] := by
    cases x1 with
    | none => exact e0
    | some x1 => obtain ⟨b0, b1, h0, h1, h⟩ := hb; exact pickLast_point h1 d idx
  show maternOne m (pointAt [] (pickLast x0.arr d) idx [] - _) = _
  rw [e0, e1]

theorem imul_same {a y : Arr} (h : a.shape = y.shape) :
    ∃ r, imul false a y = .ok r ∧ r.shape = a.shape ∧ ∀ idx, Valid a.shape idx → r.get idx = a.get idx * y.get idx := by
  obtain ⟨c, hc, hs, hv⟩ := bin_same (· * ·) h
  refine ⟨c, ?_, hs, hv⟩
  rw [imul, if_neg (by simp)]
  have hc' : a.mul y = .ok c := hc
  simp only [hc', Except.bind]
  rw [if_pos hs]

theorem productLoop_returns {n : ℕ} {b : List ℕ} {x0 : Inp} {x1 : Option Inp} (hb : Batch [n] x0 x1 b) (hf : x0.int = false) :
    ∀ (ms : List (ℝ × ℝ)) (d : ℕ) (acc : Arr) (v : Point → Point → ℝ), (∀ m ∈ ms, 0 < m.1 ∧ 0 < m.2) →
      Returns [n] b x0 x1 (.ok acc) v → Returns [n] b x0 x1 (productLoop x0 x1 ms d acc)
        fun x y => v x y * ∏ j ∈ range ms.length, maternOne (ms.getD j (1, 1)) (x [d + j] - y [d + j])
  | [], d, acc, v, _, h => h.congr fun x y => by simp
  | m :: l, d, acc, v, hm, ⟨a, ha, hs, hv⟩ => by
    cases ha
    obtain ⟨y, hy, hys, hyv⟩ := maternDim_returns hb hf (hm m List.mem_cons_self) d
    obtain ⟨r, hr, hrs, hrv⟩ := imul_same (a := acc) (y := y) (by rw [hs, hys])
    have := productLoop_returns hb hf l (d + 1) r (fun x y => v x y * maternOne m (x [d] - y [d]))
      (fun k hk => hm k (List.mem_cons_of_mem _ hk))
      ⟨r, rfl, by rw [hrs, hs], fun idx hi => by rw [hrv idx (hs ▸ hi), hv idx hi, hyv idx hi]⟩
    have e : productLoop x0 x1 (m :: l) d acc = productLoop x0 x1 l (d + 1) r := by
      simp only [productLoop, hy, Except.bind, hr]
    rw [e]
    refine this.congr fun x y => ?_
    rw [List.length_cons, prod_range_succ']
    simp only [List.getD_cons_succ, List.getD_cons_zero, add_zero]
    rw [mul_assoc, mul_comm (maternOne m _)]
    refine congrArg (v x y * ·) (congrArg (· * _) (prod_congr rfl fun j _ => ?_))
    rw [show d + 1 + j = d + (j + 1) by ring]

theorem maternCheck_ok {i : List ℕ} {ν : ℝ} {ls : Arr} (h : (Kernel.matern ν ls).check i = .ok ()) :
    0 < ν ∧ checkLengthscales i ls = .ok () := by
  rw [Kernel.check] at h
  split at h
  · cases h
  · rename_i hn
    exact ⟨not_le.mp hn, h⟩

theorem productCheck_ok {i : List ℕ} {ms : List (ℝ × ℝ)} (h : (Kernel.productMatern ms).check i = .ok ()) :
    (if i = [] then 1 else i.headD 0) ≤ ms.length ∧
      ∀ m ∈ ms.take (if i = [] then 1 else i.headD 0), 0 < m.1 ∧ 0 < m.2 := by
  rw [Kernel.check] at h
  generalize (if i = [] then 1 else i.headD 0) = N at h ⊢
  split at h
  · cases h
  · rename_i hn
    split at h
    · cases h
    · rename_i hl
      exact ⟨not_lt.mp hl, fun m hm => ⟨not_le.mp fun h => hn ⟨m, hm, Or.inl h⟩, not_le.mp fun h => hn ⟨m, hm, Or.inr h⟩⟩⟩

/-! ## All of them -/

theorem Kernel.eval_returns {i b : List ℕ} {x0 : Inp} {x1 : Option Inp} (k : Kernel) (hk : k.check i = .ok ()) (hs : k.Supports i)
    (hb : Batch i x0 x1 b) (hf : x0.int = false) : Returns i b x0 x1 (k.eval i x0 x1) (k.value i) := by
  cases k with
  | linear c => exact (innerProducts_returns hb hs).map _ fun _ _ => rfl
  | polynomial c q => exact (innerProducts_returns hb hs).map _ fun _ _ => rfl
  | expQuad ls =>
    have hl := (checkLengthscales_ok hk).2
    cases x1 with
    | none => exact fullBatch_returns hb 1 fun x => by simp [Kernel.value, scaledSq_self]
    | some x1 =>
      refine (sqDists_returns hb (by simp [hf]) (s := some (ls.map fun l => Real.sqrt (1 / 2) / l)) ?_).map
        (fun v => Real.exp (-v)) fun x y => ?_
      · rintro a ⟨⟩; exact hl
      · rw [scaled_sum i ls x y, Real.sq_sqrt (by norm_num)]
        show _ = Real.exp (-(scaledSq i ls x y / 2))
        congr 1; ring
  | ratQuad l α =>
    cases x1 with
    | none => exact fullBatch_returns hb 1 fun x => by simp [Kernel.value]
    | some x1 =>
      refine (sqDists_returns hb (by simp [hf]) (s := none) (by simp)).map
        (fun v => (1 + v / (2 * α * l ^ 2)) ^ (-α)) fun x y => ?_
      simp [Kernel.value]
  | whiteNoise σ2 =>
    cases x1 with
    | none =>
      refine fullBatch_returns hb _ fun x => ?_
      simp [Kernel.value, hf]
    | some x1 =>
      obtain ⟨b0, b1, h0, h1, h⟩ := hb
      classical
      obtain ⟨d, hd, hds, hdv⟩ := bin_point (fun a b => if a = b then 1 else 0) h0 h1 h
      show Returns i b x0 (some x1) (whiteNoiseEval i σ2 x0 (some x1)) _
      by_cases hi : i = []
      · subst hi
        refine ⟨d.map fun v => σ2 * v, ?_, (by simpa using hds : d.shape = b), fun idx hidx => ?_⟩
        · simp only [whiteNoiseEval]
          rw [if_pos trivial, hd]; rfl
        · show σ2 * d.get idx = _
          have := hdv idx [] List.Forall₂.nil
          rw [List.append_nil] at this
          rw [this]
          simp [Kernel.value, Point.at, unravel_nil]
      · obtain ⟨n, rfl⟩ : ∃ n, i = [n] := by
          have h1 : i.length ≤ 1 := hs
          match i, hi, h1 with
          | [n], _, _ => exact ⟨n, rfl⟩
        refine ⟨⟨d.shape.dropLast, fun idx => σ2 * if ∀ j < d.shape.getLastD 0, d.get (idx ++ [j]) = 1 then 1 else 0⟩, ?_, ?_,
          fun idx hidx => ?_⟩
        · simp only [whiteNoiseEval, allEqLast]
          rw [if_neg hi, hd]; rfl
        · show d.shape.dropLast = b
          rw [hds]; simp
        · show (σ2 * if ∀ j < d.shape.getLastD 0, d.get (idx ++ [j]) = 1 then 1 else 0) = _
          have e : d.shape.getLastD 0 = n := by rw [hds]; simp
          have e2 : (∀ j < d.shape.getLastD 0, d.get (idx ++ [j]) = 1) ↔
              ∀ j < [n].prod, (pointAt [n] x0.arr idx).at [n] j = (pointAt [n] ((some x1).getD x0).arr idx).at [n] j := by
            rw [e, List.prod_singleton]
            refine forall₂_congr fun j hj => ?_
            rw [hdv idx [j] (List.Forall₂.cons hj List.Forall₂.nil), Point.at, Point.at, unravel_one n j hj]
            simp
          rw [Kernel.value]
          simp only [e2]
          split <;> simp
  | matern ν ls =>
    obtain ⟨hν, hk⟩ := maternCheck_ok hk
    exact maternEval_returns hb hf hν (checkLengthscales_ok hk).2
  | productMatern ms =>
    obtain ⟨h1, hne⟩ := hs
    set N := (if i = [] then 1 else i.headD 0) with hN
    have hlen : N ≤ ms.length ∧ ∀ m ∈ ms.take N, 0 < m.1 ∧ 0 < m.2 := productCheck_ok hk
    have hNp : N = i.prod := by
      rw [hN]
      match i, h1 with
      | [], _ => rfl
      | [n], _ => simp
    have hN0 : N ≠ 0 := by
      rw [hNp]
      match i, h1, hne with
      | [], _, _ => simp
      | [n], _, h => simpa using h
    have hval : ∀ x y, (Kernel.productMatern ms).value i x y =
        ∏ j ∈ range N, maternOne ((ms.take N).getD j (1, 1)) (x.at i j - y.at i j) := by
      intro x y
      show ∏ j ∈ range i.prod, _ = _
      rw [← hNp]
      refine prod_congr rfl fun j hj => ?_
      have hj' := mem_range.mp hj
      have : (ms.take N).getD j (1, 1) = ms.getD j (1, 1) := by
        simp [List.getD_eq_getElem?_getD, List.getElem?_take, hj']
      rw [this]; rfl
    show Returns i b x0 x1 (productMaternEval i (ms.take N) x0 x1) _
    have htl : (ms.take N).length = N := by rw [List.length_take]; omega
    match hms : ms.take N, htl with
    | [], htl => exact absurd htl.symm hN0
    | m :: l, htl =>
      rw [hms] at hlen
      have hm : 0 < m.1 ∧ 0 < m.2 := hlen.2 m List.mem_cons_self
      by_cases hi : i = []
      · subst hi
        have hl : l = [] := by
          have hN1 : N = 1 := by rw [hN]; simp
          rw [hN1] at htl
          simpa using htl
        subst hl
        obtain ⟨y, hy, hys, hyv⟩ := maternNil_call hb hf hm
        refine ⟨y, by simp only [productMaternEval]; exact hy, hys, fun idx hidx => ?_⟩
        rw [hyv idx hidx, hval, hms]
        have hN1 : N = 1 := by rw [hN]; simp
        rw [hN1]
        simp [Point.at, unravel_nil]
      · obtain ⟨n, rfl⟩ : ∃ n, i = [n] := by
          match i, hi, h1 with
          | [n], _, _ => exact ⟨n, rfl⟩
        obtain ⟨y, hy, hys, hyv⟩ := maternDim_returns hb hf hm 0
        have := productLoop_returns hb hf l 1 y (fun x y => maternOne m (x [0] - y [0])) (fun k hk => hlen.2 k (List.mem_cons_of_mem _ hk)) ⟨y, rfl, hys, hyv⟩
        have e : productMaternEval [n] (m :: l) x0 x1 = productLoop x0 x1 l 1 y := by
          simp only [productMaternEval]
          rw [if_neg (by simp), if_neg (by simp), hy]; rfl
        rw [e]
        refine this.congr fun x y => ?_
        rw [hval, hms, ← htl, List.length_cons, prod_range_succ']
        simp only [List.getD_cons_succ, List.getD_cons_zero]
        rw [mul_comm]
        have hN' : N = n := by rw [hNp]; simp
        have hn0 : 0 < n := by omega
        rw [List.length_cons] at htl
        congr 1
        refine prod_congr rfl fun j hj => ?_
        have hj' := mem_range.mp hj
        rw [Point.at, Point.at, unravel_one n (j + 1) (by omega), add_comm 1 j]

end Probnum.Cov
