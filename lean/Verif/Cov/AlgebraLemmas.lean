import Verif.Cov.Spec
import Verif.Functions.Lemmas

/-!
# Lemmas about the algebra of covariance functions
-/

namespace Probnum.Cov

open RandVars Functions

theorem checkShapes_ok {i : List ℕ} {x0 : Inp} {x1 : Option Inp} {b : List ℕ} (h : Batch i x0 x1 b) :
    checkShapes i i x0.arr.shape (x1.map fun x => x.arr.shape) = .ok b := by
  unfold checkShapes
  cases x1 with
  | none =>
    have h' : x0.arr.shape = b ++ i := h
    rw [h', if_neg (by rw [sliceFrom_append]; simp)]
    show Except.ok _ = _
    rw [sliceTo_append]
  | some x1 =>
    obtain ⟨b0, b1, h0, h1, hb⟩ := h
    rw [h0, if_neg (by rw [sliceFrom_append]; simp)]
    show (if sliceFrom x1.arr.shape ((x1.arr.shape.length : ℤ) - i.length) ≠ i then _ else
      bshape _ (sliceTo x1.arr.shape ((x1.arr.shape.length : ℤ) - i.length))) = _
    rw [h1, if_neg (by rw [sliceFrom_append]; simp), sliceTo_append, sliceTo_append, hb]

theorem covCall_ok {i o0 o1 : List ℕ} {ev : Eval} {x0 : Inp} {x1 : Option Inp} {b : List ℕ} {y : Arr} (h : Batch i x0 x1 b)
    (hy : ev x0 x1 = .ok y) (hs : y.shape = b ++ o0 ++ o1) : covCall i i o0 o1 ev x0 x1 = .ok y := by
  simp only [covCall, checkShapes_ok h, Except.bind, hy]
  rw [if_pos hs]

theorem bin_same (op : ℝ → ℝ → ℝ) {a b : Arr} (h : a.shape = b.shape) :
    ∃ c, Arr.bin op a b = .ok c ∧ c.shape = a.shape ∧ ∀ idx, Valid a.shape idx → c.get idx = op (a.get idx) (b.get idx) := by
  refine ⟨⟨a.shape, fun idx => op (a.bget idx) (b.bget idx)⟩, ?_, rfl, fun idx hi => ?_⟩
  · simp only [Arr.bin]
    rw [← h, bshape_self]; rfl
  · show op (a.bget idx) (b.bget idx) = _
    rw [bget_valid hi, bget_valid (h ▸ hi)]

/-- `k(x0, x1)` returns an array of shape `s` with the given entries. -/
def Computes (k : Core) (x0 : Inp) (x1 : Option Inp) (s : List ℕ) (v : List ℕ → ℝ) : Prop :=
  ∃ y, k.call x0 x1 = .ok y ∧ y.shape = s ∧ ∀ idx, Valid s idx → y.get idx = v idx

/-- The parts compute functions that combine to `v`. -/
def Parts (op : ℝ → ℝ → ℝ) (x0 : Inp) (x1 : Option Inp) (s : List ℕ) : List Core → (List ℕ → ℝ) → Prop
  | [], _ => False
  | [k], v => Computes k x0 x1 s v
  | k :: k' :: l, v => ∃ u w, Computes k x0 x1 s u ∧ Parts op x0 x1 s (k' :: l) w ∧ ∀ idx, v idx = op (u idx) (w idx)

theorem Parts.append {op : ℝ → ℝ → ℝ} (ho : ∀ a b c, op (op a b) c = op a (op b c)) {x0 : Inp} {x1 : Option Inp} {s : List ℕ} :
    ∀ {l l' : List Core} {v v' : List ℕ → ℝ}, Parts op x0 x1 s l v → Parts op x0 x1 s l' v' →
      Parts op x0 x1 s (l ++ l') fun idx => op (v idx) (v' idx)
  | [], _, _, _, h, _ => h.elim
  | [k], [], _, _, _, h' => h'.elim
  | [k], k' :: l', v, v', h, h' => ⟨v, v', h, h', fun _ => rfl⟩
  | k :: k' :: l, l', v, v', ⟨u, w, h1, h2, h3⟩, h' =>
    ⟨u, _, h1, Parts.append ho h2 h', fun idx => by beta_reduce; rw [h3, ho]⟩

theorem Parts.ne {op : ℝ → ℝ → ℝ} {x0 : Inp} {x1 : Option Inp} {s : List ℕ} {l : List Core} {v : List ℕ → ℝ}
    (h : Parts op x0 x1 s l v) : l ≠ [] := by
  rintro rfl; exact h

theorem reduceFrom_ok {op : ℝ → ℝ → ℝ} (ho : ∀ a b c, op (op a b) c = op a (op b c)) {x0 : Inp} {x1 : Option Inp} {s : List ℕ} :
    ∀ {l : List Core} {v : List ℕ → ℝ} (acc : Arr), acc.shape = s → Parts op x0 x1 s l v →
      ∃ y, reduceFrom (Arr.bin op) x0 x1 l acc = .ok y ∧ y.shape = s ∧ ∀ idx, Valid s idx → y.get idx = op (acc.get idx) (v idx)
  | [], _, _, _, h => h.elim
  | [k], v, acc, hs, ⟨y, hy, hys, hyv⟩ => by
    obtain ⟨c, hc, hcs, hcv⟩ := bin_same op (a := acc) (b := y) (by rw [hs, hys])
    refine ⟨c, by simp only [reduceFrom, hy, Except.bind, hc], by rw [hcs, hs], fun idx hi => ?_⟩
    rw [hcv idx (hs ▸ hi), hyv idx hi]
  | k :: k' :: l, v, acc, hs, ⟨u, w, ⟨y, hy, hys, hyv⟩, h2, h3⟩ => by
    obtain ⟨c, hc, hcs, hcv⟩ := bin_same op (a := acc) (b := y) (by rw [hs, hys])
    obtain ⟨z, hz, hzs, hzv⟩ := reduceFrom_ok ho c (by rw [hcs, hs]) h2
    refine ⟨z, ?_, hzs, fun idx hi => ?_⟩
    · rw [reduceFrom]
      simp only [hy, Except.bind, hc, hz]
    · rw [hzv idx hi, hcv idx (hs ▸ hi), hyv idx hi, h3, ho]

theorem reduceCov_ok {op : ℝ → ℝ → ℝ} (ho : ∀ a b c, op (op a b) c = op a (op b c)) {x0 : Inp} {x1 : Option Inp} {s : List ℕ} :
    ∀ {l : List Core} {v : List ℕ → ℝ}, Parts op x0 x1 s l v →
      ∃ y, reduceCov (Arr.bin op) l x0 x1 = .ok y ∧ y.shape = s ∧ ∀ idx, Valid s idx → y.get idx = v idx
  | [], _, h => h.elim
  | [k], v, ⟨y, hy, hys, hyv⟩ => ⟨y, by simp only [reduceCov, hy, Except.bind, reduceFrom], hys, hyv⟩
  | k :: k' :: l, v, ⟨u, w, ⟨y, hy, hys, hyv⟩, h2, h3⟩ => by
    obtain ⟨z, hz, hzs, hzv⟩ := reduceFrom_ok ho y hys h2
    refine ⟨z, ?_, hzs, fun idx hi => ?_⟩
    · simp only [reduceCov, hy, Except.bind, hz]
    · rw [hzv idx hi, hyv idx hi, h3]

/-- The object has the given shapes. -/
structure Shaped (f : CovFn) (i o0 o1 : List ℕ) : Prop where
  in0 : f.core.in0 = i
  in1 : f.core.in1 = i
  out0 : f.core.out0 = o0
  out1 : f.core.out1 = o1

theorem Shaped.inputShape {f : CovFn} {i o0 o1 : List ℕ} (h : Shaped f i o0 o1) : f.core.inputShape = .ok i := by
  rw [Core.inputShape, if_neg (by rw [h.in0, h.in1]; simp), h.in0]

theorem allSame_ok {f g : CovFn} {i o0 o1 : List ℕ} (hf : Shaped f i o0 o1) (hg : Shaped g i o0 o1) :
    allSame f.core g.core = .ok true := by
  have h1 : sameShapes f.core f.core = .ok true := by
    simp [sameShapes, hf.inputShape, Except.bind, Except.map]
  have h2 : sameShapes f.core g.core = .ok true := by
    simp [sameShapes, hf.inputShape, hg.inputShape, Except.bind, Except.map, hf.out0, hg.out0, hf.out1, hg.out1]
  simp [allSame, h1, h2, Except.bind]

theorem allSame_mixed {f g : CovFn} {i o0 o1 i' o0' o1' : List ℕ} (hf : Shaped f i o0 o1) (hg : Shaped g i' o0' o1')
    (h : ¬(i = i' ∧ o0 = o0' ∧ o1 = o1')) : allSame f.core g.core = .ok false := by
  have h1 : sameShapes f.core f.core = .ok true := by
    simp [sameShapes, hf.inputShape, Except.bind, Except.map]
  have h2 : sameShapes f.core g.core = .ok false := by
    simp only [sameShapes, hf.inputShape, hg.inputShape, Except.bind, Except.map, hf.out0, hg.out0, hf.out1, hg.out1,
      Except.ok.injEq, Bool.and_eq_false_iff, decide_eq_false_iff_not]
    by_cases a : i' = i
    · by_cases b : o0' = o0
      · refine Or.inr fun c => h ⟨a.symm, b.symm, c.symm⟩
      · exact Or.inl (Or.inr b)
    · exact Or.inl (Or.inl a)
  simp [allSame, h1, h2, Except.bind]

/-- The two input shapes differ. -/
def Crossed (f : CovFn) : Prop := f.core.in0 ≠ f.core.in1

theorem Crossed.inputShape {f : CovFn} (h : Crossed f) : f.core.inputShape = .error .valueError := by
  rw [Core.inputShape, if_pos (show f.core.in0 ≠ f.core.in1 from h)]

theorem allSame_crossed {f g : CovFn} (h : Crossed f ∨ ∃ i o0 o1, Shaped f i o0 o1 ∧ Crossed g) :
    allSame f.core g.core = .error .valueError := by
  rcases h with h | ⟨i, o0, o1, hf, hg⟩
  · simp [allSame, sameShapes, h.inputShape, Except.bind]
  · have h1 : sameShapes f.core f.core = .ok true := by
      simp [sameShapes, hf.inputShape, Except.bind, Except.map]
    have h2 : sameShapes f.core g.core = .error .valueError := by
      simp [sameShapes, hg.inputShape, Except.bind]
    simp [allSame, h1, h2, Except.bind]

/-- An object with the given shapes that computes `v` at `x0`, `x1`, also through its parts. -/
structure Good (f : CovFn) (i o0 o1 b : List ℕ) (x0 : Inp) (x1 : Option Inp) (v : List ℕ → ℝ) : Prop where
  shaped : Shaped f i o0 o1
  comp : Computes f.core x0 x1 (b ++ o0 ++ o1) v
  sum : ∀ l, f.kind = .sum l → Parts (· + ·) x0 x1 (b ++ o0 ++ o1) l v
  prod : ∀ l, f.kind = .prod l → Parts (· * ·) x0 x1 (b ++ o0 ++ o1) l v

theorem Good.sumParts {f : CovFn} {i o0 o1 b : List ℕ} {x0 : Inp} {x1 : Option Inp} {v : List ℕ → ℝ}
    (h : Good f i o0 o1 b x0 x1 v) : Parts (· + ·) x0 x1 (b ++ o0 ++ o1) (sumParts f) v := by
  unfold Cov.sumParts
  split
  · rename_i l hk; exact h.sum l hk
  · exact h.comp

theorem Good.prodParts {f : CovFn} {i o0 o1 b : List ℕ} {x0 : Inp} {x1 : Option Inp} {v : List ℕ → ℝ}
    (h : Good f i o0 o1 b x0 x1 v) : Parts (· * ·) x0 x1 (b ++ o0 ++ o1) (prodParts f) v := by
  unfold Cov.prodParts
  split
  · rename_i l hk; exact h.prod l hk
  · exact h.comp

theorem add_good {f g : CovFn} {i o0 o1 b : List ℕ} {x0 : Inp} {x1 : Option Inp} {v w : List ℕ → ℝ} (hb : Batch i x0 x1 b)
    (hf : Good f i o0 o1 b x0 x1 v) (hg : Good g i o0 o1 b x0 x1 w) :
    ∃ k, addCov f g = .ok k ∧ Good k i o0 o1 b x0 x1 fun idx => v idx + w idx := by
  have hp := hf.sumParts.append add_assoc hg.sumParts
  obtain ⟨y, hy, hys, hyv⟩ := reduceCov_ok add_assoc hp
  refine ⟨⟨⟨i, i, f.core.out0, f.core.out1,
    covCall i i f.core.out0 f.core.out1 (reduceCov Arr.add (sumParts f ++ sumParts g))⟩, .sum (sumParts f ++ sumParts g)⟩, ?_, ?_⟩
  · simp [addCov, allSame_ok hf.shaped hg.shaped, Except.bind, hf.shaped.inputShape, Except.map]
  · refine ⟨⟨rfl, rfl, hf.shaped.out0, hf.shaped.out1⟩, ⟨y, ?_, hys, hyv⟩, ?_, ?_⟩
    · show covCall i i f.core.out0 f.core.out1 (reduceCov Arr.add (sumParts f ++ sumParts g)) x0 x1 = _
      rw [hf.shaped.out0, hf.shaped.out1]
      exact covCall_ok hb hy hys
    · rintro l ⟨⟩; exact hp
    · rintro l ⟨⟩

theorem mul_good {f g : CovFn} {i o0 o1 b : List ℕ} {x0 : Inp} {x1 : Option Inp} {v w : List ℕ → ℝ} (hb : Batch i x0 x1 b)
    (hf : Good f i o0 o1 b x0 x1 v) (hg : Good g i o0 o1 b x0 x1 w) :
    ∃ k, mulCov f g = .ok k ∧ Good k i o0 o1 b x0 x1 fun idx => v idx * w idx := by
  have hp := hf.prodParts.append mul_assoc hg.prodParts
  obtain ⟨y, hy, hys, hyv⟩ := reduceCov_ok mul_assoc hp
  refine ⟨⟨⟨i, i, f.core.out0, f.core.out1,
    covCall i i f.core.out0 f.core.out1 (reduceCov Arr.mul (prodParts f ++ prodParts g))⟩, .prod (prodParts f ++ prodParts g)⟩, ?_, ?_⟩
  · simp [mulCov, allSame_ok hf.shaped hg.shaped, Except.bind, hf.shaped.inputShape, Except.map]
  · refine ⟨⟨rfl, rfl, hf.shaped.out0, hf.shaped.out1⟩, ⟨y, ?_, hys, hyv⟩, ?_, ?_⟩
    · show covCall i i f.core.out0 f.core.out1 (reduceCov Arr.mul (prodParts f ++ prodParts g)) x0 x1 = _
      rw [hf.shaped.out0, hf.shaped.out1]
      exact covCall_ok hb hy hys
    · rintro l ⟨⟩
    · rintro l ⟨⟩; exact hp

theorem scale_good {f : CovFn} {i o0 o1 b : List ℕ} {x0 : Inp} {x1 : Option Inp} {v : List ℕ → ℝ} (hb : Batch i x0 x1 b)
    (hf : Good f i o0 o1 b x0 x1 v) (c : ℝ) : ∃ k, mkScaled f c = .ok k ∧ Good k i o0 o1 b x0 x1 fun idx => c * v idx := by
  obtain ⟨y, hy, hys, hyv⟩ := hf.comp
  refine ⟨mkCov i i f.core.out0 f.core.out1 fun x0 x1 => (f.core.call x0 x1).map (Arr.map fun v => c * v), ?_, ?_⟩
  · simp [mkScaled, hf.shaped.inputShape, Except.map]
  · refine ⟨⟨rfl, rfl, hf.shaped.out0, hf.shaped.out1⟩, ⟨y.map fun v => c * v, ?_, hys, fun idx hi => ?_⟩, ?_, ?_⟩
    · show covCall i i f.core.out0 f.core.out1 (fun x0 x1 => (f.core.call x0 x1).map (Arr.map fun v => c * v)) x0 x1 = _
      rw [hf.shaped.out0, hf.shaped.out1]
      exact covCall_ok hb (by simp only [hy, Except.map]) hys
    · show c * y.get idx = _
      rw [hyv idx hi]
    · rintro l ⟨⟩
    · rintro l ⟨⟩

theorem build_good (val : Eval → Inp → Option Inp → Arr) {i o0 o1 b : List ℕ} {x0 : Inp} {x1 : Option Inp} (hb : Batch i x0 x1 b) :
    ∀ e : Expr, Uniform i o0 o1 e → LeavesReturn val x0 x1 (b ++ o0 ++ o1) e →
      ∃ f, build e = .ok f ∧ Good f i o0 o1 b x0 x1 (denote val e x0 x1)
  | .leaf in0 in1 out0 out1 ev, ⟨h1, h2, h3, h4⟩, ⟨hv, hs⟩ => by
    subst h1; subst h2; subst h3; subst h4
    exact ⟨_, rfl, ⟨rfl, rfl, rfl, rfl⟩, ⟨_, covCall_ok hb hv hs, hs, fun _ _ => rfl⟩, (fun _ h => by cases h),
      (fun _ h => by cases h)⟩
  | .add a c, ⟨u1, u2⟩, ⟨l1, l2⟩ => by
    obtain ⟨f, hf, gf⟩ := build_good val hb a u1 l1
    obtain ⟨g, hg, gg⟩ := build_good val hb c u2 l2
    obtain ⟨k, hk, gk⟩ := add_good hb gf gg
    exact ⟨k, by simp only [build, hf, hg, Except.bind, hk], gk⟩
  | .mul a c, ⟨u1, u2⟩, ⟨l1, l2⟩ => by
    obtain ⟨f, hf, gf⟩ := build_good val hb a u1 l1
    obtain ⟨g, hg, gg⟩ := build_good val hb c u2 l2
    obtain ⟨k, hk, gk⟩ := mul_good hb gf gg
    exact ⟨k, by simp only [build, hf, hg, Except.bind, hk], gk⟩
  | .scale c a, u, l => by
    obtain ⟨f, hf, gf⟩ := build_good val hb a u l
    obtain ⟨k, hk, gk⟩ := scale_good hb gf c
    exact ⟨k, by simp only [build, hf, Except.bind, hk], gk⟩

/-! ## Shapes of what is built -/

theorem add_shapes {f g : CovFn} {i o0 o1 i' o0' o1' : List ℕ} (hf : Shaped f i o0 o1) (hg : Shaped g i' o0' o1') :
    ((i = i' ∧ o0 = o0' ∧ o1 = o1') ∧ (∃ k, addCov f g = .ok k ∧ Shaped k i o0 o1) ∧ ∃ k, mulCov f g = .ok k ∧ Shaped k i o0 o1) ∨
      (¬(i = i' ∧ o0 = o0' ∧ o1 = o1') ∧ addCov f g = .error .valueError ∧ mulCov f g = .error .valueError) := by
  by_cases h : i = i' ∧ o0 = o0' ∧ o1 = o1'
  · obtain ⟨h1, h2, h3⟩ := h
    subst h1; subst h2; subst h3
    have ha : ∃ k, addCov f g = .ok k ∧ Shaped k i o0 o1 := by
      simp only [addCov, allSame_ok hf hg, Except.bind, hf.inputShape, Except.map]
      exact ⟨_, rfl, rfl, rfl, hf.out0, hf.out1⟩
    have hm : ∃ k, mulCov f g = .ok k ∧ Shaped k i o0 o1 := by
      simp only [mulCov, allSame_ok hf hg, Except.bind, hf.inputShape, Except.map]
      exact ⟨_, rfl, rfl, rfl, hf.out0, hf.out1⟩
    exact Or.inl ⟨⟨rfl, rfl, rfl⟩, ha, hm⟩
  · refine Or.inr ⟨h, ?_, ?_⟩
    · simp [addCov, allSame_mixed hf hg h, Except.bind]
    · simp [mulCov, allSame_mixed hf hg h, Except.bind]

theorem add_crossed {f g : CovFn} (h : Crossed f ∨ ∃ i o0 o1, Shaped f i o0 o1 ∧ Crossed g) :
    addCov f g = .error .valueError ∧ mulCov f g = .error .valueError := by
  simp [addCov, mulCov, allSame_crossed h, Except.bind]

/-- What building an expression gives: an object with the shapes of the leaves if they all agree; otherwise ValueError,
except for a single covariance function with different input shapes. -/
theorem build_shapes : ∀ e : Expr,
    (∃ i o0 o1 f, (∀ j p0 p1, Uniform j p0 p1 e ↔ j = i ∧ p0 = o0 ∧ p1 = o1) ∧ build e = .ok f ∧ Shaped f i o0 o1) ∨
      ((∀ j p0 p1, ¬Uniform j p0 p1 e) ∧ (build e = .error .valueError ∨ IsLeaf e ∧ ∃ f, build e = .ok f ∧ Crossed f))
  | .leaf in0 in1 out0 out1 ev => by
    by_cases h : in0 = in1
    · subst h
      refine Or.inl ⟨in0, out0, out1, _, fun j p0 p1 => ⟨fun h => ⟨h.1.symm, h.2.2.1.symm, h.2.2.2.symm⟩, fun h => ?_⟩, rfl,
        rfl, rfl, rfl, rfl⟩
      exact ⟨h.1.symm, h.1.symm, h.2.1.symm, h.2.2.symm⟩
    · exact Or.inr ⟨fun j p0 p1 hu => h (hu.1.trans hu.2.1.symm), Or.inr ⟨trivial, _, rfl, h⟩⟩
  | .add a b => by
    rcases build_shapes a with ⟨i, o0, o1, f, u, hf, sf⟩ | ⟨u, hf | ⟨_, f, hf, cf⟩⟩
    · rcases build_shapes b with ⟨i', o0', o1', g, u', hg, sg⟩ | ⟨u', hg | ⟨_, g, hg, cg⟩⟩
      · rcases add_shapes sf sg with ⟨⟨e1, e2, e3⟩, ⟨k, hk, sk⟩, _⟩ | ⟨e, hk, _⟩
        · refine Or.inl ⟨i, o0, o1, k, fun j p0 p1 => ?_, by simp only [build, hf, hg, Except.bind, hk], sk⟩
          show Uniform j p0 p1 a ∧ Uniform j p0 p1 b ↔ _
          rw [u, u', ← e1, ← e2, ← e3, and_self]
        · refine Or.inr ⟨fun j p0 p1 h => e ?_, Or.inl (by simp only [build, hf, hg, Except.bind, hk])⟩
          obtain ⟨a1, a2, a3⟩ := (u j p0 p1).mp h.1
          obtain ⟨b1, b2, b3⟩ := (u' j p0 p1).mp h.2
          exact ⟨a1.symm.trans b1, a2.symm.trans b2, a3.symm.trans b3⟩
      · exact Or.inr ⟨fun j p0 p1 h => u' _ _ _ h.2, Or.inl (by simp only [build, hf, hg, Except.bind])⟩
      · refine Or.inr ⟨fun j p0 p1 h => u' _ _ _ h.2, Or.inl ?_⟩
        simp only [build, hf, hg, Except.bind, (add_crossed (Or.inr ⟨i, o0, o1, sf, cg⟩)).1]
    · exact Or.inr ⟨fun j p0 p1 h => u _ _ _ h.1, Or.inl (by simp only [build, hf, Except.bind])⟩
    · refine Or.inr ⟨fun j p0 p1 h => u _ _ _ h.1, Or.inl ?_⟩
      rcases build_shapes b with ⟨i', o0', o1', g, u', hg, sg⟩ | ⟨u', hg | ⟨_, g, hg, cg⟩⟩
      · simp only [build, hf, hg, Except.bind, (add_crossed (g := g) (Or.inl cf)).1]
      · simp only [build, hf, hg, Except.bind]
      · simp only [build, hf, hg, Except.bind, (add_crossed (g := g) (Or.inl cf)).1]
  | .mul a b => by
    rcases build_shapes a with ⟨i, o0, o1, f, u, hf, sf⟩ | ⟨u, hf | ⟨_, f, hf, cf⟩⟩
    · rcases build_shapes b with ⟨i', o0', o1', g, u', hg, sg⟩ | ⟨u', hg | ⟨_, g, hg, cg⟩⟩
      · rcases add_shapes sf sg with ⟨⟨e1, e2, e3⟩, _, ⟨k, hk, sk⟩⟩ | ⟨e, _, hk⟩
        · refine Or.inl ⟨i, o0, o1, k, fun j p0 p1 => ?_, by simp only [build, hf, hg, Except.bind, hk], sk⟩
          show Uniform j p0 p1 a ∧ Uniform j p0 p1 b ↔ _
          rw [u, u', ← e1, ← e2, ← e3, and_self]
        · refine Or.inr ⟨fun j p0 p1 h => e ?_, Or.inl (by simp only [build, hf, hg, Except.bind, hk])⟩
          obtain ⟨a1, a2, a3⟩ := (u j p0 p1).mp h.1
          obtain ⟨b1, b2, b3⟩ := (u' j p0 p1).mp h.2
          exact ⟨a1.symm.trans b1, a2.symm.trans b2, a3.symm.trans b3⟩
      · exact Or.inr ⟨fun j p0 p1 h => u' _ _ _ h.2, Or.inl (by simp only [build, hf, hg, Except.bind])⟩
      · refine Or.inr ⟨fun j p0 p1 h => u' _ _ _ h.2, Or.inl ?_⟩
        simp only [build, hf, hg, Except.bind, (add_crossed (Or.inr ⟨i, o0, o1, sf, cg⟩)).2]
    · exact Or.inr ⟨fun j p0 p1 h => u _ _ _ h.1, Or.inl (by simp only [build, hf, Except.bind])⟩
    · refine Or.inr ⟨fun j p0 p1 h => u _ _ _ h.1, Or.inl ?_⟩
      rcases build_shapes b with ⟨i', o0', o1', g, u', hg, sg⟩ | ⟨u', hg | ⟨_, g, hg, cg⟩⟩
      · simp only [build, hf, hg, Except.bind, (add_crossed (g := g) (Or.inl cf)).2]
      · simp only [build, hf, hg, Except.bind]
      · simp only [build, hf, hg, Except.bind, (add_crossed (g := g) (Or.inl cf)).2]
  | .scale c a => by
    rcases build_shapes a with ⟨i, o0, o1, f, u, hf, sf⟩ | ⟨u, hf | ⟨_, f, hf, cf⟩⟩
    · refine Or.inl ⟨i, o0, o1, _, u, by simp only [build, hf, Except.bind, mkScaled, sf.inputShape, Except.map]; rfl, ?_⟩
      exact ⟨rfl, rfl, sf.out0, sf.out1⟩
    · exact Or.inr ⟨u, Or.inl (by simp only [build, hf, Except.bind])⟩
    · exact Or.inr ⟨u, Or.inl (by simp only [build, hf, Except.bind, mkScaled, cf.inputShape, Except.map])⟩

/-! ## Calls of what is built -/

/-- The call of the object is the shape-checked one. -/
def Checked (f : CovFn) : Prop := ∃ ev, f.core.call = covCall f.core.in0 f.core.in1 f.core.out0 f.core.out1 ev

theorem build_checked : ∀ (e : Expr) {f : CovFn}, build e = .ok f → Checked f
  | .leaf _ _ _ _ _, f, h => by cases h; exact ⟨_, rfl⟩
  | .add a b, f, h => by
    obtain ⟨p, hp, h⟩ := bind_ok h
    obtain ⟨q, hq, h⟩ := bind_ok h
    obtain ⟨s, hs, h⟩ := bind_ok h
    split at h
    · cases h
    · obtain ⟨i, hi, h⟩ := map_ok h
      rw [h]; exact ⟨_, rfl⟩
  | .mul a b, f, h => by
    obtain ⟨p, hp, h⟩ := bind_ok h
    obtain ⟨q, hq, h⟩ := bind_ok h
    obtain ⟨s, hs, h⟩ := bind_ok h
    split at h
    · cases h
    · obtain ⟨i, hi, h⟩ := map_ok h
      rw [h]; exact ⟨_, rfl⟩
  | .scale c a, f, h => by
    obtain ⟨p, hp, h⟩ := bind_ok h
    obtain ⟨i, hi, h⟩ := map_ok h
    rw [h]; exact ⟨_, rfl⟩

end Probnum.Cov
