import Verif.Functions.Spec
import Verif.RandVars.ArrLemmas
import Verif.RandVars.ArithLemmas

/-!
# Lemmas about the function algebra
-/

namespace Probnum.Functions

open RandVars

/-! ## Slices and calls -/

theorem sliceFrom_append (b i : List ℕ) : sliceFrom (b ++ i) (((b ++ i).length : ℤ) - i.length) = i := by
  have : ((b ++ i).length : ℤ) - i.length = b.length := by simp
  rw [this, sliceFrom, if_neg (by omega)]
  simp

theorem sliceTo_append (b i : List ℕ) : sliceTo (b ++ i) (((b ++ i).length : ℤ) - i.length) = b := by
  have : ((b ++ i).length : ℤ) - i.length = b.length := by simp
  rw [this, sliceTo, if_neg (by omega)]
  simp

/-- The check of `__call__` passes exactly for shapes ending with the input shape (also when the array has fewer axes
than that and the slice start is negative). -/
theorem sliceFrom_eq_iff (s i : List ℕ) : sliceFrom s ((s.length : ℤ) - i.length) = i ↔ ∃ b, s = b ++ i := by
  constructor
  · intro h
    unfold sliceFrom at h
    split at h
    · refine ⟨s.take ((s.length : ℤ) + ((s.length : ℤ) - i.length)).toNat, ?_⟩
      conv_lhs => rw [← List.take_append_drop ((s.length : ℤ) + ((s.length : ℤ) - i.length)).toNat s]
      rw [h]
    · refine ⟨s.take ((s.length : ℤ) - i.length).toNat, ?_⟩
      conv_lhs => rw [← List.take_append_drop ((s.length : ℤ) - i.length).toNat s]
      rw [h]
  · rintro ⟨b, rfl⟩
    exact sliceFrom_append b i

theorem checkedCall_ok {i o b : List ℕ} {ev : Arr → Res Arr} {x y : Arr} (hx : x.shape = b ++ i) (hy : ev x = .ok y)
    (hs : y.shape = b ++ o) : checkedCall i o ev x = .ok y := by
  have h1 : sliceFrom x.shape ((x.shape.length : ℤ) - i.length) = i := by rw [hx]; exact sliceFrom_append b i
  have h2 : sliceTo x.shape ((x.shape.length : ℤ) - i.length) = b := by rw [hx]; exact sliceTo_append b i
  unfold checkedCall
  rw [if_neg (by simp [h1]), hy]
  show (if _ then _ else _) = _
  rw [h2, if_pos hs]

/-! ## Entrywise addition of arrays of equal shape -/

theorem bir_valid : ∀ {s l : List ℕ}, Valid s l → bir s l = l
  | [], [], _ => rfl
  | a :: s, i :: l, h => by
    obtain ⟨h1, h2⟩ := List.forall₂_cons.mp h
    show (if a = 1 then 0 else i) :: bir s l = i :: l
    rw [bir_valid h2]
    split
    · congr 1; omega
    · rfl
  | [], _ :: _, h => by cases h
  | _ :: _, [], h => by cases h

theorem bget_valid {a : Arr} {idx : List ℕ} (h : Valid a.shape idx) : a.bget idx = a.get idx := by
  rw [Arr.bget, bir_valid h.rev, List.reverse_reverse]

theorem add_same {a b : Arr} (h : a.shape = b.shape) :
    ∃ c, a.add b = .ok c ∧ c.shape = a.shape ∧ ∀ idx, Valid a.shape idx → c.get idx = a.get idx + b.get idx := by
  refine ⟨⟨a.shape, fun idx => a.bget idx + b.bget idx⟩, ?_, rfl, fun idx hi => ?_⟩
  · simp only [Arr.add, Arr.bin]
    rw [← h, bshape_self]; rfl
  · show a.bget idx + b.bget idx = _
    rw [bget_valid hi, bget_valid (h ▸ hi)]

/-! ## Objects that compute a given function -/

/-- `f(x)` returns an array of shape `s` with the given entries. -/
def Computes (f : Core) (x : Arr) (s : List ℕ) (v : List ℕ → ℝ) : Prop :=
  ∃ y, f.call x = .ok y ∧ y.shape = s ∧ ∀ idx, Valid s idx → y.get idx = v idx

theorem Computes.congr {f : Core} {x : Arr} {s : List ℕ} {v w : List ℕ → ℝ} (h : Computes f x s v)
    (e : ∀ idx, v idx = w idx) : Computes f x s w := by
  obtain ⟨y, h1, h2, h3⟩ := h
  exact ⟨y, h1, h2, fun idx hi => by rw [h3 idx hi, e]⟩

/-- The parts of a sum have the shapes `i`, `o` and compute functions adding up to `v`. -/
def Parts (i o : List ℕ) (x : Arr) (s : List ℕ) : List Core → (List ℕ → ℝ) → Prop
  | [], v => ∀ idx, v idx = 0
  | f :: l, v => f.inS = i ∧ f.outS = o ∧ ∃ u w, Computes f x s u ∧ Parts i o x s l w ∧ ∀ idx, v idx = u idx + w idx

theorem Parts.append {i o : List ℕ} {x : Arr} {s : List ℕ} : ∀ {l l' : List Core} {v v' : List ℕ → ℝ},
    Parts i o x s l v → Parts i o x s l' v' → Parts i o x s (l ++ l') fun idx => v idx + v' idx
  | [], l', v, v', h, h' => by
    have e : (fun idx => v idx + v' idx) = v' := by funext idx; rw [h idx, zero_add]
    rw [e]; exact h'
  | f :: l, l', v, v', ⟨h1, h2, u, w, h3, h4, h5⟩, h' =>
    ⟨h1, h2, u, _, h3, Parts.append h4 h', fun idx => by beta_reduce; rw [h5]; ring⟩

theorem Parts.single {i o : List ℕ} {x : Arr} {s : List ℕ} {f : Core} {v : List ℕ → ℝ} (h1 : f.inS = i) (h2 : f.outS = o)
    (h : Computes f x s v) : Parts i o x s [f] v := ⟨h1, h2, v, fun _ => 0, h, fun _ => rfl, fun _ => (add_zero _).symm⟩

theorem sumFrom_ok {i o : List ℕ} {x : Arr} {s : List ℕ} : ∀ {l : List Core} {v : List ℕ → ℝ} (acc : Arr), acc.shape = s →
    Parts i o x s l v → ∃ y, sumFrom x l acc = .ok y ∧ y.shape = s ∧ ∀ idx, Valid s idx → y.get idx = acc.get idx + v idx
  | [], v, acc, hs, h => ⟨acc, rfl, hs, fun idx _ => by rw [h idx, add_zero]⟩
  | f :: l, v, acc, hs, ⟨_, _, u, w, ⟨y, h3, h3s, h3v⟩, h4, h5⟩ => by
    obtain ⟨c, hc, hcs, hcv⟩ := add_same (a := acc) (b := y) (by rw [hs, h3s])
    obtain ⟨z, hz, hzs, hzv⟩ := sumFrom_ok (l := l) c (by rw [hcs, hs]) h4
    refine ⟨z, ?_, hzs, fun idx hi => ?_⟩
    · simp only [sumFrom, h3, Except.bind, hc, hz]
    · rw [hzv idx hi, hcv idx (hs ▸ hi), h3v idx hi, h5]; ring

theorem Parts.shapes {i o : List ℕ} {x : Arr} {s : List ℕ} : ∀ {l : List Core} {v : List ℕ → ℝ}, Parts i o x s l v →
    ∀ f ∈ l, f.inS = i ∧ f.outS = o
  | [], _, _, f, hf => by cases hf
  | g :: l, _, ⟨h1, h2, _, _, _, h4, _⟩, f, hf => by
    rcases List.mem_cons.mp hf with rfl | hf
    · exact ⟨h1, h2⟩
    · exact h4.shapes f hf

/-- An object with shapes `i`, `o` that computes `v` at `x`, also through its parts. -/
structure Good (f : Fn) (i o b : List ℕ) (x : Arr) (v : List ℕ → ℝ) : Prop where
  inS : f.core.inS = i
  outS : f.core.outS = o
  comp : Computes f.core x (b ++ o) v
  sum : ∀ l, f.kind = .sum l → l ≠ [] ∧ Parts i o x (b ++ o) l v
  scaled : ∀ g c, f.kind = .scaled g c → g.inS = i ∧ g.outS = o ∧ ∃ u, Computes g x (b ++ o) u ∧ ∀ idx, v idx = c * u idx
  zero : f.kind = .zero → ∀ idx, v idx = 0

theorem mkSum_good {i o b : List ℕ} {x : Arr} (hx : x.shape = b ++ i) {l : List Core} {v : List ℕ → ℝ} (hl : l ≠ [])
    (h : Parts i o x (b ++ o) l v) : ∃ f, mkSum l = .ok f ∧ Good f i o b x v := by
  cases l with
  | nil => exact absurd rfl hl
  | cons g l =>
    have hsh := h.shapes
    have hg := hsh g List.mem_cons_self
    have h1 : ((g :: l).all fun k => k.inS = g.inS) = true := by
      rw [List.all_eq_true]; intro k hk; simp [(hsh k hk).1, hg.1]
    have h2 : ((g :: l).all fun k => k.outS = g.outS) = true := by
      rw [List.all_eq_true]; intro k hk; simp [(hsh k hk).2, hg.2]
    refine ⟨⟨⟨g.inS, g.outS, checkedCall g.inS g.outS (sumEval g l)⟩, .sum (g :: l)⟩, ?_, ?_⟩
    · simp only [mkSum, h1, h2]; rfl
    · obtain ⟨_, _, u, w, ⟨y, hy, hys, hyv⟩, h4, h5⟩ := h
      obtain ⟨z, hz, hzs, hzv⟩ := sumFrom_ok y hys h4
      have hc : checkedCall g.inS g.outS (sumEval g l) x = .ok z := by
        rw [hg.1, hg.2]
        refine checkedCall_ok hx ?_ hzs
        simp only [sumEval, hy, Except.bind, hz]
      refine ⟨hg.1, hg.2, ⟨z, hc, hzs, fun idx hi => by rw [hzv idx hi, hyv idx hi, h5]⟩, ?_, ?_, ?_⟩
      · rintro l' ⟨⟩; exact ⟨hl, hg.1, hg.2, u, w, ⟨y, hy, hys, hyv⟩, h4, h5⟩
      · rintro g' c ⟨⟩
      · rintro ⟨⟩

theorem mkScaled_good {i o b : List ℕ} {x : Arr} (hx : x.shape = b ++ i) {g : Core} (h1 : g.inS = i) (h2 : g.outS = o)
    {u v : List ℕ → ℝ} (hu : Computes g x (b ++ o) u) {c : ℝ} (hv : ∀ idx, v idx = c * u idx) : Good (mkScaled g c) i o b x v := by
  obtain ⟨y, hy, hys, hyv⟩ := hu
  refine ⟨h1, h2, ⟨y.map fun a => c * a, ?_, hys, fun idx hi => ?_⟩, ?_, ?_, ?_⟩
  · show checkedCall g.inS g.outS (fun x => (g.call x).map (Arr.map fun v => c * v)) x = _
    rw [h1, h2]
    exact checkedCall_ok hx (by simp only [hy, Except.map]) hys
  · show c * y.get idx = _
    rw [hyv idx hi, hv]
  · rintro l ⟨⟩
  · rintro g' c' ⟨⟩; exact ⟨h1, h2, u, ⟨y, hy, hys, hyv⟩, hv⟩
  · rintro ⟨⟩

theorem rmul_good {i o b : List ℕ} {x : Arr} (hx : x.shape = b ++ i) {f : Fn} {v : List ℕ → ℝ} (h : Good f i o b x v) (c : ℝ) :
    Good (rmulFn c f) i o b x fun idx => c * v idx := by
  unfold rmulFn
  split
  · rename_i g c' hk
    obtain ⟨h1, h2, u, hu, hv⟩ := h.scaled g c' hk
    exact mkScaled_good hx h1 h2 hu fun idx => by rw [hv]; ring
  · exact mkScaled_good hx h.inS h.outS h.comp fun _ => rfl

theorem mul_good {i o b : List ℕ} {x : Arr} (hx : x.shape = b ++ i) {f : Fn} {v : List ℕ → ℝ} (h : Good f i o b x v) (c : ℝ) :
    Good (mulFn f c) i o b x fun idx => v idx * c := by
  unfold mulFn
  split
  · rename_i g c' hk
    obtain ⟨h1, h2, u, hu, hv⟩ := h.scaled g c' hk
    exact mkScaled_good hx h1 h2 hu fun idx => by rw [hv]; ring
  · exact mkScaled_good hx h.inS h.outS h.comp fun _ => by ring

theorem Good.congr {f : Fn} {i o b : List ℕ} {x : Arr} {v w : List ℕ → ℝ} (h : Good f i o b x v) (e : ∀ idx, v idx = w idx) :
    Good f i o b x w := by
  have : v = w := funext e
  rwa [← this]

theorem add_good {i o b : List ℕ} {x : Arr} (hx : x.shape = b ++ i) {f g : Fn} {v w : List ℕ → ℝ} (hf : Good f i o b x v)
    (hg : Good g i o b x w) : ∃ k, addFn f g = .ok k ∧ Good k i o b x fun idx => v idx + w idx := by
  have sf := Parts.single hf.inS hf.outS hf.comp
  have sg := Parts.single hg.inS hg.outS hg.comp
  unfold addFn
  cases hfk : f.kind with
  | sum l =>
    obtain ⟨hl, pf⟩ := hf.sum l hfk
    cases hgk : g.kind with
    | sum l' => exact mkSum_good hx (by simp [hl]) (pf.append (hg.sum l' hgk).2)
    | _ => exact mkSum_good hx (by simp) (pf.append sg)
  | zero => exact ⟨g, rfl, hg.congr fun idx => by rw [hf.zero hfk idx, zero_add]⟩
  | _ =>
    cases hgk : g.kind with
    | sum l' => exact mkSum_good hx (by simp) (sf.append (hg.sum l' hgk).2)
    | zero => exact ⟨f, rfl, hf.congr fun idx => by rw [hg.zero hgk idx, add_zero]⟩
    | _ => exact mkSum_good hx (by simp) (sf.append sg)

theorem sub_good {i o b : List ℕ} {x : Arr} (hx : x.shape = b ++ i) {f g : Fn} {v w : List ℕ → ℝ} (hf : Good f i o b x v)
    (hg : Good g i o b x w) : ∃ k, subFn f g = .ok k ∧ Good k i o b x fun idx => v idx - w idx := by
  have sf := Parts.single hf.inS hf.outS hf.comp
  have hn : Good (negFn g) i o b x fun idx => -1 * w idx := rmul_good hx hg (-1)
  have sg := Parts.single hn.inS hn.outS hn.comp
  have fin : ∀ {r : Res Fn}, (∃ k, r = .ok k ∧ Good k i o b x fun idx => v idx + -1 * w idx) →
      ∃ k, r = .ok k ∧ Good k i o b x fun idx => v idx - w idx := by
    rintro r ⟨k, h1, h2⟩
    exact ⟨k, h1, h2.congr fun idx => by ring⟩
  unfold subFn
  cases hfk : f.kind with
  | sum l => exact fin (mkSum_good hx (by simp) ((hf.sum l hfk).2.append sg))
  | zero => exact ⟨_, rfl, hn.congr fun idx => by rw [hf.zero hfk idx]; ring⟩
  | _ =>
    cases hgk : g.kind with
    | zero => exact ⟨f, rfl, hf.congr fun idx => by rw [hg.zero hgk idx]; ring⟩
    | _ => exact fin (mkSum_good hx (by simp) (sf.append sg))

theorem build_good (val : (Arr → Res Arr) → Arr → Arr) {i o b : List ℕ} {x : Arr} (hx : x.shape = b ++ i) : ∀ e : Expr,
    Uniform i o e → LeavesReturn val x (b ++ o) e → ∃ f, build e = .ok f ∧ Good f i o b x (denote val e x)
  | .fn f i' o', ⟨hi, ho⟩, ⟨h1, h2⟩ => by
    subst hi; subst ho
    exact ⟨_, rfl, rfl, rfl, ⟨_, checkedCall_ok hx h1 h2, h2, fun _ _ => rfl⟩, (fun _ h => by cases h),
      (fun _ _ h => by cases h), (fun h => by cases h)⟩
  | .zero i' o', ⟨hi, ho⟩, _ => by
    subst hi; subst ho
    have h2 : sliceTo x.shape ((x.shape.length : ℤ) - i'.length) = b := by rw [hx]; exact sliceTo_append b i'
    refine ⟨_, rfl, rfl, rfl, ⟨⟨b ++ o', fun _ => 0⟩, checkedCall_ok hx ?_ rfl, rfl, fun _ _ => rfl⟩, (fun _ h => by cases h),
      (fun _ _ h => by cases h), fun _ _ => rfl⟩
    rw [zeroEval, h2]
  | .add a c, ⟨u1, u2⟩, ⟨l1, l2⟩ => by
    obtain ⟨f, hf, gf⟩ := build_good val hx a u1 l1
    obtain ⟨g, hg, gg⟩ := build_good val hx c u2 l2
    obtain ⟨k, hk, gk⟩ := add_good hx gf gg
    exact ⟨k, by simp only [build, hf, hg, Except.bind, hk], gk⟩
  | .sub a c, ⟨u1, u2⟩, ⟨l1, l2⟩ => by
    obtain ⟨f, hf, gf⟩ := build_good val hx a u1 l1
    obtain ⟨g, hg, gg⟩ := build_good val hx c u2 l2
    obtain ⟨k, hk, gk⟩ := sub_good hx gf gg
    exact ⟨k, by simp only [build, hf, hg, Except.bind, hk], gk⟩
  | .neg a, u, l => by
    obtain ⟨f, hf, gf⟩ := build_good val hx a u l
    exact ⟨negFn f, by simp only [build, hf, Except.map], (rmul_good hx gf (-1)).congr fun idx => by simp [denote]⟩
  | .mul a c, u, l => by
    obtain ⟨f, hf, gf⟩ := build_good val hx a u l
    exact ⟨mulFn f c, by simp only [build, hf, Except.map], mul_good hx gf c⟩
  | .rmul c a, u, l => by
    obtain ⟨f, hf, gf⟩ := build_good val hx a u l
    exact ⟨rmulFn c f, by simp only [build, hf, Except.map], rmul_good hx gf c⟩

/-! ## Shapes of what is built -/

/-- An object built without `Zero`: its call is the shape-checked one, and its parts have its own shapes. -/
structure Shaped (f : Fn) (i o : List ℕ) : Prop where
  inS : f.core.inS = i
  outS : f.core.outS = o
  nz : f.kind ≠ .zero
  sum : ∀ l, f.kind = .sum l → l ≠ [] ∧ ∀ g ∈ l, g.inS = i ∧ g.outS = o
  scaled : ∀ g c, f.kind = .scaled g c → g.inS = i ∧ g.outS = o

theorem mkSum_shaped {i o : List ℕ} {l : List Core} (hl : l ≠ []) (h : ∀ g ∈ l, g.inS = i ∧ g.outS = o) :
    ∃ f, mkSum l = .ok f ∧ Shaped f i o := by
  cases l with
  | nil => exact absurd rfl hl
  | cons g l =>
    have hg := h g List.mem_cons_self
    have h1 : ((g :: l).all fun k => k.inS = g.inS) = true := by
      rw [List.all_eq_true]; intro k hk; simp [(h k hk).1, hg.1]
    have h2 : ((g :: l).all fun k => k.outS = g.outS) = true := by
      rw [List.all_eq_true]; intro k hk; simp [(h k hk).2, hg.2]
    refine ⟨⟨⟨g.inS, g.outS, checkedCall g.inS g.outS (sumEval g l)⟩, .sum (g :: l)⟩, ?_, hg.1, hg.2, by simp, ?_, ?_⟩
    · simp only [mkSum, h1, h2]; rfl
    · rintro l' ⟨⟩; exact ⟨hl, h⟩
    · rintro g' c ⟨⟩

theorem mkSum_mixed {i o i' o' : List ℕ} {l l' : List Core} (hl : l ≠ []) (hl' : l' ≠ []) (h : ∀ g ∈ l, g.inS = i ∧ g.outS = o)
    (h' : ∀ g ∈ l', g.inS = i' ∧ g.outS = o') (hne : ¬(i = i' ∧ o = o')) : mkSum (l ++ l') = .error .valueError := by
  cases l with
  | nil => exact absurd rfl hl
  | cons g l =>
    cases l' with
    | nil => exact absurd rfl hl'
    | cons g' l' =>
      have hg := h g List.mem_cons_self
      have hg' := h' g' List.mem_cons_self
      show (if _ then _ else if _ then _ else _) = _
      by_cases hi : i = i'
      · have ho : o ≠ o' := fun e => hne ⟨hi, e⟩
        split
        · rfl
        · rw [if_pos]
          rw [List.all_eq_false]
          exact ⟨g', by simp, by simp [hg.2, hg'.2, Ne.symm ho]⟩
      · rw [if_pos]
        rw [List.all_eq_false]
        exact ⟨g', by simp, by simp [hg.1, hg'.1, Ne.symm hi]⟩

theorem rmul_shaped {f : Fn} {i o : List ℕ} (h : Shaped f i o) (c : ℝ) : Shaped (rmulFn c f) i o := by
  unfold rmulFn
  split
  · rename_i g c' hk
    have := h.scaled g c' hk
    exact ⟨this.1, this.2, by simp [mkScaled], by rintro l ⟨⟩, by rintro g' d ⟨⟩; exact this⟩
  · exact ⟨h.inS, h.outS, by simp [mkScaled], by rintro l ⟨⟩, by rintro g' d ⟨⟩; exact ⟨h.inS, h.outS⟩⟩

theorem mul_shaped {f : Fn} {i o : List ℕ} (h : Shaped f i o) (c : ℝ) : Shaped (mulFn f c) i o := by
  unfold mulFn
  split
  · rename_i g c' hk
    have := h.scaled g c' hk
    exact ⟨this.1, this.2, by simp [mkScaled], by rintro l ⟨⟩, by rintro g' d ⟨⟩; exact this⟩
  · exact ⟨h.inS, h.outS, by simp [mkScaled], by rintro l ⟨⟩, by rintro g' d ⟨⟩; exact ⟨h.inS, h.outS⟩⟩

/-- The summands an object contributes to a sum. -/
def partsOf (f : Fn) : List Core :=
  match f.kind with
  | .sum l => l
  | _ => [f.core]

theorem partsOf_shaped {f : Fn} {i o : List ℕ} (h : Shaped f i o) : partsOf f ≠ [] ∧ ∀ g ∈ partsOf f, g.inS = i ∧ g.outS = o := by
  unfold partsOf
  split
  · rename_i l hk; exact h.sum l hk
  · simp [h.inS, h.outS]

theorem addFn_parts {f g : Fn} (hf : f.kind ≠ .zero) (hg : g.kind ≠ .zero) : addFn f g = mkSum (partsOf f ++ partsOf g) := by
  unfold addFn partsOf
  cases hfk : f.kind <;> cases hgk : g.kind <;> simp_all

theorem subFn_parts {f g : Fn} (hf : f.kind ≠ .zero) (hg : g.kind ≠ .zero) :
    subFn f g = mkSum (partsOf f ++ [(negFn g).core]) := by
  unfold subFn partsOf
  cases hfk : f.kind <;> cases hgk : g.kind <;> simp_all

theorem addFn_shapes {f g : Fn} {i o i' o' : List ℕ} (hf : Shaped f i o) (hg : Shaped g i' o') :
    (i = i' ∧ o = o' ∧ ∃ k, addFn f g = .ok k ∧ Shaped k i o) ∨ (¬(i = i' ∧ o = o') ∧ addFn f g = .error .valueError) := by
  rw [addFn_parts hf.nz hg.nz]
  obtain ⟨n1, p1⟩ := partsOf_shaped hf
  obtain ⟨n2, p2⟩ := partsOf_shaped hg
  by_cases h : i = i' ∧ o = o'
  · refine Or.inl ⟨h.1, h.2, mkSum_shaped (by simp [n1]) fun k hk => ?_⟩
    rcases List.mem_append.mp hk with hk | hk
    · exact p1 k hk
    · rw [h.1, h.2]; exact p2 k hk
  · exact Or.inr ⟨h, mkSum_mixed n1 n2 p1 p2 h⟩

theorem subFn_shapes {f g : Fn} {i o i' o' : List ℕ} (hf : Shaped f i o) (hg : Shaped g i' o') :
    (i = i' ∧ o = o' ∧ ∃ k, subFn f g = .ok k ∧ Shaped k i o) ∨ (¬(i = i' ∧ o = o') ∧ subFn f g = .error .valueError) := by
  rw [subFn_parts hf.nz hg.nz]
  obtain ⟨n1, p1⟩ := partsOf_shaped hf
  have hn := rmul_shaped hg (-1)
  have p2 : ∀ k ∈ [(negFn g).core], k.inS = i' ∧ k.outS = o' := by
    intro k hk
    rw [List.mem_singleton] at hk
    subst hk
    exact ⟨hn.inS, hn.outS⟩
  by_cases h : i = i' ∧ o = o'
  · refine Or.inl ⟨h.1, h.2, mkSum_shaped (by simp) fun k hk => ?_⟩
    rcases List.mem_append.mp hk with hk | hk
    · exact p1 k hk
    · rw [h.1, h.2]; exact p2 k hk
  · exact Or.inr ⟨h, mkSum_mixed n1 (by simp) p1 p2 h⟩

/-- A `Zero`-free expression is either uniform in some shapes and built with them, or not uniform in any and rejected. -/
theorem build_shapes : ∀ e : Expr, NoZero e →
    (∃ i o f, (∀ i' o', Uniform i' o' e ↔ i' = i ∧ o' = o) ∧ build e = .ok f ∧ Shaped f i o) ∨
      ((∀ i o, ¬Uniform i o e) ∧ build e = .error .valueError)
  | .fn f i o, _ => Or.inl ⟨i, o, mkLambda f i o, fun i' o' => ⟨fun h => ⟨h.1.symm, h.2.symm⟩, fun h => ⟨h.1.symm, h.2.symm⟩⟩,
      rfl, rfl, rfl, by simp [mkLambda], by rintro l ⟨⟩, by rintro g c ⟨⟩⟩
  | .zero _ _, h => h.elim
  | .add a b, ⟨ha, hb⟩ => by
    rcases build_shapes a ha with ⟨i, o, f, u, hf, sf⟩ | ⟨u, hf⟩
    · rcases build_shapes b hb with ⟨i', o', g, u', hg, sg⟩ | ⟨u', hg⟩
      · rcases addFn_shapes sf sg with ⟨e1, e2, k, hk, sk⟩ | ⟨e, hk⟩
        · refine Or.inl ⟨i, o, k, fun j p => ?_, by simp only [build, hf, hg, Except.bind, hk], sk⟩
          show Uniform j p a ∧ Uniform j p b ↔ _
          rw [u, u', ← e1, ← e2, and_self]
        · refine Or.inr ⟨fun j p h => e ?_, by simp only [build, hf, hg, Except.bind, hk]⟩
          have h1 := (u j p).mp h.1
          have h2 := (u' j p).mp h.2
          exact ⟨h1.1.symm.trans h2.1, h1.2.symm.trans h2.2⟩
      · exact Or.inr ⟨fun j p h => u' j p h.2, by simp only [build, hf, hg, Except.bind]⟩
    · exact Or.inr ⟨fun j p h => u j p h.1, by simp only [build, hf, Except.bind]⟩
  | .sub a b, ⟨ha, hb⟩ => by
    rcases build_shapes a ha with ⟨i, o, f, u, hf, sf⟩ | ⟨u, hf⟩
    · rcases build_shapes b hb with ⟨i', o', g, u', hg, sg⟩ | ⟨u', hg⟩
      · rcases subFn_shapes sf sg with ⟨e1, e2, k, hk, sk⟩ | ⟨e, hk⟩
        · refine Or.inl ⟨i, o, k, fun j p => ?_, by simp only [build, hf, hg, Except.bind, hk], sk⟩
          show Uniform j p a ∧ Uniform j p b ↔ _
          rw [u, u', ← e1, ← e2, and_self]
        · refine Or.inr ⟨fun j p h => e ?_, by simp only [build, hf, hg, Except.bind, hk]⟩
          have h1 := (u j p).mp h.1
          have h2 := (u' j p).mp h.2
          exact ⟨h1.1.symm.trans h2.1, h1.2.symm.trans h2.2⟩
      · exact Or.inr ⟨fun j p h => u' j p h.2, by simp only [build, hf, hg, Except.bind]⟩
    · exact Or.inr ⟨fun j p h => u j p h.1, by simp only [build, hf, Except.bind]⟩
  | .neg a, h => by
    rcases build_shapes a h with ⟨i, o, f, u, hf, sf⟩ | ⟨u, hf⟩
    · exact Or.inl ⟨i, o, negFn f, u, by simp only [build, hf, Except.map], rmul_shaped sf (-1)⟩
    · exact Or.inr ⟨u, by simp only [build, hf, Except.map]⟩
  | .mul a c, h => by
    rcases build_shapes a h with ⟨i, o, f, u, hf, sf⟩ | ⟨u, hf⟩
    · exact Or.inl ⟨i, o, mulFn f c, u, by simp only [build, hf, Except.map], mul_shaped sf c⟩
    · exact Or.inr ⟨u, by simp only [build, hf, Except.map]⟩
  | .rmul c a, h => by
    rcases build_shapes a h with ⟨i, o, f, u, hf, sf⟩ | ⟨u, hf⟩
    · exact Or.inl ⟨i, o, rmulFn c f, u, by simp only [build, hf, Except.map], rmul_shaped sf c⟩
    · exact Or.inr ⟨u, by simp only [build, hf, Except.map]⟩

/-! ## Calls of what is built -/

/-- The call of the object is the shape-checked one. -/
def Checked (f : Fn) : Prop := ∃ ev, f.core.call = checkedCall f.core.inS f.core.outS ev

theorem mkSum_checked {l : List Core} {f : Fn} (h : mkSum l = .ok f) : Checked f := by
  cases l with
  | nil => cases h
  | cons g l =>
    simp only [mkSum] at h
    split at h
    · cases h
    split at h
    · cases h
    cases h
    exact ⟨_, rfl⟩

theorem rmul_checked (c : ℝ) (f : Fn) : Checked (rmulFn c f) := by
  unfold rmulFn
  split <;> exact ⟨_, rfl⟩

theorem mul_checked (f : Fn) (c : ℝ) : Checked (mulFn f c) := by
  unfold mulFn
  split <;> exact ⟨_, rfl⟩

theorem add_checked {f g k : Fn} (hf : Checked f) (hg : Checked g) (h : addFn f g = .ok k) : Checked k := by
  unfold addFn at h
  split at h
  · split at h <;> exact mkSum_checked h
  · cases h; exact hg
  · split at h
    · exact mkSum_checked h
    · cases h; exact hf
    · exact mkSum_checked h

theorem sub_checked {f g k : Fn} (hf : Checked f) (h : subFn f g = .ok k) : Checked k := by
  unfold subFn at h
  split at h
  · exact mkSum_checked h
  · cases h; exact rmul_checked _ _
  · split at h
    · cases h; exact hf
    · exact mkSum_checked h

theorem build_checked : ∀ (e : Expr) {f : Fn}, build e = .ok f → Checked f
  | .fn g i o, f, h => by cases h; exact ⟨_, rfl⟩
  | .zero i o, f, h => by cases h; exact ⟨_, rfl⟩
  | .add a b, f, h => by
    obtain ⟨p, hp, h⟩ := bind_ok h
    obtain ⟨q, hq, h⟩ := bind_ok h
    exact add_checked (build_checked a hp) (build_checked b hq) h
  | .sub a b, f, h => by
    obtain ⟨p, hp, h⟩ := bind_ok h
    obtain ⟨q, hq, h⟩ := bind_ok h
    exact sub_checked (build_checked a hp) h
  | .neg a, f, h => by
    obtain ⟨p, hp, h⟩ := map_ok h
    rw [h]; exact rmul_checked _ _
  | .mul a c, f, h => by
    obtain ⟨p, hp, h⟩ := map_ok h
    rw [h]; exact mul_checked _ _
  | .rmul c a, f, h => by
    obtain ⟨p, hp, h⟩ := map_ok h
    rw [h]; exact rmul_checked _ _

end Probnum.Functions
