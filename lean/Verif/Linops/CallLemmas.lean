import Verif.Linops.Call
import Verif.Linops.CallSpec
import Verif.Linops.Props
import Verif.RandVars.ArrLemmas

/-!
# Lemmas about operators applied along an axis
-/

namespace Probnum.Linops.Call

open RandVars (Arr scatter bir brev bshape ravel rav newShape knownSize consOpt)
open Finset

/-! ## Moving an axis -/

theorem scatter_eq {n : ℕ} {axes idx t : List ℕ} (hall : ∀ d < n, d ∈ axes) (ht : t.length = n)
    (he : axes.map (fun d => t.getD d 0) = idx) : scatter n axes idx = t := by
  subst he
  refine List.ext_getElem (by simp [scatter, ht]) fun d h1 h2 => ?_
  have hd : d < n := by simpa [scatter] using h1
  have hm := List.idxOf_lt_length_iff.2 (hall d hd)
  have : (axes.map fun d => t.getD d 0).getD (axes.idxOf d) 0 = t.getD d 0 := by
    rw [List.getD_eq_getElem _ _ (by simpa using hm), List.getElem_map, List.getElem_idxOf hm]
  simp only [scatter, List.getElem_map, List.getElem_range]
  rw [this, List.getD_eq_getElem _ _ h2]

theorem nodup_of_all {n : ℕ} {axes : List ℕ} (hall : ∀ d < n, d ∈ axes) (hl : axes.length ≤ n) : axes.Nodup := by
  have h : List.range n ⊆ axes := fun d hd => hall d (List.mem_range.1 hd)
  exact ((List.subperm_of_subset List.nodup_range h).perm_of_length_le (by simpa using hl)).nodup List.nodup_range

theorem permute_ok {x : Arr} {axes : List ℕ} (hall : ∀ d < x.ndim, d ∈ axes) (hl : axes.length = x.ndim) :
    x.permute axes = .ok ⟨axes.map fun d => x.shape.getD d 0, fun idx => x.get (scatter x.ndim axes idx)⟩ :=
  if_pos ⟨hl, nodup_of_all hall hl.le⟩

/-- The order of the axes when one is moved to the last but one place. -/
theorem order_fwd (a b : ℕ) : ((List.range (a + b + 2)).eraseIdx a).insertIdx (a + b) a =
    List.range a ++ (List.range b).map (fun i => a + 1 + i) ++ [a, a + b + 1] := by
  refine List.ext_getElem ?_ fun k h1 h2 => ?_
  · have : (((List.range (a + b + 2)).eraseIdx a).length) = a + b + 1 := by
      rw [List.length_eraseIdx_of_lt (by simp; omega)]; simp
    rw [List.length_insertIdx_of_le_length (by omega), this]
    simp
    omega
  · simp only [List.getElem_insertIdx, List.getElem_eraseIdx, List.getElem_append, List.getElem_map, List.getElem_range,
      List.length_append, List.length_map, List.length_range]
    simp only [List.length_append, List.length_map, List.length_range, List.length_cons, List.length_nil] at h2
    by_cases c1 : k < a
    · simp [c1, show k < a + b by omega]
    · by_cases c2 : k < a + b
      · simp [c1, c2]; omega
      · by_cases c3 : k = a + b
        · subst c3; simp
        · obtain rfl : k = a + b + 1 := by omega
          simp

/-- The order of the axes when it is moved back. -/
theorem order_back (a b : ℕ) : ((List.range (a + b + 2)).eraseIdx (a + b)).insertIdx a (a + b) =
    List.range a ++ (a + b) :: ((List.range b).map (fun i => a + i) ++ [a + b + 1]) := by
  refine List.ext_getElem ?_ fun k h1 h2 => ?_
  · have : (((List.range (a + b + 2)).eraseIdx (a + b)).length) = a + b + 1 := by
      rw [List.length_eraseIdx_of_lt (by simp)]; simp
    rw [List.length_insertIdx_of_le_length (by omega), this]
    simp
    omega
  · simp only [List.length_append, List.length_map, List.length_range, List.length_cons, List.length_nil] at h2
    by_cases c1 : k < a
    · simp [List.getElem_insertIdx, List.getElem_eraseIdx, List.getElem_append, c1, show k < a + b by omega]
    · by_cases c3 : k = a
      · subst c3
        simp [List.getElem_insertIdx, List.getElem_append]
      · obtain ⟨j, rfl⟩ : ∃ j, k = a + 1 + j := ⟨k - (a + 1), by omega⟩
        rw [List.getElem_insertIdx_of_gt (by omega), List.getElem_eraseIdx, List.getElem_append_right (by simp; omega)]
        simp only [List.length_range, show a + 1 + j - a = j + 1 by omega, List.getElem_cons_succ]
        by_cases c2 : j < b
        · rw [List.getElem_append_left (by simpa using c2)]
          simp [show a + 1 + j - 1 < a + b by omega]
          omega
        · obtain rfl : j = b := by omega
          rw [List.getElem_append_right (by simp)]
          simp [show ¬ a + 1 + j - 1 < a + j by omega]

theorem getD_fwd (p q : List ℕ) (j k : ℕ) :
    (List.range p.length ++ (List.range q.length).map (fun i => p.length + 1 + i) ++
      [p.length, p.length + q.length + 1]).map (fun d => (p ++ j :: (q ++ [k])).getD d 0) = p ++ q ++ [j, k] := by
  rw [List.map_append, List.map_append, List.map_map]
  congr 1
  · congr 1
    · refine List.ext_getElem (by simp) fun i h1 h2 => ?_
      simp only [List.getElem_map, List.getElem_range]
      rw [List.getD_append _ _ _ _ h2, List.getD_eq_getElem _ _ h2]
    · refine List.ext_getElem (by simp) fun i h1 h2 => ?_
      simp only [List.getElem_map, List.getElem_range, Function.comp_apply]
      rw [List.getD_append_right _ _ _ _ (by omega), show p.length + 1 + i - p.length = i + 1 by omega, List.getD_cons_succ,
        List.getD_append _ _ _ _ h2, List.getD_eq_getElem _ _ h2]
  · simp only [List.map_cons, List.map_nil]
    rw [List.getD_append_right _ _ _ _ (by omega), List.getD_append_right _ _ _ _ (by omega), Nat.sub_self,
      show p.length + q.length + 1 - p.length = q.length + 1 by omega, List.getD_cons_zero, List.getD_cons_succ,
      List.getD_append_right _ _ _ _ le_rfl, Nat.sub_self]
    rfl

theorem getD_back (p q : List ℕ) (j k : ℕ) :
    (List.range p.length ++ (p.length + q.length) :: ((List.range q.length).map (fun i => p.length + i) ++
      [p.length + q.length + 1])).map (fun d => (p ++ q ++ [j, k]).getD d 0) = p ++ j :: (q ++ [k]) := by
  rw [List.map_append, List.map_cons, List.map_append, List.map_map]
  congr 1
  · refine List.ext_getElem (by simp) fun i h1 h2 => ?_
    simp only [List.getElem_map, List.getElem_range]
    rw [List.append_assoc, List.getD_append _ _ _ _ h2, List.getD_eq_getElem _ _ h2]
  · congr 1
    · rw [List.getD_append_right _ _ _ _ (by simp), List.length_append, Nat.sub_self]
      rfl
    · congr 1
      · refine List.ext_getElem (by simp) fun i h1 h2 => ?_
        simp only [List.getElem_map, List.getElem_range, Function.comp_apply]
        rw [List.append_assoc, List.getD_append_right _ _ _ _ (by omega), Nat.add_sub_cancel_left,
          List.getD_append _ _ _ _ h2, List.getD_eq_getElem _ _ h2]
      · simp only [List.map_cons, List.map_nil]
        rw [List.getD_append_right _ _ _ _ (by simp), List.length_append, Nat.add_sub_cancel_left]
        rfl

/-- `np.moveaxis(x, axis, -2)`. -/
theorem moveaxis_fwd {x : Arr} {s q : List ℕ} {r k : ℕ} (hx : x.shape = s ++ r :: (q ++ [k])) :
    ∃ m, moveaxis x s.length (x.ndim - 2) = .ok m ∧ m.shape = s ++ q ++ [r, k] ∧ ∀ l l' : List ℕ, ∀ i j : ℕ,
      l.length = s.length → l'.length = q.length → m.get (l ++ l' ++ [i, j]) = x.get (l ++ i :: (l' ++ [j])) := by
  have hn : x.ndim = s.length + q.length + 2 := by rw [Arr.ndim, hx]; simp; omega
  have hord : ((List.range x.ndim).eraseIdx s.length).insertIdx (x.ndim - 2) s.length =
      List.range s.length ++ (List.range q.length).map (fun i => s.length + 1 + i) ++
        [s.length, s.length + q.length + 1] := by
    rw [hn]; exact order_fwd _ _
  have hall : ∀ d < x.ndim, d ∈ List.range s.length ++ (List.range q.length).map (fun i => s.length + 1 + i) ++
        [s.length, s.length + q.length + 1] := fun d hd => by
    rw [hn] at hd
    simp only [List.mem_append, List.mem_range, List.mem_map, List.mem_cons, List.not_mem_nil, or_false]
    by_cases c1 : d < s.length
    · exact .inl (.inl c1)
    · by_cases c2 : d = s.length
      · exact .inr (.inl c2)
      · by_cases c3 : d = s.length + q.length + 1
        · exact .inr (.inr c3)
        · exact .inl (.inr ⟨d - (s.length + 1), by omega, by omega⟩)
  have hperm := permute_ok (x := x) hall (by simp [hn]; omega)
  refine ⟨_, by rw [moveaxis, hord]; exact hperm, ?_, fun l l' i j h1 h2 => ?_⟩
  · simp only [hx]
    exact getD_fwd s q r k
  · refine congrArg x.get (scatter_eq hall (by simp [h1, h2, hn]; omega) ?_)
    rw [← h1, ← h2]
    exact getD_fwd l l' i j

/-- `np.moveaxis(y, -2, axis)`. -/
theorem moveaxis_back {y : Arr} {s q : List ℕ} {r k : ℕ} (hy : y.shape = s ++ q ++ [r, k]) :
    ∃ m, moveaxis y (y.ndim - 2) s.length = .ok m ∧ m.shape = s ++ r :: (q ++ [k]) ∧ ∀ l l' : List ℕ, ∀ i j : ℕ,
      l.length = s.length → l'.length = q.length → m.get (l ++ i :: (l' ++ [j])) = y.get (l ++ l' ++ [i, j]) := by
  have hn : y.ndim = s.length + q.length + 2 := by rw [Arr.ndim, hy]; simp; omega
  have hord : ((List.range y.ndim).eraseIdx (y.ndim - 2)).insertIdx s.length (y.ndim - 2) =
      List.range s.length ++ (s.length + q.length) :: ((List.range q.length).map (fun i => s.length + i) ++
        [s.length + q.length + 1]) := by
    rw [hn]; exact order_back _ _
  have hall : ∀ d < y.ndim, d ∈ List.range s.length ++ (s.length + q.length) ::
      ((List.range q.length).map (fun i => s.length + i) ++ [s.length + q.length + 1]) := fun d hd => by
    rw [hn] at hd
    simp only [List.mem_append, List.mem_range, List.mem_map, List.mem_cons, List.not_mem_nil, or_false]
    by_cases c1 : d < s.length
    · exact .inl c1
    · by_cases c2 : d = s.length + q.length
      · exact .inr (.inl c2)
      · by_cases c3 : d = s.length + q.length + 1
        · exact .inr (.inr (.inr c3))
        · exact .inr (.inr (.inl ⟨d - s.length, by omega, by omega⟩))
  have hperm := permute_ok (x := y) hall (by simp [hn]; omega)
  refine ⟨_, by rw [moveaxis, hord]; exact hperm, ?_, fun l l' i j h1 h2 => ?_⟩
  · simp only [hy]
    exact getD_back s q r k
  · refine congrArg y.get (scatter_eq hall (by simp [h1, h2, hn]; omega) ?_)
    rw [← h1, ← h2]
    exact getD_back l l' i j

/-! ## Products -/

theorem mat_entry {a : Op} (ha : Valid False a) (hc : Calm a) {n : ℕ} (hn : 4 * depth a + 6 ≤ n) {β : Type} (k : ℕ)
    (X : β → Mat) : ∃ Y, matArr n a a.cols k X = .ok Y ∧
      ∀ b, ∀ i < a.rows, ∀ e < k, Y b i e = ∑ j ∈ range a.cols, den a i j * X b j e := by
  obtain ⟨Y, h1, h2, -⟩ := ((level False n).mat ha k X).returns ((swift False n).mat ha (fine_self hc) (by omega) _ k X)
  exact ⟨Y, h1, fun b i hi e he => h2 b i hi e he⟩

theorem matmul_vec {a : Op} (ha : Valid False a) (hc : Calm a) {n : ℕ} (hn : 4 * depth a + 6 ≤ n) {x : Arr}
    (hx : x.shape = [a.cols]) : ∃ y, matmul n a x = .ok y ∧ Along (den a) a.rows a.cols [] [] x y := by
  obtain ⟨Y, h1, h2⟩ := mat_entry ha hc hn (β := Unit) 1 fun _ i _ => x.get [i]
  refine ⟨⟨[a.rows], fun idx => Y () (idx.getD 0 0) 0⟩, ?_, rfl, fun l l' i hl hl' hi => ?_⟩
  · rw [matmul, hx]
    simp only [List.reverse_singleton, if_true]
    rw [h1]
    rfl
  · cases hl
    cases hl'
    exact h2 () i hi 0 one_pos

theorem matmul_stack {a : Op} (ha : Valid False a) (hc : Calm a) {n : ℕ} (hn : 4 * depth a + 6 ≤ n) {x : Arr}
    {s : List ℕ} {k : ℕ} (hx : x.shape = s ++ [a.cols, k]) :
    ∃ y, matmul n a x = .ok y ∧ Along (den a) a.rows a.cols s [k] x y := by
  obtain ⟨Y, h1, h2⟩ := mat_entry ha hc hn (β := List ℕ) k fun b i j => x.get (b ++ [i, j])
  refine ⟨⟨s ++ [a.rows, k], fun idx => Y (idx.take s.length) (idx.getD s.length 0) (idx.getD (s.length + 1) 0)⟩, ?_, rfl,
    fun l l' i hl hl' hi => ?_⟩
  · rw [matmul, hx]
    simp only [List.reverse_append, List.reverse_cons, List.reverse_nil, List.nil_append, List.cons_append, if_true,
      List.length_reverse, List.reverse_reverse]
    rw [h1]
    rfl
  · cases hl' with
    | @cons _ e _ _ he h =>
      cases h
      have hlen := hl.length
      have e1 : (l ++ [i, e]).take s.length = l := by rw [hlen]; exact List.take_left' rfl
      have e2 : (l ++ [i, e]).getD s.length 0 = i := by
        rw [hlen, List.getD_append_right _ _ _ _ le_rfl, Nat.sub_self]; rfl
      have e3 : (l ++ [i, e]).getD (s.length + 1) 0 = e := by
        rw [hlen, List.getD_append_right _ _ _ _ (by omega), Nat.add_sub_cancel_left]; rfl
      show Y ((l ++ [i, e]).take s.length) ((l ++ [i, e]).getD s.length 0) ((l ++ [i, e]).getD (s.length + 1) 0) = _
      rw [e1, e2, e3]
      exact h2 l i hi e he

/-! ## Scalings -/

theorem bget_valid {x : Arr} {idx : List ℕ} (h : RandVars.Valid x.shape idx) : x.bget idx = x.get idx := by
  have key : ∀ {s l : List ℕ}, RandVars.Valid s l → bir s l = l := fun {s l} h => by
    induction h with
    | nil => rfl
    | @cons d i s l hd _ ih =>
      rw [bir, ih]
      split
      · congr 1; omega
      · rfl
  rw [Arr.bget, key h.rev, List.reverse_reverse]

theorem brev_ones : ∀ (q : List ℕ) (r : ℕ) (s : List ℕ),
    brev (List.replicate q.length 1 ++ [r]) (q ++ r :: s) = some (q ++ r :: s)
  | [], r, s => by
    simp only [List.length_nil, List.replicate_zero, List.nil_append, brev, RandVars.bdim, if_true, consOpt, Option.bind_some,
      Option.map_some]
  | d :: q, r, s => by
    rw [List.length_cons, List.replicate_succ, List.cons_append, List.cons_append, brev, brev_ones q r s, RandVars.bdim]
    split
    · next h => subst h; rfl
    · rfl

theorem bir_ones : ∀ (q l : List ℕ), l.length = q.length → ∀ (r i : ℕ) (m : List ℕ), i < r →
    bir (List.replicate q.length 1 ++ [r]) (l ++ i :: m) = List.replicate q.length 0 ++ [i]
  | [], [], _, r, i, m, hi => by
    simp only [List.length_nil, List.replicate_zero, List.nil_append, bir]
    congr 1
    split <;> omega
  | d :: q, e :: l, h, r, i, m, hi => by
    rw [List.length_cons, List.replicate_succ, List.cons_append, List.cons_append, bir,
      bir_ones q l (by simpa using h) r i m hi, if_pos rfl, List.replicate_succ, List.cons_append]

theorem rav_ones : ∀ (m : ℕ) (r i : ℕ), rav (List.replicate m 1 ++ [r]) (List.replicate m 0 ++ [i]) = i
  | 0, r, i => by simp [rav]
  | m + 1, r, i => by
    rw [List.replicate_succ, List.replicate_succ, List.cons_append, List.cons_append, rav, rav_ones m r i]
    omega

theorem newShape_ones (r m : ℕ) : newShape r (-1 :: List.replicate m 1) = .ok (r :: List.replicate m 1) := by
  have h1 : (-1 :: List.replicate m (1 : ℤ)).any (· < -1) = false := by
    rw [List.any_eq_false]
    intro z hz
    rcases List.mem_cons.1 hz with rfl | hz
    · decide
    · rw [(List.mem_replicate.1 hz).2]; decide
  have h2 : (-1 :: List.replicate m (1 : ℤ)).countP (fun d => decide (d = -1)) = 1 := by
    rw [List.countP_cons, List.countP_replicate]
    simp
  have h3 : knownSize (-1 :: List.replicate m (1 : ℤ)) = 1 := by
    have : (-1 :: List.replicate m (1 : ℤ)).filterMap (fun d => if d < 0 then none else some d.toNat) =
        List.replicate m 1 := by
      rw [List.filterMap_cons_none (by decide), List.filterMap_replicate_of_some (b := 1) (by decide)]
    rw [knownSize, this, List.prod_replicate, one_pow]
  rw [newShape, h1, h2, h3]
  simp only [Bool.false_or, lt_irrefl, decide_false, Bool.false_eq_true, if_false, if_true, Nat.mod_one, one_ne_zero,
    ne_eq, not_true, or_self, Nat.div_one, List.map_cons, List.map_replicate]
  rfl

theorem scaling_along {r : ℕ} {f : ℕ → ℝ} {x : Arr} {s q : List ℕ} (hx : x.shape = s ++ r :: q) :
    ∃ y, ((⟨[r], fun idx => f (idx.getD 0 0)⟩ : Arr).reshape (-1 :: List.replicate (x.ndim - (s.length + 1)) 1) >>=
      fun g => g.mul x) = .ok y ∧ y.shape = s ++ r :: q ∧ ∀ l l' : List ℕ, ∀ i : ℕ, RandVars.Valid s l →
        RandVars.Valid q l' → i < r → y.get (l ++ i :: l') = f i * x.get (l ++ i :: l') := by
  have hm : x.ndim - (s.length + 1) = q.length := by rw [Arr.ndim, hx]; simp; omega
  rw [hm]
  have hsz : (⟨[r], fun idx => f (idx.getD 0 0)⟩ : Arr).size = r := by simp [Arr.size]
  rw [Arr.reshape, hsz, newShape_ones]
  have hrev : (r :: List.replicate q.length 1).reverse = List.replicate q.length 1 ++ [r] := by
    rw [List.reverse_cons, List.reverse_replicate]
  have hbs : bshape (r :: List.replicate q.length 1) x.shape = .ok (s ++ r :: q) := by
    rw [bshape, hrev, hx]
    have := brev_ones q.reverse r s.reverse
    rw [List.length_reverse] at this
    simp only [List.reverse_append, List.reverse_cons, List.append_assoc, List.singleton_append]
    rw [this]
    simp
  refine ⟨⟨s ++ r :: q, fun idx => ((⟨[r], fun idx => f (idx.getD 0 0)⟩ : Arr).withShape (r :: List.replicate q.length 1)).bget idx *
    x.bget idx⟩, ?_, rfl, ?_⟩
  · show (Except.ok _ >>= _) = _
    rw [ok_bind, Arr.mul, Arr.bin]
    show (bshape (r :: List.replicate q.length 1) x.shape).map _ = _
    rw [hbs]
    rfl
  · intro l l' i hl hl' hi
    have hv : RandVars.Valid x.shape (l ++ i :: l') := by
      rw [hx]; exact hl.append (List.Forall₂.cons hi hl')
    show _ * x.bget (l ++ i :: l') = _
    rw [bget_valid hv]
    congr 1
    rw [Arr.bget]
    show Arr.flat ⟨[r], fun idx => f (idx.getD 0 0)⟩ (ravel (r :: List.replicate q.length 1)
      (bir (r :: List.replicate q.length 1).reverse (l ++ i :: l').reverse).reverse) = f i
    have e : bir (r :: List.replicate q.length 1).reverse (l ++ i :: l').reverse = List.replicate q.length 0 ++ [i] := by
      have := bir_ones q.reverse l'.reverse (by rw [List.length_reverse, List.length_reverse, hl'.length]) r i l.reverse hi
      rw [List.length_reverse] at this
      rw [hrev, ← this]
      simp
    rw [e, ravel, List.reverse_reverse, hrev, rav_ones, Arr.flat_one rfl hi]
    rfl

/-! ## Any axis -/

theorem valid_split : ∀ (q : List ℕ) {t l : List ℕ}, RandVars.Valid (q ++ t) l → ∃ l₁ l₂, RandVars.Valid q l₁ ∧
    RandVars.Valid t l₂ ∧ l = l₁ ++ l₂
  | [], t, l, h => ⟨[], l, List.Forall₂.nil, h, rfl⟩
  | d :: q, t, l, h => by
    cases h with
    | @cons _ i _ l hi h =>
      obtain ⟨l₁, l₂, h1, h2, rfl⟩ := valid_split q h
      exact ⟨i :: l₁, l₂, List.Forall₂.cons hi h1, h2, rfl⟩

theorem applyAxis_along {a : Op} (ha : Valid False a) (hc : Calm a) {n : ℕ} (hn : 4 * depth a + 6 ≤ n) {x : Arr}
    {s q : List ℕ} {k : ℕ} (hx : x.shape = s ++ a.cols :: (q ++ [k])) :
    ∃ y, applyAxis n a x s.length = .ok y ∧ Along (den a) a.rows a.cols s (q ++ [k]) x y := by
  have gen : ∃ y, (do
      let m ← moveaxis x s.length (x.ndim - 2)
      let y ← matmul n a m
      moveaxis y (y.ndim - 2) s.length) = Except.ok y ∧ Along (den a) a.rows a.cols s (q ++ [k]) x y := by
    obtain ⟨m, h1, h2, h3⟩ := moveaxis_fwd hx
    obtain ⟨y, h4, h5, h6⟩ := matmul_stack ha hc hn h2
    obtain ⟨z, h7, h8, h9⟩ := moveaxis_back (y := y) (s := s) (q := q) (r := a.rows) (k := k) (by
      rw [h5])
    refine ⟨z, ?_, h8, fun l l' i hl hl' hi => ?_⟩
    · rw [h1, ok_bind, h4, ok_bind, h7]
    · obtain ⟨l₁, l₂, v1, v2, rfl⟩ : ∃ l₁ l₂, RandVars.Valid q l₁ ∧ RandVars.Valid [k] l₂ ∧ l' = l₁ ++ l₂ := by
        exact valid_split q hl'
      cases v2 with
      | @cons _ e _ _ he h =>
        cases h
        rw [h9 l l₁ i e hl.length.symm v1.length.symm,
          h6 (l ++ l₁) [e] i (hl.append v1) (List.Forall₂.cons he List.Forall₂.nil) hi]
        exact sum_congr rfl fun j _ => by rw [h3 l l₁ j e hl.length.symm v1.length.symm]
  cases a with
  | identity h =>
    cases ha with
    | identity e nd =>
      have e' : (Op.identity h).rows = (Op.identity h).cols := e
      refine ⟨x, rfl, by rw [hx, e'], fun l l' i hl hl' hi => ?_⟩
      have hd : den (.identity h) = fun i j => if i = j then 1 else 0 := by rw [den]; rfl
      rw [hd, sum_eq_single i]
      · simp
      · intro j _ hj
        simp [hj.symm]
      · intro hn
        exact absurd (mem_range.2 (e' ▸ hi)) hn
  | scaling h iso f =>
    cases ha with
    | scaling e hi nd =>
      have e' : (Op.scaling h iso f).rows = (Op.scaling h iso f).cols := e
      have hd : den (.scaling h iso f) = fun i j => if i = j then f i else 0 := by rw [den]
      have red : ∀ l l' : List ℕ, ∀ i < (Op.scaling h iso f).rows, ∑ j ∈ range (Op.scaling h iso f).cols,
          den (.scaling h iso f) i j * x.get (l ++ j :: l') = f i * x.get (l ++ i :: l') := fun l l' i hi => by
        rw [hd, sum_eq_single i]
        · simp
        · intro j _ hj
          simp [hj.symm]
        · intro hn
          exact absurd (mem_range.2 (e' ▸ hi)) hn
      cases iso with
      | true =>
        refine ⟨x.map fun t => f 0 * t, rfl, by rw [e']; exact hx, fun l l' i hl hl' hi' => ?_⟩
        rw [red l l' i hi', hi rfl i]
        rfl
      | false =>
        have hx' : x.shape = s ++ h.rows :: (q ++ [k]) := by rw [hx]; exact congrArg (fun t => s ++ t :: (q ++ [k])) e.symm
        obtain ⟨y, h1, h2, h3⟩ := scaling_along (f := f) hx'
        refine ⟨y, h1, h2, fun l l' i hl hl' hi' => ?_⟩
        rw [red l l' i hi', h3 l l' i hl hl' hi']
  | _ => exact gen

theorem call_along {a : Op} (ha : Valid False a) (hc : Calm a) {n : ℕ} (hn : 4 * depth a + 6 ≤ n) {x : Arr}
    {s q : List ℕ} (hx : x.shape = s ++ a.cols :: q) {axis : Option ℤ}
    (hax : axis = some (s.length : ℤ) ∨ axis = some (-(q.length : ℤ) - 1) ∨ axis = none ∧ q = []) :
    ∃ y, call n a x axis = .ok y ∧ Along (den a) a.rows a.cols s q x y := by
  have hnd : x.ndim = s.length + q.length + 1 := by rw [Arr.ndim, hx]; simp; omega
  have hin : axis.any (fun a => a < -(x.ndim : ℤ) || (x.ndim : ℤ) ≤ a) = false := by
    rcases hax with rfl | rfl | ⟨rfl, -⟩
    · simp only [Option.any_some, Bool.or_eq_false_iff, decide_eq_false_iff_not]
      omega
    · simp only [Option.any_some, Bool.or_eq_false_iff, decide_eq_false_iff_not]
      omega
    · rfl
  rw [call, hin, if_neg Bool.false_ne_true]
  by_cases h1 : x.ndim = 1
  · rw [if_pos h1]
    obtain rfl : s = [] := List.eq_nil_of_length_eq_zero (by omega)
    obtain rfl : q = [] := List.eq_nil_of_length_eq_zero (by simp at hnd; omega)
    exact matmul_vec ha hc hn hx
  rw [if_neg h1, if_pos (by omega)]
  have hat : (if axis.getD (-1) < 0 then axis.getD (-1) + (x.ndim : ℤ) else axis.getD (-1)).toNat = s.length := by
    rcases hax with rfl | rfl | ⟨rfl, rfl⟩
    · rw [Option.getD_some, if_neg (by omega)]
      omega
    · rw [Option.getD_some, if_pos (by omega)]
      omega
    · simp only [List.length_nil] at hnd
      rw [Option.getD_none, if_pos (by omega)]
      omega
  have hcol : x.shape.getD s.length 0 = a.cols := by
    rw [hx, List.getD_append_right _ _ _ _ le_rfl, Nat.sub_self]; rfl
  dsimp only
  rw [hat, if_neg (not_not.2 hcol)]
  by_cases h2 : s.length = x.ndim - 1
  · rw [if_pos h2]
    obtain rfl : q = [] := List.eq_nil_of_length_eq_zero (by omega)
    obtain ⟨y, h3, h4, h5⟩ := matmul_stack ha hc hn (x := x.asColumn) (s := s) (k := 1) (by
      show x.shape ++ [1] = _
      rw [hx]; simp)
    refine ⟨lastZero y, by rw [h3, ok_bind], ?_, fun l l' i hl hl' hi => ?_⟩
    · show y.shape.dropLast = _
      rw [h4, List.dropLast_append_of_ne_nil (by simp)]
      rfl
    · cases hl'
      show y.get (l ++ [i] ++ [0]) = _
      rw [List.append_assoc]
      refine (h5 l [0] i hl (List.Forall₂.cons one_pos List.Forall₂.nil) hi).trans (sum_congr rfl fun j _ => ?_)
      show _ * x.get (l ++ [j, 0]).dropLast = _
      rw [List.dropLast_append_of_ne_nil (by simp)]
      rfl
  rw [if_neg h2]
  by_cases h3 : s.length = x.ndim - 2
  · rw [if_pos h3]
    obtain ⟨k, rfl⟩ : ∃ k, q = [k] := List.length_eq_one_iff.1 (by omega)
    exact matmul_stack ha hc hn hx
  rw [if_neg h3]
  obtain ⟨q', k, rfl⟩ : ∃ q' k, q = q' ++ [k] :=
    ⟨q.dropLast, q.getLast (by rintro rfl; simp at hnd; omega), (List.dropLast_append_getLast _).symm⟩
  exact applyAxis_along ha hc hn hx

/-! ## Other matrices with the same entries -/

theorem Along.congr {D E : Mat} {r c : ℕ} {s q : List ℕ} {x y : Arr} (h : Along D r c s q x y)
    (he : ∀ i < r, ∀ j < c, D i j = E i j) : Along E r c s q x y :=
  ⟨h.1, fun l l' i hl hl' hi => (h.2 l l' i hl hl' hi).trans (sum_congr rfl fun j hj => by rw [he i hi j (mem_range.1 hj)])⟩

theorem dense_entries {a : Op} (ha : Valid False a) (hc : Calm a) {n : ℕ} (hn : 4 * depth a + 6 ≤ n) :
    ∃ D, todense n a = .ok D ∧ ∀ i < a.rows, ∀ j < a.cols, den a i j = D i j := by
  obtain ⟨D, h1, h2⟩ := dense_returns ha hc hn
  exact ⟨D, h1, fun i hi j hj => (congrFun (congrFun h2 ⟨i, hi⟩) ⟨j, hj⟩).symm⟩

theorem rmatmul_right {a : Op} (ha : Valid False a) (hc : Calm a) {n : ℕ} (hn : 4 * depth a + 10 ≤ n) {x : Arr}
    {s : List ℕ} (hx : x.shape = s ++ [a.rows]) :
    ∃ y, rmatmul n a x = .ok y ∧ FromRight (den a) a.rows a.cols s x y := by
  obtain ⟨t, e, ht, hq⟩ := (T_meets n ha).returns (T_quick n (fine_self hc) (by omega))
  have hcol : t.cols = a.rows := ht.cols
  have hrow : t.rows = a.cols := ht.rows
  have hd := hq.1
  obtain ⟨y, h1, h2, h3⟩ := call_along ht.valid hq.2 (n := n) (by omega) (s := s) (q := []) (by rw [hx, hcol])
    (axis := some (-1)) (.inr (.inl rfl))
  refine ⟨y, ?_, by rw [h2, hrow], fun l j hl hj => ?_⟩
  · rw [rmatmul, hx, List.getLast?_concat]
    dsimp only
    rw [if_pos rfl, e, ok_bind, h1]
  · refine (h3 l [] j hl List.Forall₂.nil (hrow ▸ hj)).trans ?_
    rw [hcol]
    refine sum_congr rfl fun i hi => ?_
    rw [ht.den j hj i (mem_range.1 hi), trn, mul_comm]

end Probnum.Linops.Call
