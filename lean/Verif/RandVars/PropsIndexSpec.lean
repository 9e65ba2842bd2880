import Verif.RandVars.Arr
import Mathlib.Data.List.GetD
import Mathlib.Tactic.NormNum

/-!
# What an index expression selects (C31)

`getitem_law` says that `N[key]` describes the law of `X[key]`.  Here `X[key]` itself is pinned down along one axis, by
Python's and numpy's rules stated directly: `x[i]` with `-d ≤ i < d` is entry `i mod d`; a list selects entry by entry; a
mask keeps the entries at its true positions, in order; a slice selects `a, a + step, a + 2 step, …` as long as the bound is
not reached.
-/

namespace Probnum.RandVars

/-- The entries of a vector, as a list. -/
def Arr.entries (a : Arr) : List ℝ := (List.range (a.shape.headD 0)).map fun k => a.get [k]

/-- A normalised index is the index modulo the length, and exists exactly within bounds. -/
theorem normAxis_iff (d : ℕ) (i : ℤ) (k : ℕ) :
    normAxis d i = some k ↔ (-(d : ℤ) ≤ i ∧ i < d) ∧ (k : ℤ) = i % d := by
  unfold normAxis
  by_cases h1 : 0 ≤ i ∧ i < d
  · rw [if_pos h1, Int.emod_eq_of_lt h1.1 h1.2, Option.some.injEq]
    omega
  · rw [if_neg h1]
    by_cases h2 : i < 0 ∧ -(d : ℤ) ≤ i
    · have e : i % (d : ℤ) = i + d := by
        rw [← Int.add_emod_right, Int.emod_eq_of_lt (by omega) (by omega)]
      rw [if_pos h2, e, Option.some.injEq]
      omega
    · rw [if_neg h2]
      constructor
      · intro h; cases h
      · rintro ⟨h, _⟩; omega

theorem normAxis_none (d : ℕ) (i : ℤ) : normAxis d i = none ↔ ¬ (-(d : ℤ) ≤ i ∧ i < d) := by
  constructor
  · intro h hb
    by_cases h1 : 0 ≤ i
    · rw [normAxis, if_pos ⟨h1, hb.2⟩] at h; cases h
    · rw [normAxis, if_neg (by omega), if_pos ⟨by omega, hb.1⟩] at h; cases h
  · intro h
    rw [normAxis, if_neg (by omega), if_neg (by omega)]

theorem index_one {a : Arr} {d : ℕ} (ha : a.shape = [d]) (e : KeyEl) :
    a.index [e] = (axisSel d e).map fun x => a.gatherFirst (gatherOuter [x]) 1 := by
  rw [Arr.index, if_pos (by rw [Arr.ndim, ha]; simp), ha]
  show (((axisSel d e).bind fun x => (Except.ok [] : Res (List Sel)).map (x :: ·)).bind (combine [e])).map
    (fun g => a.gatherFirst g 1) = _
  cases axisSel d e <;> rfl

/-- **C31, what `x[i]` is.**  Entry `i mod d` of a vector of length `d`, for `-d ≤ i < d`; `IndexError` otherwise. -/
theorem index_int {a : Arr} {d : ℕ} (ha : a.shape = [d]) (i : ℤ) :
    (-(d : ℤ) ≤ i ∧ i < d → ∃ y, a.index [.int i] = .ok y ∧ y.shape = [] ∧ y.get [] = a.get [(i % d).toNat]) ∧
    (¬ (-(d : ℤ) ≤ i ∧ i < d) → a.index [.int i] = .error .indexError) := by
  rw [index_one ha]
  constructor
  · intro h
    obtain ⟨k, hk⟩ := Option.ne_none_iff_exists'.1 fun hn => (normAxis_none d i).1 hn h
    have hk' := ((normAxis_iff d i k).1 hk).2
    refine ⟨a.gatherFirst (gatherOuter [.one k]) 1, by rw [axisSel, hk]; rfl, ?_, ?_⟩
    · show [] ++ a.shape.drop 1 = []
      rw [ha]; rfl
    · show a.get [k] = _
      rw [← hk', Int.toNat_natCast]
  · intro h
    rw [axisSel, (normAxis_none d i).2 h]; rfl

theorem entries_ofList {a : Arr} {d : ℕ} (ha : a.shape = [d]) (l : List ℕ) :
    (a.gatherFirst (gatherOuter [Sel.ofList l]) 1).shape = [l.length] ∧
    (a.gatherFirst (gatherOuter [Sel.ofList l]) 1).entries = l.map fun k => a.get [k] := by
  have hs : (a.gatherFirst (gatherOuter [Sel.ofList l]) 1).shape = [l.length] := by
    show [l.length] ++ a.shape.drop 1 = [l.length]
    rw [ha]; rfl
  refine ⟨hs, ?_⟩
  rw [Arr.entries, hs]
  refine List.ext_getElem (by simp) fun k h1 h2 => ?_
  rw [List.getElem_map, List.getElem_map, List.getElem_range]
  show a.get ([l.getD k 0] ++ []) = _
  rw [List.append_nil, List.getD_eq_getElem _ _ (by simpa using h2)]

/-- **C31, what `x[[i, j, …]]` is.**  One entry per integer, each by the rule for single integers; `IndexError` as soon as
one of them is out of bounds. -/
theorem index_list {a : Arr} {d : ℕ} (ha : a.shape = [d]) (l : List ℤ) :
    ((∀ i ∈ l, -(d : ℤ) ≤ i ∧ i < d) → ∃ y, a.index [.arr l] = .ok y ∧ y.shape = [l.length] ∧
      y.entries = l.map fun i => a.get [(i % (d : ℤ)).toNat]) ∧
    (¬ (∀ i ∈ l, -(d : ℤ) ≤ i ∧ i < d) → a.index [.arr l] = .error .indexError) := by
  rw [index_one ha]
  constructor
  · intro h
    have hm : l.mapM (normAxis d) = some (l.map fun i : ℤ => (i % (d : ℤ)).toNat) := by
      induction l with
      | nil => rfl
      | cons i l ih =>
        have hi := h i (by simp)
        obtain ⟨k, hk⟩ := Option.ne_none_iff_exists'.1 fun hn => (normAxis_none d i).1 hn hi
        have hk' := ((normAxis_iff d i k).1 hk).2
        rw [List.mapM_cons, ih fun j hj => h j (by simp [hj]), hk, List.map_cons, ← hk', Int.toNat_natCast]
        rfl
    obtain ⟨h1, h2⟩ := entries_ofList ha (l.map fun i : ℤ => (i % (d : ℤ)).toNat)
    refine ⟨_, by rw [axisSel, listSel, hm]; rfl, ?_, ?_⟩
    · rw [h1, List.length_map]
    · rw [h2, List.map_map]; rfl
  · intro h
    have hm : l.mapM (normAxis d) = none := by
      induction l with
      | nil => exact absurd (by simp) h
      | cons i l ih =>
        rw [List.mapM_cons]
        by_cases hi : -(d : ℤ) ≤ i ∧ i < d
        · have : ¬ ∀ j ∈ l, -(d : ℤ) ≤ j ∧ j < d := fun hl => h fun j hj => by
            rcases List.mem_cons.1 hj with rfl | hj
            · exact hi
            · exact hl j hj
          rw [ih this]
          cases normAxis d i <;> rfl
        · rw [(normAxis_none d i).2 hi]; rfl
    rw [axisSel, listSel, hm]; rfl

theorem maskPos_cons (b : Bool) (l : List Bool) :
    maskPos (b :: l) = (if b then [0] else []) ++ (maskPos l).map Nat.succ := by
  unfold maskPos
  rw [List.length_cons, List.range_succ_eq_map, List.filter_cons, List.filter_map]
  cases b <;> rfl

/-- **C31, what `x[mask]` is.**  The entries at the true positions of the mask, in order; a mask of another length raises
`IndexError`. -/
theorem index_mask {a : Arr} {d : ℕ} (ha : a.shape = [d]) (l : List Bool) :
    (l.length = d → ∃ y, a.index [.mask l] = .ok y ∧ y.shape = [l.count true] ∧
      y.entries = ((a.entries.zip l).filter fun p => p.2).map Prod.fst) ∧
    (l.length ≠ d → a.index [.mask l] = .error .indexError) := by
  rw [index_one ha]
  constructor
  · intro h
    obtain ⟨h1, h2⟩ := entries_ofList ha (maskPos l)
    refine ⟨_, by rw [axisSel, if_pos h]; rfl, ?_, ?_⟩
    · rw [h1]
      congr 1
      clear h h1 h2
      induction l with
      | nil => rfl
      | cons b l ih => rw [maskPos_cons, List.length_append, List.length_map, ih]; cases b <;> simp [Nat.add_comm]
    · rw [h2, Arr.entries, ha, List.headD_cons, ← h]
      clear h h1 h2 ha
      have key : ∀ (l : List Bool) (f : ℕ → ℝ), (maskPos l).map f =
          ((((List.range l.length).map f).zip l).filter fun p => p.2).map Prod.fst := by
        intro l
        induction l with
        | nil => intro f; rfl
        | cons b l ih =>
          intro f
          rw [maskPos_cons, List.length_cons, List.range_succ_eq_map, List.map_cons, List.zip_cons_cons,
            List.filter_cons, List.map_append, List.map_map, ih, List.map_map]
          cases b <;> rfl
      exact key l _
  · intro h
    rw [axisSel, if_neg h]; rfl

/-- The bound of a slice after Python's rules: negative values count from the end, then clipping. -/
def bound (d : ℕ) (lo hi : ℤ) (b : ℤ) : ℤ := max lo (min hi (if b < 0 then b + d else b))

theorem clipBound_eq {d : ℕ} {lo hi : ℤ} (h : lo ≤ hi) (b : ℤ) : clipBound d lo hi b = bound d lo hi b := by
  unfold clipBound bound
  dsimp only
  generalize (if b < 0 then b + (d : ℤ) else b) = c
  by_cases h1 : c < lo
  · rw [if_pos h1]; omega
  · rw [if_neg h1]
    by_cases h2 : hi < c
    · rw [if_pos h2]; omega
    · rw [if_neg h2]; omega

theorem entries_slice {a : Arr} {d : ℕ} (ha : a.shape = [d]) (n : ℕ) (f : ℕ → ℕ) :
    (a.gatherFirst (gatherOuter [Sel.many n f]) 1).shape = [n] ∧
    ∀ k, (a.gatherFirst (gatherOuter [Sel.many n f]) 1).get [k] = a.get [f k] := by
  refine ⟨?_, fun k => rfl⟩
  show [n] ++ a.shape.drop 1 = [n]
  rw [ha]; rfl

/-- **C31, what `x[start:stop:step]` is**, positive step: entry `k` of the result is entry `lo + k step`, and there are as many
entries as multiples of the step fit below the upper bound. -/
theorem index_slice {a : Arr} {d : ℕ} (ha : a.shape = [d]) (start stop : Option ℤ) (st : ℤ) (hst : 0 < st) :
    ∃ y n, a.index [.slice start stop (some st)] = .ok y ∧ y.shape = [n] ∧
      let lo := (start.map (bound d 0 d)).getD 0
      let hi := (stop.map (bound d 0 d)).getD d
      (∀ k, y.get [k] = a.get [(lo + k * st).toNat]) ∧ ∀ k : ℕ, k < n ↔ lo + k * st < hi := by
  rw [index_one ha]
  have e : clipBound d 0 (d : ℤ) = bound d 0 d := funext fun b => clipBound_eq (by omega) b
  let N : ℕ := (((stop.map (bound d 0 d)).getD d - (start.map (bound d 0 d)).getD 0 + st - 1) / st).toNat
  let F : ℕ → ℕ := fun k => ((start.map (bound d 0 d)).getD 0 + (k : ℤ) * st).toNat
  refine ⟨a.gatherFirst (gatherOuter [Sel.many N F]) 1, N, ?_, (entries_slice ha N F).1, (entries_slice ha N F).2, ?_⟩
  · rw [axisSel, sliceIndices]
    dsimp only [Option.getD_some]
    rw [if_neg hst.ne', if_pos hst, e]
    rfl
  · intro k
    show k < N ↔ _
    simp only [N]
    generalize (Option.map (bound d 0 ↑d) start).getD 0 = lo
    generalize (Option.map (bound d 0 ↑d) stop).getD ↑d = hi
    rw [Int.lt_toNat, ← Int.add_one_le_iff, Int.le_ediv_iff_mul_le hst, add_mul]
    omega

/-- Negative step: the same downwards. -/
theorem index_slice_down {a : Arr} {d : ℕ} (ha : a.shape = [d]) (start stop : Option ℤ) (st : ℤ) (hst : st < 0) :
    ∃ y n, a.index [.slice start stop (some st)] = .ok y ∧ y.shape = [n] ∧
      let hi := (start.map (bound d (-1) (d - 1))).getD (d - 1)
      let lo := (stop.map (bound d (-1) (d - 1))).getD (-1)
      (∀ k, y.get [k] = a.get [(hi + k * st).toNat]) ∧ ∀ k : ℕ, k < n ↔ lo < hi + k * st := by
  rw [index_one ha]
  have e : clipBound d (-1) ((d : ℤ) - 1) = bound d (-1) (d - 1) := funext fun b => clipBound_eq (by omega) b
  let N : ℕ := (((start.map (bound d (-1) (d - 1))).getD (d - 1) - (stop.map (bound d (-1) (d - 1))).getD (-1) - st - 1)
    / (-st)).toNat
  let F : ℕ → ℕ := fun k => ((start.map (bound d (-1) (d - 1))).getD (d - 1) + (k : ℤ) * st).toNat
  refine ⟨a.gatherFirst (gatherOuter [Sel.many N F]) 1, N, ?_, (entries_slice ha N F).1, (entries_slice ha N F).2, ?_⟩
  · rw [axisSel, sliceIndices]
    dsimp only [Option.getD_some]
    rw [if_neg hst.ne, if_neg (by omega), e]
    rfl
  · intro k
    show k < N ↔ _
    simp only [N]
    generalize (Option.map (bound d (-1) (↑d - 1)) start).getD (↑d - 1) = hi
    generalize (Option.map (bound d (-1) (↑d - 1)) stop).getD (-1) = lo
    rw [Int.lt_toNat, ← Int.add_one_le_iff, Int.le_ediv_iff_mul_le (by omega), add_mul, mul_neg]
    omega

theorem listSel_ok {d : ℕ} {l : List ℤ} (h : ∀ i ∈ l, -(d : ℤ) ≤ i ∧ i < d) :
    listSel d l = .ok (l.map fun i : ℤ => (i % (d : ℤ)).toNat) := by
  have hm : l.mapM (normAxis d) = some (l.map fun i : ℤ => (i % (d : ℤ)).toNat) := by
    induction l with
    | nil => rfl
    | cons i l ih =>
      have hi := h i (by simp)
      obtain ⟨k, hk⟩ := Option.ne_none_iff_exists'.1 fun hn => (normAxis_none d i).1 hn hi
      have hk' := ((normAxis_iff d i k).1 hk).2
      rw [List.mapM_cons, ih fun j hj => h j (by simp [hj]), hk, List.map_cons, ← hk', Int.toNat_natCast]
      rfl
  rw [listSel, hm]

/-- The index expression of two lists, both within bounds. -/
theorem index_pair {a : Arr} {d e : ℕ} (ha : a.shape = [d, e]) {l l' : List ℤ} (h : ∀ i ∈ l, -(d : ℤ) ≤ i ∧ i < d)
    (h' : ∀ i ∈ l', -(e : ℤ) ≤ i ∧ i < e) :
    a.index [.arr l, .arr l'] = (gatherZip (Sel.ofList (l.map fun i : ℤ => (i % (d : ℤ)).toNat))
      (Sel.ofList (l'.map fun i : ℤ => (i % (e : ℤ)).toNat))).map fun g => a.gatherFirst g 2 := by
  rw [Arr.index, if_pos (by rw [Arr.ndim, ha]; simp), ha]
  show (((axisSel d (.arr l)).bind fun x => ((axisSel e (.arr l')).bind fun x' => (Except.ok [] : Res (List Sel)).map
    (x' :: ·)).map (x :: ·)).bind (combine [.arr l, .arr l'])).map (fun g => a.gatherFirst g 2) = _
  rw [axisSel, axisSel, listSel_ok h, listSel_ok h']
  rfl

/-- **C31, what `x[[i, …], [j, …]]` is for a matrix.**  Two lists of the same length select the entries at the pairs
`(i, j)`, not a block; lists of different lengths, neither of length one, raise `IndexError`. -/
theorem index_two_lists {a : Arr} {d e : ℕ} (ha : a.shape = [d, e]) {l l' : List ℤ}
    (h : ∀ i ∈ l, -(d : ℤ) ≤ i ∧ i < d) (h' : ∀ i ∈ l', -(e : ℤ) ≤ i ∧ i < e) :
    (l.length = l'.length → ∃ y, a.index [.arr l, .arr l'] = .ok y ∧ y.shape = [l.length] ∧
      y.entries = (l.zip l').map fun p => a.get [(p.1 % (d : ℤ)).toNat, (p.2 % (e : ℤ)).toNat]) ∧
    (l.length ≠ l'.length → l.length ≠ 1 → l'.length ≠ 1 → a.index [.arr l, .arr l'] = .error .indexError) := by
  rw [index_pair ha h h']
  constructor
  · intro hl
    have hb : bdim (l.map fun i : ℤ => (i % (d : ℤ)).toNat).length (l'.map fun i : ℤ => (i % (e : ℤ)).toNat).length =
        some l.length := by
      rw [bdim, List.length_map, List.length_map, if_pos hl]
    refine ⟨_, by rw [Sel.ofList, Sel.ofList, gatherZip, hb]; rfl, ?_, ?_⟩
    · show [l.length] ++ a.shape.drop 2 = [l.length]
      rw [ha]; rfl
    · have hs : ∀ F : List ℕ → List ℕ, (a.gatherFirst ⟨[l.length], F⟩ 2).entries =
          (List.range l.length).map fun k => a.get (F [k] ++ []) := fun F => rfl
      rw [hs]
      refine List.ext_getElem (by simp [hl]) fun k h1 h2 => ?_
      have hk : k < l.length := by simpa using h1
      have hk' : k < l'.length := hl ▸ hk
      rw [List.getElem_map, List.getElem_range, List.getElem_map, List.getElem_zip, List.append_nil]
      have z : ∀ n : ℕ, k < n → (if n = 1 then 0 else [k].headD 0) = k := by
        intro n hn
        by_cases h1 : n = 1
        · rw [if_pos h1]; omega
        · rw [if_neg h1]; rfl
      rw [z _ (by simpa using hk), z _ (by simpa using hk'), List.getD_eq_getElem _ _ (by simpa using hk),
        List.getD_eq_getElem _ _ (by simpa using hk'), List.getElem_map, List.getElem_map]
  · intro h1 h2 h3
    have hb : bdim (l.map fun i : ℤ => (i % (d : ℤ)).toNat).length (l'.map fun i : ℤ => (i % (e : ℤ)).toNat).length =
        none := by
      rw [bdim, List.length_map, List.length_map, if_neg h1, if_neg h2, if_neg h3]
    rw [Sel.ofList, Sel.ofList, gatherZip, hb]; rfl

/-- **C31.**  A list in the first place and a slice in the second (`x[[i, …], :]`) select whole rows. -/
theorem index_list_rows {a : Arr} {d e : ℕ} (ha : a.shape = [d, e]) {l : List ℤ} (h : ∀ i ∈ l, -(d : ℤ) ≤ i ∧ i < d) :
    ∃ y, a.index [.arr l, .slice none none none] = .ok y ∧ y.shape = [l.length, e] ∧
      ∀ k (hk : k < l.length) (j : ℕ), y.get [k, j] = a.get [(l[k] % (d : ℤ)).toNat, j] := by
  have hs : sliceIndices e none none none = .ok (0, e, 1) := by
    rw [sliceIndices]
    simp
  have hi : a.index [.arr l, .slice none none none] = .ok (a.gatherFirst (gatherOuter
      [Sel.ofList (l.map fun i : ℤ => (i % (d : ℤ)).toNat), .many e fun k => (0 + (k : ℤ) * 1).toNat]) 2) := by
    rw [Arr.index, if_pos (by rw [Arr.ndim, ha]; simp), ha]
    show (((axisSel d (.arr l)).bind fun x => ((axisSel e (.slice none none none)).bind fun x' =>
      (Except.ok [] : Res (List Sel)).map (x' :: ·)).map (x :: ·)).bind (combine [.arr l, .slice none none none])).map
        (fun g => a.gatherFirst g 2) = _
    rw [axisSel, axisSel, listSel_ok h, hs]
    rfl
  refine ⟨_, hi, ?_, ?_⟩
  · show [(l.map fun i : ℤ => (i % (d : ℤ)).toNat).length, e] ++ a.shape.drop 2 = _
    rw [ha, List.length_map]; rfl
  · intro k hk j
    show a.get ([(l.map fun i : ℤ => (i % (d : ℤ)).toNat).getD k 0, (0 + (j : ℤ) * 1).toNat] ++ []) = _
    rw [List.getD_eq_getElem _ _ (by simpa using hk), List.getElem_map, List.append_nil]
    congr 3
    omega

/-- **C31.**  More entries than axes raise IndexError. -/
theorem index_too_many {a : Arr} {key : List KeyEl} (h : a.shape.length < key.length) : a.index key = .error .indexError := by
  rw [Arr.index, if_neg (by rw [Arr.ndim]; omega)]

/-- Two indices for a vector. -/
example : (⟨[3], fun _ => (0 : ℝ)⟩ : Arr).shape.length < ([.int 0, .int 0] : List KeyEl).length := by decide

/-- A vector of length 3: `x[-3]` is the first entry, `x[[True, False, True]]` has two entries. -/
example : (⟨[3], fun l => (l.headD 0 : ℝ)⟩ : Arr).shape = [3] ∧ (-(3 : ℤ) ≤ -3 ∧ (-3 : ℤ) < (3 : ℕ)) ∧
    ([true, false, true] : List Bool).count true = 2 := ⟨rfl, by norm_num, rfl⟩

/-- Two rows and columns of a `2 × 3` matrix, `x[[1, -2], [0, -1]]`, are within bounds. -/
example : (⟨[2, 3], fun _ => (0 : ℝ)⟩ : Arr).shape = [2, 3] ∧ (∀ i ∈ ([1, -2] : List ℤ), -((2 : ℕ) : ℤ) ≤ i ∧ i < (2 : ℕ)) ∧
    (∀ i ∈ ([0, -1] : List ℤ), -((3 : ℕ) : ℤ) ≤ i ∧ i < (3 : ℕ)) :=
  ⟨rfl, by simp, by simp⟩

end Probnum.RandVars
