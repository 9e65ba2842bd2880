import Verif.Merge.Model
import Mathlib.Data.List.Nodup
import Mathlib.Data.List.Perm.Basic
import Mathlib.Tactic.NormNum

/-!
# Merging regression problems loses nothing (C49)
-/

namespace Probnum.Merge

variable {T O M S : Type} [LinearOrder T]

/-! ## Specification -/

/-- A problem as accepted by its constructor. -/
def WellFormed (p : Problem T O M S) : Prop :=
  Problem.mk? p.locations p.observations p.models p.solution = .ok p

/-- The triples of time, observation and measurement model of a problem. -/
def entries (p : Problem T O M S) : List (T × O × M) := p.locations.zip (p.observations.rows.zip p.models)

/-- The pairs of time and solution value. -/
def solutionEntries (p : Problem T O M S) (s : Values S) : List (T × S) := p.locations.zip s.rows

/-- Two problems that can be merged: no shared time, and arrays with entries of the same shapes. -/
structure Compatible (p1 p2 : Problem T O M S) : Prop where
  disjoint : ∀ t ∈ p1.locations, t ∉ p2.locations
  arrays : p1.observations.isArray = true ∧ p2.observations.isArray = true
  shape : p1.observations.shape = p2.observations.shape
  solutions : ∀ s1 s2, p1.solution = some s1 → p2.solution = some s2 →
    s1.isArray = true ∧ s2.isArray = true ∧ s1.shape = s2.shape ∧
    s1.rows.length = p1.locations.length ∧ s2.rows.length = p2.locations.length

/-! ## Lemmas -/

theorem setAll_append {α : Type} : ∀ (ps qs : List (ℕ × α)) (as : List α),
    setAll as (ps ++ qs) = setAll (setAll as ps) qs
  | [], _, _ => rfl
  | (i, v) :: ps, qs, as => setAll_append ps qs (as.set i v)

theorem setAll_length {α : Type} : ∀ (ps : List (ℕ × α)) (as : List α), (setAll as ps).length = as.length
  | [], _ => rfl
  | (i, v) :: ps, as => by rw [setAll, setAll_length ps, List.length_set]

theorem setAll_other {α : Type} : ∀ (ps : List (ℕ × α)) (as : List α) (j : ℕ), j ∉ ps.map Prod.fst →
    (setAll as ps)[j]? = as[j]?
  | [], _, _, _ => rfl
  | (i, v) :: ps, as, j, h => by
    rw [List.map_cons, List.mem_cons, not_or] at h
    rw [setAll, setAll_other ps _ j h.2, List.getElem?_set_ne (Ne.symm h.1)]

theorem setAll_get {α : Type} : ∀ (ps : List (ℕ × α)) (as : List α) (j : ℕ) (v : α), (ps.map Prod.fst).Nodup →
    (j, v) ∈ ps → j < as.length → (setAll as ps)[j]? = some v
  | [], _, _, _, _, h, _ => by cases h
  | (i, u) :: ps, as, j, v, hn, h, hj => by
    rw [List.map_cons, List.nodup_cons] at hn
    rw [setAll]
    rcases List.mem_cons.1 h with h | h
    · cases h
      rw [setAll_other ps _ _ hn.1, List.getElem?_set_self hj]
    · exact setAll_get ps _ j v hn.2 h (by rwa [List.length_set])

theorem countP_lt_sorted {L : List T} (hs : L.Pairwise (· < ·)) : ∀ {i : ℕ} (h : i < L.length), searchsorted L L[i] = i := by
  induction L with
  | nil => intro i h; cases h
  | cons x L ih =>
    obtain ⟨h1, h2⟩ := List.pairwise_cons.1 hs
    intro i h
    cases i with
    | zero =>
      show (List.countP _ (x :: L)) = 0
      rw [List.countP_eq_zero]
      intro y hy
      rcases List.mem_cons.1 hy with rfl | hy
      · simp
      · simpa using (h1 y hy).le
    | succ i =>
      have hi : i < L.length := by simpa using h
      show (List.countP (fun y => decide (y < L[i])) (x :: L)) = i + 1
      rw [List.countP_cons_of_pos (by simpa using h1 _ (List.getElem_mem hi))]
      exact congrArg (· + 1) (ih h2 hi)

/-- Filling an array of the length of the sorted times: every value ends up at the position of its time. -/
theorem fill_spec {α : Type} (zero : α) {ts1 ts2 : List T} {vs1 vs2 : List α} (hn : (ts1 ++ ts2).Nodup)
    (h1 : vs1.length = ts1.length) (h2 : vs2.length = ts2.length) :
    ∃ r, fill zero (ts1.length + ts2.length) (ts1.map (searchsorted ((ts1 ++ ts2).insertionSort (· ≤ ·))))
        (ts2.map (searchsorted ((ts1 ++ ts2).insertionSort (· ≤ ·)))) vs1 vs2 = .ok r ∧
      r.length = ts1.length + ts2.length ∧
      ∀ (i : ℕ) t v, ((ts1 ++ ts2).insertionSort (· ≤ ·))[i]? = some t → (t, v) ∈ (ts1 ++ ts2).zip (vs1 ++ vs2) → r[i]? = some v := by
  generalize hL : (ts1 ++ ts2).insertionSort (· ≤ ·) = L
  have hperm : L.Perm (ts1 ++ ts2) := hL ▸ List.perm_insertionSort _ _
  have hle : L.Pairwise (· ≤ ·) := hL ▸ List.pairwise_insertionSort _ _
  have hnd : L.Nodup := hperm.nodup_iff.2 hn
  have hlt : L.Pairwise (· < ·) := (hle.and hnd).imp fun ⟨a, b⟩ => lt_of_le_of_ne a b
  have hlen : L.length = ts1.length + ts2.length := by rw [hperm.length_eq, List.length_append]
  have hpos : ∀ t ∈ ts1 ++ ts2, ∃ h : searchsorted L t < L.length, L[searchsorted L t] = t := by
    intro t ht
    obtain ⟨i, hi, rfl⟩ := List.getElem_of_mem (hperm.mem_iff.2 ht)
    have e := countP_lt_sorted hlt hi
    exact ⟨by rw [e]; exact hi, by simp only [e]⟩
  have hz : (ts1.map (searchsorted L)).zip vs1 ++ (ts2.map (searchsorted L)).zip vs2 =
      ((ts1 ++ ts2).map (searchsorted L)).zip (vs1 ++ vs2) := by
    rw [List.map_append, List.zip_append (by rw [List.length_map, h1])]
  refine ⟨setAll (List.replicate (ts1.length + ts2.length) zero) (((ts1 ++ ts2).map (searchsorted L)).zip (vs1 ++ vs2)),
    ?_, ?_, ?_⟩
  · rw [fill, assign.eq_def, if_pos (by rw [List.length_map, h1])]
    dsimp only
    rw [assign.eq_def, if_pos (by rw [List.length_map, h2]), ← setAll_append, hz]
  · rw [setAll_length, List.length_replicate]
  · intro i t v hi hv
    have hit : i < L.length := (List.getElem?_eq_some_iff.1 hi).1
    have hti : L[i] = t := (List.getElem?_eq_some_iff.1 hi).2
    have hst : searchsorted L t = i := by rw [← hti]; exact countP_lt_sorted hlt hit
    refine setAll_get _ _ i v ?_ ?_ (by rw [List.length_replicate, ← hlen]; exact hit)
    · rw [List.map_fst_zip (by rw [List.length_map, List.length_append, List.length_append, h1, h2])]
      refine List.Nodup.map_on ?_ hn
      intro x hx y hy hxy
      obtain ⟨a, ha⟩ := hpos x hx
      obtain ⟨b, hb⟩ := hpos y hy
      rw [← ha, ← hb]
      simp only [hxy]
    · rw [List.zip_map_left]
      refine List.mem_map.2 ⟨(t, v), hv, ?_⟩
      rw [Prod.map_apply, hst]
      rfl

theorem zip_perm_of_lookup {α : Type} {L ts : List T} {r vs : List α} (hp : L.Perm ts) (hn : ts.Nodup)
    (hr : r.length = L.length) (hv : vs.length = ts.length)
    (h : ∀ (i : ℕ) t v, L[i]? = some t → (t, v) ∈ ts.zip vs → r[i]? = some v) : (L.zip r).Perm (ts.zip vs) := by
  have hnL : (L.zip r).Nodup := List.Nodup.of_map Prod.fst (by
    rw [List.map_fst_zip (by rw [hr])]
    exact hp.nodup_iff.2 hn)
  have hnt : (ts.zip vs).Nodup := List.Nodup.of_map Prod.fst (by
    rw [List.map_fst_zip (by rw [hv])]
    exact hn)
  refine (List.perm_ext_iff_of_nodup hnL hnt).2 fun ⟨t, v⟩ => ⟨fun hm => ?_, fun hm => ?_⟩
  · obtain ⟨i, hi⟩ := List.mem_iff_getElem?.1 hm
    rw [List.getElem?_zip_eq_some] at hi
    have ht : t ∈ ts := hp.mem_iff.1 (List.mem_of_getElem? hi.1)
    obtain ⟨j, hj, hjt⟩ := List.getElem_of_mem ht
    have hmem : (t, vs[j]'(by rw [hv]; exact hj)) ∈ ts.zip vs := by
      refine List.mem_iff_getElem?.2 ⟨j, ?_⟩
      rw [List.getElem?_zip_eq_some]
      exact ⟨List.getElem?_eq_some_iff.2 ⟨hj, hjt⟩, List.getElem?_eq_some_iff.2 ⟨_, rfl⟩⟩
    have := h i t _ hi.1 hmem
    have hi2 : r[i]? = some v := hi.2
    rw [hi2] at this
    cases this
    exact hmem
  · have ht : t ∈ ts := (List.of_mem_zip hm).1
    obtain ⟨i, hi⟩ := List.mem_iff_getElem?.1 (hp.mem_iff.2 ht)
    refine List.mem_iff_getElem?.2 ⟨i, ?_⟩
    rw [List.getElem?_zip_eq_some]
    exact ⟨hi, h i t v hi hm⟩

theorem wellFormed_lengths {p : Problem T O M S} (h : WellFormed p) :
    p.observations.rows.length = p.locations.length ∧ p.models.length = p.locations.length := by
  rw [WellFormed, Problem.mk?] at h
  split at h
  · next h0 => exact ⟨h0.1, h0.2.symm⟩
  · cases h

/-! ## The properties -/

/-- **C49** (for problems without repeated times). The merged problem is well formed and in chronological order; its
triples of time, observation and measurement model are those of the two problems, no more and no less; if both problems
have a solution, so has the merged problem, and its pairs of time and value are those of the two problems. Missing: a
problem may contain a time twice, see `merge_repeated_times`. -/
theorem merge_partial (zo : O) (zm : M) (zs : S) {p1 p2 : Problem T O M S} (w1 : WellFormed p1) (w2 : WellFormed p2)
    (hc : Compatible p1 p2) (n1 : p1.locations.Nodup) (n2 : p2.locations.Nodup) :
    ∃ p, merge zo zm zs p1 p2 = .ok p ∧ WellFormed p ∧ p.locations.Pairwise (· < ·) ∧
      (entries p).Perm (entries p1 ++ entries p2) ∧ p.observations.shape = p1.observations.shape ∧
      (p.solution.isSome ↔ p1.solution.isSome ∧ p2.solution.isSome) ∧
      ∀ s1 s2, p1.solution = some s1 → p2.solution = some s2 → ∃ s, p.solution = some s ∧
        (solutionEntries p s).Perm (solutionEntries p1 s1 ++ solutionEntries p2 s2) := by
  obtain ⟨a1, b1⟩ := wellFormed_lengths w1
  obtain ⟨a2, b2⟩ := wellFormed_lengths w2
  have hn : (p1.locations ++ p2.locations).Nodup := List.nodup_append.2 ⟨n1, n2, fun a ha b hb hab => hc.disjoint a ha (hab ▸ hb)⟩
  have hperm := List.perm_insertionSort (· ≤ ·) (p1.locations ++ p2.locations)
  obtain ⟨r, hr, hrl, hrs⟩ := fill_spec zo hn a1 a2
  obtain ⟨m, hm, hml, hms⟩ := fill_spec zm hn b1 b2
  have hsol : ∃ sol, mergeSolutions zs (p1.locations.length + p2.locations.length)
      (p1.locations.map (searchsorted ((p1.locations ++ p2.locations).insertionSort (· ≤ ·))))
      (p2.locations.map (searchsorted ((p1.locations ++ p2.locations).insertionSort (· ≤ ·)))) p1.solution p2.solution = .ok sol ∧
      (sol.isSome ↔ p1.solution.isSome ∧ p2.solution.isSome) ∧
      ∀ s1 s2, p1.solution = some s1 → p2.solution = some s2 → ∃ s, sol = some s ∧
        s.rows.length = p1.locations.length + p2.locations.length ∧
        ∀ (i : ℕ) t v, ((p1.locations ++ p2.locations).insertionSort (· ≤ ·))[i]? = some t →
          (t, v) ∈ (p1.locations ++ p2.locations).zip (s1.rows ++ s2.rows) → s.rows[i]? = some v := by
    cases h1 : p1.solution with
    | none => exact ⟨none, rfl, by simp, fun _ _ h => (by cases h)⟩
    | some s1 =>
      cases h2 : p2.solution with
      | none => exact ⟨none, rfl, by simp, fun _ _ _ h => (by cases h)⟩
      | some s2 =>
        obtain ⟨c1, c2, c3, c4, c5⟩ := hc.solutions s1 s2 h1 h2
        obtain ⟨x, hx, hxl, hxs⟩ := fill_spec zs hn c4 c5
        refine ⟨some ⟨true, s1.shape, x⟩, ?_, by simp, ?_⟩
        · rw [mergeSolutions, if_neg (by rw [c1, c2]; simp), if_neg (by rw [c3]; simp), hx]
        · intro t1 t2 e1 e2
          cases e1
          cases e2
          exact ⟨_, rfl, hxl, hxs⟩
  obtain ⟨sol, hs1, hs2, hs3⟩ := hsol
  have hlen : ((p1.locations ++ p2.locations).insertionSort (· ≤ ·)).length = p1.locations.length + p2.locations.length := by
    rw [hperm.length_eq, List.length_append]
  have hcond : r.length = ((p1.locations ++ p2.locations).insertionSort (· ≤ ·)).length ∧
      ((p1.locations ++ p2.locations).insertionSort (· ≤ ·)).length = m.length := by rw [hlen, hrl, hml]; exact ⟨rfl, rfl⟩
  refine ⟨⟨(p1.locations ++ p2.locations).insertionSort (· ≤ ·), ⟨true, p1.observations.shape, r⟩, m, sol⟩, ?_, ?_, ?_, ?_, rfl,
    hs2, ?_⟩
  · rw [merge, if_neg (by simpa using hc.disjoint)]
    dsimp only
    rw [if_neg (by rw [hc.arrays.1, hc.arrays.2]; simp), if_neg (by rw [hc.shape]; simp), a1, a2, hr]
    dsimp only
    rw [hs1]
    dsimp only
    rw [hm]
    dsimp only
    rw [Problem.mk?, if_pos hcond]
  · rw [WellFormed, Problem.mk?, if_pos hcond]
  · exact ((List.pairwise_insertionSort (· ≤ ·) _).and (hperm.nodup_iff.2 hn)).imp fun ⟨a, b⟩ => lt_of_le_of_ne a b
  · have e : entries p1 ++ entries p2 = (p1.locations ++ p2.locations).zip
        ((p1.observations.rows ++ p2.observations.rows).zip (p1.models ++ p2.models)) := by
      rw [List.zip_append (by rw [a1, b1]), List.zip_append (by simp [a1, b1])]
      rfl
    rw [e]
    refine zip_perm_of_lookup hperm hn (by simp [hrl, hml, hlen]) (by simp [a1, a2, b1, b2]) fun i t v hi hv => ?_
    obtain ⟨j, hj⟩ := List.mem_iff_getElem?.1 hv
    rw [List.getElem?_zip_eq_some, List.getElem?_zip_eq_some] at hj
    rw [List.getElem?_zip_eq_some]
    refine ⟨hrs i t v.1 hi (List.mem_iff_getElem?.2 ⟨j, ?_⟩), hms i t v.2 hi (List.mem_iff_getElem?.2 ⟨j, ?_⟩)⟩
    · rw [List.getElem?_zip_eq_some]; exact ⟨hj.1, hj.2.1⟩
    · rw [List.getElem?_zip_eq_some]; exact ⟨hj.1, hj.2.2⟩
  · intro s1 s2 e1 e2
    obtain ⟨s, h1, h2, h3⟩ := hs3 s1 s2 e1 e2
    obtain ⟨_, _, _, c4, c5⟩ := hc.solutions s1 s2 e1 e2
    refine ⟨s, h1, ?_⟩
    have e : solutionEntries p1 s1 ++ solutionEntries p2 s2 = (p1.locations ++ p2.locations).zip (s1.rows ++ s2.rows) := by
      rw [List.zip_append c4.symm]
      rfl
    rw [e]
    exact zip_perm_of_lookup hperm hn (by rw [hlen, h2]) (by simp [c4, c5]) h3

/-- **C49.** Shared times and observations of different shapes are rejected. -/
theorem merge_rejects (zo : O) (zm : M) (zs : S) (p1 p2 : Problem T O M S) :
    ((∃ t ∈ p1.locations, t ∈ p2.locations) → merge zo zm zs p1 p2 = .error .valueError) ∧
    (p1.observations.isArray = true → p2.observations.isArray = true → p1.observations.shape ≠ p2.observations.shape →
      merge zo zm zs p1 p2 = .error .valueError) := by
  refine ⟨fun ⟨t, h1, h2⟩ => ?_, fun h1 h2 h3 => ?_⟩
  · rw [merge, if_pos]
    rw [List.any_eq_true]
    exact ⟨t, h1, by simpa using h2⟩
  · rw [merge]
    split
    · rfl
    · dsimp only
      rw [if_neg (by rw [h1, h2]; simp)]

/-- **C49.** Solutions of different shapes are rejected. -/
theorem merge_rejects_solutions (zo : O) (zm : M) (zs : S) {p1 p2 : Problem T O M S} (w1 : WellFormed p1) (w2 : WellFormed p2)
    (ha : p1.observations.isArray = true ∧ p2.observations.isArray = true) {s1 s2 : Values S} (h1 : p1.solution = some s1)
    (h2 : p2.solution = some s2) (hs : s1.isArray = true ∧ s2.isArray = true) (hne : s1.shape ≠ s2.shape) :
    merge zo zm zs p1 p2 = .error .valueError := by
  obtain ⟨a1, b1⟩ := wellFormed_lengths w1
  obtain ⟨a2, b2⟩ := wellFormed_lengths w2
  rw [merge]
  split
  · rfl
  · dsimp only
    rw [if_neg (by rw [ha.1, ha.2]; simp)]
    split
    · rfl
    · rw [fill, assign.eq_def, if_pos (by rw [List.length_map, a1])]
      dsimp only
      rw [assign.eq_def, if_pos (by rw [List.length_map, a2])]
      dsimp only
      rw [h1, h2, mergeSolutions, if_neg (by rw [hs.1, hs.2]; simp), if_pos hne]

/-- **C49.** A solution with neither one value per time nor a single value is rejected, whichever problem has it. -/
theorem merge_rejects_lengths (zo : O) (zm : M) (zs : S) {p1 p2 : Problem T O M S} (w1 : WellFormed p1) (w2 : WellFormed p2)
    (ha : p1.observations.isArray = true ∧ p2.observations.isArray = true) {s1 s2 : Values S} (h1 : p1.solution = some s1)
    (h2 : p2.solution = some s2) (hs : s1.isArray = true ∧ s2.isArray = true)
    (hne : (s1.rows.length ≠ p1.locations.length ∧ s1.rows.length ≠ 1) ∨
      (s2.rows.length ≠ p2.locations.length ∧ s2.rows.length ≠ 1)) :
    merge zo zm zs p1 p2 = .error .valueError := by
  obtain ⟨a1, b1⟩ := wellFormed_lengths w1
  obtain ⟨a2, b2⟩ := wellFormed_lengths w2
  have bad : ∀ {α : Type} (array : List α) (index : List ℕ) (v : List α), v.length ≠ index.length → v.length ≠ 1 →
      assign array index v = .error .valueError := by
    intro α array index v h3 h4
    rw [assign.eq_def, if_neg h3]
    match v, h4 with
    | [], _ => rfl
    | [_], h4 => exact absurd rfl h4
    | _ :: _ :: _, _ => rfl
  have err : ∀ {α : Type} (array : List α) (index : List ℕ) (v : List α),
      (∃ a, assign array index v = .ok a) ∨ assign array index v = .error .valueError := by
    intro α array index v
    by_cases h3 : v.length = index.length
    · exact .inl ⟨_, by rw [assign.eq_def, if_pos h3]⟩
    · by_cases h4 : v.length = 1
      · obtain ⟨x, rfl⟩ := List.length_eq_one_iff.1 h4
        exact .inl ⟨_, by rw [assign.eq_def, if_neg h3]⟩
      · exact .inr (bad array index v h3 h4)
  have hfill : ∀ L : List T, fill zs (p1.locations.length + p2.locations.length) (p1.locations.map (searchsorted L))
      (p2.locations.map (searchsorted L)) s1.rows s2.rows = .error .valueError := by
    intro L
    rw [fill]
    rcases hne with ⟨h3, h4⟩ | ⟨h3, h4⟩
    · rw [bad _ _ _ (by rwa [List.length_map]) h4]
    · rcases err (List.replicate (p1.locations.length + p2.locations.length) zs) (p1.locations.map (searchsorted L)) s1.rows with
        ⟨a, h⟩ | h
      · rw [h]; exact bad _ _ _ (by rwa [List.length_map]) h4
      · rw [h]
  rw [merge]
  split
  · rfl
  · dsimp only
    rw [if_neg (by rw [ha.1, ha.2]; simp)]
    split
    · rfl
    · rw [fill, assign.eq_def, if_pos (by rw [List.length_map, a1])]
      dsimp only
      rw [assign.eq_def, if_pos (by rw [List.length_map, a2])]
      dsimp only
      rw [h1, h2, mergeSolutions, if_neg (by rw [hs.1, hs.2]; simp)]
      by_cases hsh : s1.shape ≠ s2.shape
      · rw [if_pos hsh]
      · rw [if_neg hsh, a1, a2, hfill]

/-- The property fails for a problem with a repeated time: an observation is lost, and a zero is invented. -/
theorem merge_repeated_times :
    merge (0 : ℕ) (0 : ℕ) () ⟨[5, 5], ⟨true, [], [10, 20]⟩, [1, 2], none⟩ ⟨[7], ⟨true, [], [30]⟩, [3], none⟩ =
      .ok ⟨[5, 5, 7], ⟨true, [], [20, 0, 30]⟩, [2, 0, 3], none⟩ := rfl

/-- Problems given by lists, which the class accepts, cannot be merged. -/
theorem merge_lists :
    merge (0 : ℕ) (0 : ℕ) () ⟨[5], ⟨false, [], [10]⟩, [1], none⟩ ⟨[7], ⟨false, [], [30]⟩, [3], none⟩ =
      .error .attributeError := rfl

/-- The length of a solution is never checked: a solution with a single value is repeated at all times. -/
theorem merge_short_solution :
    merge (0 : ℕ) (0 : ℕ) 0 ⟨[5, 8], ⟨true, [], [10, 20]⟩, [1, 2], some ⟨true, [], [4]⟩⟩
        ⟨[7], ⟨true, [], [30]⟩, [3], some ⟨true, [], [6]⟩⟩ =
      .ok ⟨[5, 7, 8], ⟨true, [], [10, 30, 20]⟩, [1, 3, 2], some ⟨true, [], [4, 6, 4]⟩⟩ := rfl

example : merge (0 : ℕ) (0 : ℕ) 0 ⟨[5, 8, 9], ⟨true, [], [10, 20, 30]⟩, [1, 2, 3], some ⟨true, [], [4, 4]⟩⟩
    ⟨[7], ⟨true, [], [30]⟩, [3], some ⟨true, [], [6]⟩⟩ = .error .valueError :=
  merge_rejects_lengths 0 0 0 rfl rfl ⟨rfl, rfl⟩ rfl rfl ⟨rfl, rfl⟩ (Or.inl ⟨by decide, by decide⟩)

/-- A concrete case of the hypotheses. -/
example : Compatible (T := ℕ) (O := ℕ) (M := ℕ) (S := ℕ) ⟨[8, 5], ⟨true, [2], [20, 10]⟩, [2, 1], some ⟨true, [3], [1, 2]⟩⟩
    ⟨[7], ⟨true, [2], [30]⟩, [3], some ⟨true, [3], [6]⟩⟩ := by
  refine ⟨by decide, ⟨rfl, rfl⟩, rfl, fun s1 s2 h1 h2 => ?_⟩
  cases h1
  cases h2
  exact ⟨rfl, rfl, rfl, rfl, rfl⟩

end Probnum.Merge
