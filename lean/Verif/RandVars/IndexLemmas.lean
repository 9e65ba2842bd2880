import Mathlib.Data.List.GetD
import Verif.RandVars.ArithLemmas

/-!
# Lemmas on indexing and transposition
-/

namespace Probnum.RandVars

open Finset

/-! ### Splitting multi-indices -/

theorem unravel_append {s t : List ℕ} {i j : ℕ} (hi : i < s.prod) (hj : j < t.prod) :
    unravel (s ++ t) (i * t.prod + j) = unravel s i ++ unravel t j := by
  have h := unravel_ravel ((unravel_valid hi).append (unravel_valid hj))
  rwa [ravel_append (unravel_valid hj).length, ravel_unravel hi, ravel_unravel hj,
    show j + t.prod * i = i * t.prod + j by ring] at h

theorem unravel_length {s : List ℕ} {k : ℕ} : (unravel s k).length = s.length := by
  rw [unravel, List.length_reverse, unr_length, List.length_reverse]

theorem Arr.withShape_get {a : Arr} {s l : List ℕ} : (a.withShape s).get l = a.flat (ravel s l) := rfl

theorem Arr.get_flat {a : Arr} {l : List ℕ} (h : Valid a.shape l) : a.get l = a.flat (ravel a.shape l) := by
  rw [Arr.flat, unravel_ravel h]

/-! ### What an index expression selects is inside the array -/

/-- The selected positions exist along an axis of size `d`. -/
def Sel.Inside (d : ℕ) : Sel → Prop
  | .one i => i < d
  | .many n f => ∀ k < n, f k < d

theorem normAxis_lt {n : ℕ} {a : ℤ} {k : ℕ} (h : normAxis n a = some k) : k < n := by
  unfold normAxis at h
  split at h
  · rename_i h1; cases h; omega
  · split at h
    · rename_i h1; cases h; omega
    · cases h

theorem mapM_normAxis {n : ℕ} : ∀ {l : List ℤ} {l' : List ℕ}, l.mapM (normAxis n) = some l' →
    List.Forall₂ (fun a k => normAxis n a = some k) l l'
  | [], l', h => by cases h; exact .nil
  | a :: l, l', h => by
    rw [List.mapM_cons] at h
    rcases h1 : normAxis n a with _ | k
    · rw [h1] at h; cases h
    · rcases h2 : l.mapM (normAxis n) with _ | r
      · rw [h1, h2] at h; cases h
      · rw [h1, h2] at h; cases h
        exact .cons h1 (mapM_normAxis h2)

theorem mapM_normAxis_eq {n : ℕ} : ∀ {l : List ℤ} {l' : List ℕ},
    List.Forall₂ (fun a k => normAxis n a = some k) l l' → l.mapM (normAxis n) = some l'
  | _, _, .nil => rfl
  | _, _, .cons h t => by rw [List.mapM_cons, h, mapM_normAxis_eq t]; rfl

theorem clip_inside {n : ℕ} {lo hi b : ℤ} (h : lo ≤ hi) : lo ≤ clipBound n lo hi b ∧ clipBound n lo hi b ≤ hi := by
  unfold clipBound
  simp only
  generalize (if b < 0 then b + (n : ℤ) else b) = c
  split_ifs <;> omega

theorem clip_opt {n : ℕ} {lo hi e : ℤ} (h : lo ≤ hi) (he : lo ≤ e ∧ e ≤ hi) (b : Option ℤ) :
    lo ≤ (b.map (clipBound n lo hi)).getD e ∧ (b.map (clipBound n lo hi)).getD e ≤ hi := by
  cases b with
  | none => exact he
  | some b => exact clip_inside h

theorem steps_inside {a b st : ℤ} (hst : 0 < st) {k : ℕ} (hk : k < ((b - a + st - 1) / st).toNat) :
    a + k * st < b := by
  have h1 : (k : ℤ) + 1 ≤ (b - a + st - 1) / st := by omega
  have h2 := (Int.le_ediv_iff_mul_le hst).1 h1
  nlinarith

theorem slice_inside {d : ℕ} {start stop step : Option ℤ} {r : ℤ × ℕ × ℤ} (h : sliceIndices d start stop step = .ok r) :
    ∀ k < r.2.1, 0 ≤ r.1 + (k : ℤ) * r.2.2 ∧ r.1 + (k : ℤ) * r.2.2 < d := by
  unfold sliceIndices at h
  simp only at h
  split at h
  · cases h
  · rename_i h0
    split at h
    · rename_i h1
      cases h
      intro k hk
      have ha := clip_opt (n := d) (show (0 : ℤ) ≤ d by omega) ⟨le_refl 0, by omega⟩ start
      have hb := clip_opt (n := d) (show (0 : ℤ) ≤ d by omega) (e := d) ⟨by omega, le_refl _⟩ stop
      have := steps_inside h1 hk
      refine ⟨?_, by simp only; omega⟩
      have : 0 ≤ (k : ℤ) * step.getD 1 := by positivity
      simp only; omega
    · rename_i h1
      cases h
      intro k hk
      have ha := clip_opt (n := d) (show (-1 : ℤ) ≤ (d : ℤ) - 1 by omega) (e := (d : ℤ) - 1) ⟨by omega, le_refl _⟩ start
      have hb := clip_opt (n := d) (show (-1 : ℤ) ≤ (d : ℤ) - 1 by omega) (e := -1) ⟨le_refl _, by omega⟩ stop
      have hst : 0 < -step.getD 1 := by omega
      generalize (start.map (clipBound d (-1) ((d : ℤ) - 1))).getD ((d : ℤ) - 1) = A at *
      generalize (stop.map (clipBound d (-1) ((d : ℤ) - 1))).getD (-1) = B at *
      have key := steps_inside (a := -A) (b := -B) hst (k := k) (by
        rwa [show -B - -A + -step.getD 1 - 1 = A - B - step.getD 1 - 1 by ring])
      have h2 : (k : ℤ) * step.getD 1 ≤ 0 := mul_nonpos_of_nonneg_of_nonpos (by positivity) (by omega)
      have h3 : (k : ℤ) * -step.getD 1 = -((k : ℤ) * step.getD 1) := by ring
      simp only
      omega

theorem ofList_inside {d : ℕ} {l : List ℕ} (h : ∀ i ∈ l, i < d) : (Sel.ofList l).Inside d := by
  intro k hk
  simp only [List.getD_eq_getElem?_getD, List.getElem?_eq_getElem hk, Option.getD_some]
  exact h _ (List.getElem_mem hk)

theorem forall₂_normAxis {d : ℕ} : ∀ {l : List ℤ} {r : List ℕ},
    List.Forall₂ (fun a k => normAxis d a = some k) l r → ∀ k ∈ r, k < d
  | _, _, .nil, k, h => by simp at h
  | _, _, .cons h t, k, hk => by
    rcases List.mem_cons.1 hk with rfl | hk
    · exact normAxis_lt h
    · exact forall₂_normAxis t k hk

theorem axisSel_inside {d : ℕ} {e : KeyEl} {x : Sel} (h : axisSel d e = .ok x) : x.Inside d := by
  cases e with
  | int i =>
    simp only [axisSel] at h
    split at h
    · rename_i h1; cases h; exact normAxis_lt h1
    · cases h
  | slice a b c =>
    obtain ⟨r, h1, h2⟩ := map_ok h
    subst h2
    intro k hk
    have := slice_inside h1 k hk
    show (r.1 + (k : ℤ) * r.2.2).toNat < d
    omega
  | arr l =>
    obtain ⟨r, h1, h2⟩ := map_ok h
    subst h2
    unfold listSel at h1
    split at h1
    · rename_i h3; cases h1
      exact ofList_inside (forall₂_normAxis (mapM_normAxis h3))
    · cases h1
  | mask l =>
    simp only [axisSel] at h
    split at h
    · rename_i h1; cases h
      refine ofList_inside fun i hi => ?_
      have := (List.mem_filter.1 hi).1
      rw [List.mem_range, h1] at this
      exact this
    · cases h
  | ellipsis => cases h

theorem sels_inside : ∀ {key : List KeyEl} {s : List ℕ} {l : List Sel}, key.length = s.length → sels key s = .ok l →
    List.Forall₂ Sel.Inside s l
  | [], [], l, _, h => by cases h; exact .nil
  | [], _ :: _, _, hl, _ => by cases hl
  | _ :: _, [], _, hl, _ => by cases hl
  | e :: key, d :: s, l, hl, h => by
    obtain ⟨x, h1, h⟩ := bind_ok h
    obtain ⟨r, h2, h3⟩ := map_ok h
    subst h3
    exact .cons (axisSel_inside h1) (sels_inside (by simpa using hl) h2)

theorem gatherOuter_valid : ∀ {s : List ℕ} {l : List Sel}, List.Forall₂ Sel.Inside s l → ∀ {idx : List ℕ},
    Valid (gatherOuter l).shape idx → Valid s ((gatherOuter l).src idx)
  | _, _, .nil, _, _ => .nil
  | _, .one i :: r, .cons h t, idx, hv => .cons h (gatherOuter_valid t hv)
  | _, .many n f :: r, .cons h t, idx, hv => by
    cases hv with
    | cons h1 h2 => exact .cons (h _ h1) (gatherOuter_valid t h2)

theorem gatherOuter_length : ∀ l : List Sel, (gatherOuter l).shape.length ≤ l.length
  | [] => le_refl _
  | .one _ :: r => by have := gatherOuter_length r; simp only [gatherOuter, List.length_cons]; omega
  | .many _ _ :: r => by have := gatherOuter_length r; simp only [gatherOuter, List.length_cons]; omega

theorem bdim_bound {n m k : ℕ} (h : bdim n m = some k) : (n = 1 ∨ n = k) ∧ (m = 1 ∨ m = k) := by
  unfold bdim at h
  split_ifs at h <;> cases h <;> omega

theorem gather_valid {key : List KeyEl} {s : List ℕ} {g : Gather} (hl : key.length = s.length) (h : gather key s = .ok g)
    {idx : List ℕ} (hv : Valid g.shape idx) : Valid s (g.src idx) := by
  obtain ⟨l, h1, h2⟩ := bind_ok h
  have hin := sels_inside hl h1
  unfold combine at h2
  split at h2
  · split at h2
    · rename_i x y _
      cases hin with
      | cons hx t =>
        cases t with
        | cons hy t =>
          cases t
          unfold gatherZip at h2
          split at h2
          · split at h2
            · rename_i n f m g' _ k hb
              cases h2
              obtain ⟨hn, hm⟩ := bdim_bound hb
              cases hv with
              | @cons d i _ r h1 h2 =>
                refine .cons (hx _ ?_) (.cons (hy _ ?_) .nil)
                · show (if n = 1 then 0 else i) < n
                  split <;> omega
                · show (if m = 1 then 0 else i) < m
                  split <;> omega
            · cases h2
          · cases h2
    · cases h2
      exact gatherOuter_valid hin hv
  · cases h2
    exact gatherOuter_valid hin hv

theorem gather_length {key : List KeyEl} {s : List ℕ} {g : Gather} (hl : key.length = s.length) (h : gather key s = .ok g) :
    g.shape.length ≤ s.length := by
  obtain ⟨l, h1, h2⟩ := bind_ok h
  have hin := (sels_inside hl h1).length_eq
  unfold combine at h2
  split at h2
  · split at h2
    · unfold gatherZip at h2
      split at h2
      · split at h2
        · cases h2; rw [hin]; simp
        · cases h2
      · cases h2
    · cases h2
      rw [hin]; exact gatherOuter_length _
  · cases h2
    rw [hin]; exact gatherOuter_length _

/-! ### Indexing with an entry for every axis -/

theorem Arr.index_full {a : Arr} {key : List KeyEl} (hl : key.length = a.ndim) :
    a.index key = (gather key a.shape).map fun g => a.gatherFirst g a.ndim := by
  rw [Arr.index, if_pos (by omega), hl, Arr.ndim, List.take_length]

theorem Arr.gatherFirst_shape {a : Arr} {g : Gather} : (a.gatherFirst g a.ndim).shape = g.shape := by
  show g.shape ++ a.shape.drop a.shape.length = _
  rw [List.drop_length, List.append_nil]

theorem Arr.gatherFirst_flat {a : Arr} {g : Gather} {k : ℕ} (hv : ∀ idx, Valid g.shape idx → Valid a.shape (g.src idx))
    (hk : k < g.shape.prod) :
    ravel a.shape (g.src (unravel g.shape k)) < a.size ∧
    (a.gatherFirst g a.ndim).flat k = a.flat (ravel a.shape (g.src (unravel g.shape k))) := by
  have h1 := hv _ (unravel_valid hk)
  refine ⟨ravel_lt h1, ?_⟩
  rw [Arr.flat, Arr.gatherFirst_shape]
  show a.get (g.src ((unravel g.shape k).take g.shape.length) ++ (unravel g.shape k).drop g.shape.length) = _
  have : (unravel g.shape k).length = g.shape.length := unravel_length
  rw [← this, List.take_length, List.drop_length, List.append_nil, Arr.get_flat h1]

theorem index_select {key : List KeyEl} {s : List ℕ} {g : Gather} (hl : key.length = s.length) (hg : gather key s = .ok g) :
    SelectOp (fun x => x.index key) s g.shape (fun k => ravel s (g.src (unravel g.shape k))) 1 (fun _ => 0) := by
  intro x hx
  have hl' : key.length = x.ndim := by rw [Arr.ndim, hx]; exact hl
  have hg' : gather key x.shape = .ok g := by rw [hx]; exact hg
  refine ⟨x.gatherFirst g x.ndim, ?_, Arr.gatherFirst_shape, fun i hi => ?_⟩
  · show x.index key = _
    rw [Arr.index_full hl', hg']; rfl
  · have := Arr.gatherFirst_flat (a := x) (g := g) (fun idx hv => gather_valid hl' hg' hv) hi
    rw [Arr.size, hx] at this
    exact ⟨this.1, by rw [this.2, one_mul, add_zero]⟩

/-- Indexing the covariance twice. -/
theorem index_cov {c : Arr} {s : List ℕ} {key : List KeyEl} {g : Gather} (hc : c.shape = s ++ s) (hl : key.length = s.length)
    (hg : gather key s = .ok g) :
    ∃ c1 c2, c.index key = .ok c1 ∧ c1.indexLast key = .ok c2 ∧ c2.shape = g.shape ++ g.shape ∧
      ∀ i < g.shape.prod, ∀ j < g.shape.prod, c2.flat (i * g.shape.prod + j) =
        c.flat (ravel s (g.src (unravel g.shape i)) * s.prod + ravel s (g.src (unravel g.shape j))) := by
  refine ⟨c.gatherFirst g key.length, (c.gatherFirst g key.length).gatherLast g key.length, ?_, ?_, ?_, ?_⟩
  · rw [Arr.index, if_pos (by rw [Arr.ndim, hc, List.length_append]; omega), hc, hl, List.take_left, hg]; rfl
  · have hs1 : (c.gatherFirst g key.length).shape = g.shape ++ s := by
      show g.shape ++ c.shape.drop key.length = _
      rw [hc, hl, List.drop_left]
    have hnd : (c.gatherFirst g key.length).ndim = g.shape.length + s.length := by
      rw [Arr.ndim, hs1, List.length_append]
    rw [Arr.indexLast, if_pos (by omega), hnd, hs1, hl, Nat.add_sub_cancel, List.drop_left, hg]; rfl
  · have hs1 : (c.gatherFirst g key.length).shape = g.shape ++ s := by
      show g.shape ++ c.shape.drop key.length = _
      rw [hc, hl, List.drop_left]
    show (c.gatherFirst g key.length).shape.take ((c.gatherFirst g key.length).shape.length - key.length) ++ g.shape = _
    rw [hs1, List.length_append, hl, Nat.add_sub_cancel, List.take_left]
  · intro i hi j hj
    have hs1 : (c.gatherFirst g key.length).shape = g.shape ++ s := by
      show g.shape ++ c.shape.drop key.length = _
      rw [hc, hl, List.drop_left]
    have hs2 : ((c.gatherFirst g key.length).gatherLast g key.length).shape = g.shape ++ g.shape := by
      show (c.gatherFirst g key.length).shape.take ((c.gatherFirst g key.length).shape.length - key.length) ++ g.shape = _
      rw [hs1, List.length_append, hl, Nat.add_sub_cancel, List.take_left]
    have hn : (c.gatherFirst g key.length).ndim - key.length = g.shape.length := by
      rw [Arr.ndim, hs1, List.length_append, hl, Nat.add_sub_cancel]
    have hi' := gather_valid hl hg (unravel_valid hi)
    have hj' := gather_valid hl hg (unravel_valid hj)
    rw [Arr.flat, hs2, unravel_append hi hj]
    have e1 : (unravel g.shape i).length = g.shape.length := unravel_length
    show (c.gatherFirst g key.length).get
      ((unravel g.shape i ++ unravel g.shape j).take ((c.gatherFirst g key.length).ndim - key.length) ++
        g.src ((unravel g.shape i ++ unravel g.shape j).drop ((c.gatherFirst g key.length).ndim - key.length))) = _
    rw [hn, List.take_left' e1, List.drop_left' e1]
    show c.get (g.src ((unravel g.shape i ++ g.src (unravel g.shape j)).take g.shape.length) ++
      (unravel g.shape i ++ g.src (unravel g.shape j)).drop g.shape.length) = _
    rw [List.take_left' e1, List.drop_left' e1, Arr.get_flat (by rw [hc]; exact hi'.append hj'), hc,
      ravel_append hj'.length, show ∀ a b : ℕ, b + s.prod * a = a * s.prod + b from fun a b => by ring]

/-- Entries of the covariance after `squareCov`. -/
theorem squareCov_eq {m c : Arr} (hc : c.shape = m.shape ++ m.shape) :
    ∃ C, squareCov m c = .ok C ∧ C.shape = expectedCov m.shape ∧ ∀ k < m.size * m.size, C.flat k = c.flat k := by
  unfold squareCov
  split
  · rename_i h
    refine ⟨c.withShape [m.size, m.size], ?_, ?_, fun k hk => Arr.withShape_flat (by simpa using hk)⟩
    · rw [Arr.reshapeTo, if_pos (by rw [Arr.size.eq_def c, hc, List.prod_append]; simp [Arr.size])]
    · have : m.shape ≠ [] := fun h' => by rw [Arr.ndim, h'] at h; simp at h
      rw [expectedCov, if_neg this]; rfl
  · rename_i h
    have : m.shape = [] := List.length_eq_zero_iff.1 (by rw [Arr.ndim] at h; omega)
    exact ⟨c, rfl, by rw [hc, this]; rfl, fun _ _ => rfl⟩

theorem cov_reshape_eq {N : Normal} (hN : N.WF) :
    ∃ c, N.cov.reshapeTo (N.mean.shape ++ N.mean.shape) = .ok c ∧ c.shape = N.mean.shape ++ N.mean.shape ∧
      ∀ k < N.mean.size * N.mean.size, c.flat k = N.cov.flat k := by
  have h : (N.mean.shape ++ N.mean.shape).prod = N.mean.size * N.mean.size := by rw [List.prod_append]; rfl
  refine ⟨N.cov.withShape (N.mean.shape ++ N.mean.shape), ?_, rfl, fun k hk => Arr.withShape_flat (by rw [h]; exact hk)⟩
  rw [Arr.reshapeTo, if_pos (by rw [h, hN.cov_size])]

/-! ### Transposition -/

theorem scatter_length {n : ℕ} {l idx : List ℕ} : (scatter n l idx).length = n := by simp [scatter]

theorem scatter_valid {s l idx : List ℕ} (hlen : l.length = s.length) (hnd : l.Nodup) (hlt : ∀ d ∈ l, d < s.length)
    (hv : Valid (l.map fun d => s.getD d 0) idx) : Valid s (scatter s.length l idx) := by
  have hmem : ∀ d < s.length, d ∈ l := by
    intro d hd
    have hsub : l.toFinset ⊆ range s.length := fun x hx => mem_range.2 (hlt x (List.mem_toFinset.1 hx))
    have hcard : l.toFinset.card = (range s.length).card := by
      rw [List.toFinset_card_of_nodup hnd, card_range, hlen]
    have := Finset.eq_of_subset_of_card_le hsub (le_of_eq hcard.symm)
    exact List.mem_toFinset.1 (this ▸ mem_range.2 hd)
  rw [Valid, List.forall₂_iff_get]
  refine ⟨scatter_length.symm, fun d h1 h2 => ?_⟩
  have hv' := List.forall₂_iff_get.1 hv
  have hpos : l.idxOf d < l.length := List.idxOf_lt_length_iff.2 (hmem d h1)
  have hidx : l.idxOf d < idx.length := by rw [← hv'.1, List.length_map]; exact hpos
  have := hv'.2 (l.idxOf d) (by rw [List.length_map]; exact hpos) hidx
  simp only [List.get_eq_getElem, List.getElem_map, List.getElem_idxOf hpos] at this
  simp only [List.get_eq_getElem, scatter, List.getElem_map, List.getElem_range]
  rw [List.getD_eq_getElem?_getD, List.getElem?_eq_getElem hidx, Option.getD_some]
  rw [List.getD_eq_getElem?_getD, List.getElem?_eq_getElem h1, Option.getD_some] at this
  exact this

theorem transpose_select {s : List ℕ} {ax : List ℤ} {l : List ℕ} (hl : normAxes s.length ax = some l)
    (hp : l.length = s.length ∧ l.Nodup) :
    SelectOp (fun x => x.transpose ax) s (l.map fun d => s.getD d 0)
      (fun k => ravel s (scatter s.length l (unravel (l.map fun d => s.getD d 0) k))) 1 (fun _ => 0) := by
  intro x hx
  have hlt : ∀ d ∈ l, d < s.length := forall₂_normAxis (mapM_normAxis hl)
  refine ⟨⟨l.map fun d => s.getD d 0, fun idx => x.get (scatter s.length l idx)⟩, ?_, rfl, fun i hi => ?_⟩
  · show x.transpose ax = _
    rw [Arr.transpose, Arr.ndim, hx, hl]
    simp only
    rw [Arr.permute, Arr.ndim, hx, if_pos hp]
  · have hv := scatter_valid hp.1 hp.2 hlt (unravel_valid hi)
    refine ⟨ravel_lt hv, ?_⟩
    show x.get (scatter s.length l (unravel _ i)) = _
    rw [Arr.get_flat (by rw [hx]; exact hv), hx, one_mul, add_zero]

theorem idxOf_shift (n d : ℕ) : ∀ l : List ℕ, (l.map (n + ·)).idxOf (n + d) = l.idxOf d
  | [] => rfl
  | a :: l => by
    rw [List.map_cons, List.idxOf_cons, List.idxOf_cons, idxOf_shift n d l]
    by_cases h : a = d
    · simp [h]
    · rw [show (n + a == n + d) = false by simpa using h, show (a == d) = false by simpa using h]

theorem scatter_append {n : ℕ} {l i j : List ℕ} (hl : l.length = n) (hlt : ∀ d ∈ l, d < n) (hm : ∀ d < n, d ∈ l)
    (hi : i.length = n) :
    scatter (n + n) (l ++ l.map (n + ·)) (i ++ j) = scatter n l i ++ scatter n l j := by
  unfold scatter
  rw [List.range_add, List.map_append, List.map_map]
  congr 1
  · refine List.map_congr_left fun d hd => ?_
    have hd' := hm d (List.mem_range.1 hd)
    rw [List.idxOf_append_of_mem hd', List.getD_append _ _ _ _ (by rw [hi, ← hl]; exact List.idxOf_lt_length_iff.2 hd')]
  · refine List.map_congr_left fun d hd => ?_
    have hnot : n + d ∉ l := fun h => by have := hlt _ h; omega
    show (i ++ j).getD ((l ++ l.map (n + ·)).idxOf (n + d)) 0 = _
    rw [List.idxOf_append_of_notMem hnot, List.getD_append_right _ _ _ _ (by omega), hl, hi, Nat.add_sub_cancel_left,
      idxOf_shift]

theorem scatter_swap {n : ℕ} {l i j : List ℕ} (hl : l.length = n) (hm : ∀ d < n, d ∈ l) (hi : i.length = n) :
    scatter (n + n) (l.map (n + ·) ++ l) (i ++ j) = scatter n l j ++ scatter n l i := by
  unfold scatter
  rw [List.range_add, List.map_append, List.map_map]
  congr 1
  · refine List.map_congr_left fun d hd => ?_
    have hnot : d ∉ l.map (n + ·) := fun h => by
      obtain ⟨a, _, h⟩ := List.mem_map.1 h
      have := List.mem_range.1 hd
      omega
    rw [List.idxOf_append_of_notMem hnot, List.length_map, List.getD_append_right _ _ _ _ (by omega), hl, hi,
      Nat.add_sub_cancel_left]
  · refine List.map_congr_left fun d hd => ?_
    have hd' := hm d (List.mem_range.1 hd)
    show (i ++ j).getD ((l.map (n + ·) ++ l).idxOf (n + d)) 0 = _
    rw [List.idxOf_append_of_mem (List.mem_map.2 ⟨d, hd', rfl⟩), idxOf_shift,
      List.getD_append _ _ _ _ (by rw [hi, ← hl]; exact List.idxOf_lt_length_iff.2 hd')]

theorem mem_of_axes {n : ℕ} {l : List ℕ} (hlen : l.length = n) (hnd : l.Nodup) (hlt : ∀ d ∈ l, d < n) : ∀ d < n, d ∈ l := by
  intro d hd
  have hsub : l.toFinset ⊆ range n := fun x hx => mem_range.2 (hlt x (List.mem_toFinset.1 hx))
  have hcard : l.toFinset.card = (range n).card := by
    rw [List.toFinset_card_of_nodup hnd, card_range, hlen]
  have := Finset.eq_of_subset_of_card_le hsub (le_of_eq hcard.symm)
  exact List.mem_toFinset.1 (this ▸ mem_range.2 hd)

/-- Normalised axes of the covariance: for nonnegative axes the two halves are permuted alike. -/
theorem normAxes_nonneg {n : ℕ} {ax : List ℤ} {l : List ℕ} (h : normAxes n ax = some l) (h0 : ∀ a ∈ ax, 0 ≤ a) :
    normAxes (n + n) (ax ++ ax.map ((n : ℤ) + ·)) = some (l ++ l.map (n + ·)) := by
  refine mapM_normAxis_eq ?_
  have h1 := mapM_normAxis h
  refine List.rel_append ?_ ?_
  · clear h
    induction h1 with
    | nil => exact .nil
    | @cons a k ax l h t ih =>
      have ha := h0 a (by simp)
      refine .cons ?_ (ih fun b hb => h0 b (by simp [hb]))
      unfold normAxis at h ⊢
      beta_reduce
      split at h
      · rw [if_pos (by omega)]; exact h
      · split at h
        · omega
        · cases h
  · clear h
    induction h1 with
    | nil => exact .nil
    | @cons a k ax l h t ih =>
      have ha := h0 a (by simp)
      refine .cons ?_ (ih fun b hb => h0 b (by simp [hb]))
      unfold normAxis at h ⊢
      beta_reduce
      split at h
      · rw [if_pos (by omega)]; cases h; congr 1; omega
      · split at h
        · omega
        · cases h

/-- Normalised axes of the covariance: for negative axes the two halves are permuted alike and swapped. -/
theorem normAxes_neg {n : ℕ} {ax : List ℤ} {l : List ℕ} (h : normAxes n ax = some l) (h0 : ∀ a ∈ ax, a < 0) :
    normAxes (n + n) (ax ++ ax.map ((n : ℤ) + ·)) = some (l.map (n + ·) ++ l) := by
  refine mapM_normAxis_eq ?_
  have h1 := mapM_normAxis h
  refine List.rel_append ?_ ?_
  · clear h
    induction h1 with
    | nil => exact .nil
    | @cons a k ax l h t ih =>
      have ha := h0 a (by simp)
      refine .cons ?_ (ih fun b hb => h0 b (by simp [hb]))
      unfold normAxis at h ⊢
      beta_reduce
      split at h
      · omega
      · split at h
        · rw [if_neg (by omega), if_pos (by omega)]; cases h; congr 1; omega
        · cases h
  · clear h
    induction h1 with
    | nil => exact .nil
    | @cons a k ax l h t ih =>
      have ha := h0 a (by simp)
      refine .cons ?_ (ih fun b hb => h0 b (by simp [hb]))
      unfold normAxis at h ⊢
      beta_reduce
      split at h
      · omega
      · split at h
        · rw [if_pos (by omega)]; cases h; congr 1; omega
        · cases h

end Probnum.RandVars
