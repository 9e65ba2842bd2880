import Verif.RandVars.RvList
import Verif.RandVars.IndexLemmas
import Verif.Posterior.EvalLemmas

/-!
# Lists of random variables: what the properties return, also after changes
-/

namespace Probnum.RvList

open RandVars Posterior

variable {E ρ : Type} {O : Objects E ρ}

/-- `a` has the arrays `as`, all of shape `s`, along its first axis. -/
def IsStack (as : List Arr) (s : List ℕ) (a : Arr) : Prop :=
  (∀ b ∈ as, b.shape = s) ∧ a.shape = as.length :: s ∧ ∀ i (h : i < as.length) idx, a.get (i :: idx) = as[i].get idx

/-- The values of an attribute of the elements. -/
def Attrs (O : Objects E ρ) (f : Field) (l : List E) (as : List Arr) : Prop := List.Forall₂ (fun e a => O.attr f e = .ok a) l as

/-! ### Construction -/

/-- **C93 (a), partial.**  A list of random variables is accepted and has these elements; anything but a list is rejected, and so is a list
that begins with something else.  (Missing: objects behind the first element are not looked at, see `only_first_checked`.) -/
theorem create_partial :
    (∀ l, (∀ e ∈ l, O.isRv e = true) → ∃ L, create O (.list l) = .ok L ∧ L.items = l) ∧
    create O .other = .error .typeError ∧
    (∀ e l, O.isRv e = false → create O (.list (e :: l)) = .error .typeError) ∧
    ∀ l L, create O (.list l) = .ok L → L.items = l := by
  refine ⟨fun l h => ?_, rfl, fun e l h => ?_, fun l L h => ?_⟩
  · cases l with
    | nil => exact ⟨_, rfl, rfl⟩
    | cons e l =>
      refine ⟨{ items := e :: l }, ?_, rfl⟩
      show (if O.isRv e then _ else _) = _
      rw [if_pos (h e (by simp))]
  · show (if O.isRv e then _ else _) = _
    rw [h]
    rfl
  · cases l with
    | nil =>
      cases h
      rfl
    | cons e l =>
      change (if O.isRv e then _ else _) = _ at h
      by_cases he : O.isRv e
      · rw [if_pos he] at h
        rw [← Except.ok.inj h]
      · rw [if_neg he] at h
        cases h

theorem create_fresh {l : List E} {L : RvList E} (h : create O (.list l) = .ok L) : L = { items := l } := by
  cases l with
  | nil => exact (Except.ok.inj h).symm
  | cons e l =>
    change (if O.isRv e then _ else _) = _ at h
    by_cases he : O.isRv e
    · rw [if_pos he] at h
      exact (Except.ok.inj h).symm
    · rw [if_neg he] at h
      cases h

/-- **C93 (b), disagreement.**  A list with objects that are not random variables is accepted if it begins with one. -/
theorem only_first_checked {e x : E} (he : O.isRv e = true) (_hx : O.isRv x = false) :
    ∃ L, create O (.list [e, x]) = .ok L ∧ L.items = [e, x] := by
  refine ⟨{ items := [e, x] }, ?_, rfl⟩
  show (if O.isRv e then _ else _) = _
  rw [if_pos he]

/-! ### Properties -/

theorem stack_spec {as : List Arr} {a : Arr} : stack as = .ok a → ∃ s, IsStack as s a := by
  intro h
  cases as with
  | nil => cases h
  | cons b l =>
    simp only [stack] at h
    by_cases hl : (l.all fun c => c.shape == b.shape) = true
    · rw [if_pos hl] at h
      obtain rfl := Except.ok.inj h
      refine ⟨b.shape, ?_, rfl, fun i hi idx => ?_⟩
      · intro c hc
        rcases List.mem_cons.1 hc with rfl | hc
        · rfl
        · simpa using List.all_eq_true.1 hl c hc
      · show ((b :: l).getD i b).get idx = _
        rw [List.getD_eq_getElem _ _ hi]
    · rw [if_neg hl] at h
      cases h

theorem stack_ok {as : List Arr} {s : List ℕ} (hne : as ≠ []) (h : ∀ b ∈ as, b.shape = s) : ∃ a, stack as = .ok a := by
  cases as with
  | nil => exact absurd rfl hne
  | cons b l =>
    have hl : (l.all fun c => c.shape == b.shape) = true := by
      rw [List.all_eq_true]
      intro c hc
      rw [h c (by simp [hc]), h b (by simp)]
      simp
    refine ⟨⟨(l.length + 1) :: b.shape, fun idx => ((b :: l).getD (idx.headD 0) b).get idx.tail⟩, ?_⟩
    simp only [stack]
    rw [if_pos hl]

/-- **C93 (c).**  A property of a list: the values of the elements, stacked along a new first axis.  It is available iff all elements have it,
with the same shape. -/
theorem field_stacks (f : Field) {l : List E} (hl : l ≠ []) :
    (∀ a, compute O f l = .ok a → ∃ as s, Attrs O f l as ∧ IsStack as s a) ∧
    (∀ as s, Attrs O f l as → (∀ b ∈ as, b.shape = s) → ∃ a, compute O f l = .ok a ∧ IsStack as s a) := by
  cases l with
  | nil => exact absurd rfl hl
  | cons e l =>
    constructor
    · intro a h
      simp only [compute] at h
      cases hm : (e :: l).mapM (O.attr f) with
      | error x =>
        rw [hm] at h
        cases h
      | ok as =>
        rw [hm] at h
        obtain ⟨s, hs⟩ := stack_spec h
        exact ⟨as, s, (mapM_ok_iff _ _ _).1 hm, hs⟩
    · intro as s ha hs
      have hm := (mapM_ok_iff (O.attr f) (e :: l) as).2 ha
      have hne : as ≠ [] := by
        rintro rfl
        cases ha
      obtain ⟨a, h⟩ := stack_ok hne hs
      obtain ⟨s', h'⟩ := stack_spec h
      have e' : s' = s := by
        obtain ⟨b, hb⟩ := List.exists_mem_of_ne_nil as hne
        rw [← h'.1 b hb, hs b hb]
      subst e'
      exact ⟨a, by simp only [compute]; rw [hm]; exact h, h'⟩

/-- Kept values are those of the present elements. -/
def Coherent (O : Objects E ρ) (L : RvList E) : Prop := ∀ f a, L.cache f = some a → compute O f L.items = .ok a

theorem read_coherent {L : RvList E} (h : Coherent O L) (f : Field) :
    (L.read O f).1 = compute O f L.items ∧ (L.read O f).2.items = L.items ∧ Coherent O (L.read O f).2 := by
  unfold RvList.read
  cases hc : L.cache f with
  | some a => exact ⟨(h f a hc).symm, rfl, h⟩
  | none =>
    cases hk : compute O f L.items with
    | error e => exact ⟨rfl, rfl, h⟩
    | ok a =>
      refine ⟨rfl, rfl, fun g b hb => ?_⟩
      by_cases hg : g = f
      · subst hg
        simp only [if_true, Option.some.injEq] at hb
        rw [← hb]
        exact hk
      · simp only [if_neg hg] at hb
        exact h g b hb

/-- **C93 (d), partial.**  As long as a list is not changed, its properties are right, whatever has been read before, in any order and
also after exceptions.  (Missing: changes, see `reads_frozen`.) -/
theorem reads_agree_partial {l : List E} {L : RvList E} (h : create O (.list l) = .ok L) (ops : List (Op E))
    (hops : ∀ op ∈ ops, op.mutates = false) (f : Field) :
    ((run O L ops).read O f).1 = compute O f l ∧ (run O L ops).items = l := by
  have key : ∀ (L : RvList E), Coherent O L → (∀ op ∈ ops, op.mutates = false) →
      Coherent O (run O L ops) ∧ (run O L ops).items = L.items := by
    clear hops
    induction ops with
    | nil => exact fun L hc _ => ⟨hc, rfl⟩
    | cons op ops ih =>
      intro L hc hm
      have hop := hm op (by simp)
      cases op with
      | read g =>
        obtain ⟨-, h2, h3⟩ := read_coherent hc g
        obtain ⟨h4, h5⟩ := ih (L.read O g).2 h3 fun op ho => hm op (by simp [ho])
        exact ⟨h4, h5.trans h2⟩
      | _ => cases hop
  obtain rfl := create_fresh h
  obtain ⟨h1, h2⟩ := key { items := l } (fun _ _ hc => by cases hc) hops
  exact ⟨by rw [(read_coherent h1 f).1, h2], h2⟩

/-- **C93 (e), disagreement.**  Once a property has been read, it never changes, whatever is done to the list afterwards. -/
theorem reads_frozen {L : RvList E} {f : Field} {a : Arr} (h : (L.read O f).1 = .ok a) (ops : List (Op E)) :
    ((run O (L.read O f).2 ops).read O f).1 = .ok a := by
  have hc : (L.read O f).2.cache f = some a := by
    unfold RvList.read at h ⊢
    cases hc : L.cache f with
    | some b =>
      rw [hc] at h
      rw [← Except.ok.inj h]
      exact hc
    | none =>
      rw [hc] at h
      cases hk : compute O f L.items with
      | error e =>
        rw [hk] at h
        cases h
      | ok b =>
        rw [hk] at h
        simpa using Except.ok.inj h
  have key : ∀ (M : RvList E), M.cache f = some a → (run O M ops).cache f = some a := by
    induction ops with
    | nil => exact fun M h => h
    | cons op ops ih =>
      intro M hM
      refine ih _ ?_
      cases op with
      | read g =>
        show (M.read O g).2.cache f = some a
        unfold RvList.read
        cases hg : M.cache g with
        | some b => exact hM
        | none =>
          cases compute O g M.items with
          | error e => exact hM
          | ok b =>
            show (if f = g then _ else _) = _
            by_cases hfg : f = g
            · subst hfg
              rw [hM] at hg
              cases hg
            · rw [if_neg hfg]
              exact hM
      | setItem i e =>
        simp only [step]
        by_cases hi : i < M.items.length
        · rw [if_pos hi]
          exact hM
        · rw [if_neg hi]
          exact hM
      | delItem i =>
        simp only [step]
        by_cases hi : i < M.items.length
        · rw [if_pos hi]
          exact hM
        · rw [if_neg hi]
          exact hM
      | _ => exact hM
  have hr := key _ hc
  generalize run O (L.read O f).2 ops = M at hr
  unfold RvList.read
  rw [hr]

/-- The size along the first axis is the number of elements. -/
theorem compute_length {f : Field} {l : List E} {a : Arr} (h : compute O f l = .ok a) : a.shape.head? = some l.length := by
  cases l with
  | nil =>
    obtain rfl := Except.ok.inj h
    rfl
  | cons e l =>
    obtain ⟨as, s, h1, h2⟩ := (field_stacks f (by simp)).1 a h
    rw [h2.2.1, ← h1.length_eq]
    rfl

/-- **C93 (f), disagreement.**  After `l.mean` has been read, `l.append(rv)` makes the list longer, but not `l.mean`. -/
theorem stale_append {l : List E} {L : RvList E} (hL : create O (.list l) = .ok L) {f : Field} {a : Arr}
    (h : (L.read O f).1 = .ok a) (e : E) :
    (run O L [.read f, .append e]).items = l ++ [e] ∧
    ((run O L [.read f, .append e]).read O f).1 = .ok a ∧ a.shape.head? = some l.length ∧
    ((run O L [.read f, .append e]).read O f).1 ≠ compute O f (l ++ [e]) := by
  obtain rfl := create_fresh hL
  have hc := read_coherent (O := O) (L := { items := l }) (fun _ _ hc => by cases hc) f
  have h1 : ((run O { items := l } [.read f, .append e]).read O f).1 = .ok a := reads_frozen h [.append e]
  have h2 : a.shape.head? = some l.length := compute_length (O := O) (f := f) (by rw [← h, hc.1])
  refine ⟨?_, h1, h2, fun hne => ?_⟩
  · show (RvList.read O f { items := l }).2.items ++ [e] = _
    rw [hc.2.1]
  · rw [h1] at hne
    have := compute_length hne.symm
    rw [h2] at this
    simp at this

/-! ### Posteriors -/

/-- **C93 (g).**  The states of a posterior: for all states appended so far, whatever has been read before (every access makes a new
list). -/
theorem posterior_states {T : Type} [LinearOrder T] (data : List (T × E)) (hT : (data.map Prod.fst).Pairwise (· < ·))
    (hrv : ∀ d ∈ data, O.isRv d.2 = true) :
    ∃ L, states O (data.foldl (fun p d => (p.append d.1 d.2).2) (Post.init : Post T E)) = .ok L ∧
      L.items = data.map Prod.snd ∧ ∀ f, (L.read O f).1 = compute O f (data.map Prod.snd) := by
  have key : ∀ (data : List (T × E)), (data.map Prod.fst).Pairwise (· < ·) →
      data.foldl (fun p d => (p.append d.1 d.2).2) (Post.init : Post T E) = ⟨data.map Prod.fst, data.map Prod.snd, false⟩ := by
    intro data
    induction data using List.reverseRecOn with
    | nil => exact fun _ => rfl
    | append_singleton l d ih =>
      intro h
      rw [List.map_append, List.pairwise_append] at h
      rw [List.foldl_append, ih h.1]
      show (Post.append _ d.1 d.2).2 = _
      unfold Post.append
      rw [if_neg (by simp)]
      cases hg : (l.map Prod.fst).getLast? with
      | none => simp
      | some t =>
        have ht : t < d.1 := h.2.2 t (List.mem_of_getLast? hg) d.1 (by simp)
        simp only
        rw [if_neg (not_le.2 ht)]
        simp
  obtain ⟨L, h1, h2⟩ := (create_partial (O := O)).1 (data.map Prod.snd) (by
    intro e he
    obtain ⟨d, hd, rfl⟩ := List.mem_map.1 he
    exact hrv d hd)
  refine ⟨L, ?_, h2, fun f => ?_⟩
  · rw [key data hT]
    exact h1
  · exact (reads_agree_partial h1 [] (by simp) f).1

/-! ### Indices and slices -/

/-- **C93 (h).**  `l[i].mean` is `l.mean[i]`, also for negative indices, and similarly for the other properties. -/
theorem item_field {f : Field} {l : List E} {L : RvList E} (hL : create O (.list l) = .ok L) {a : Arr}
    (h : (L.read O f).1 = .ok a) {i : ℤ} {e : E} (hi : L.item i = .ok e) :
    ∃ b c, O.attr f e = .ok b ∧ a.index [.int i] = .ok c ∧ c.shape = b.shape ∧ ∀ idx, c.get idx = b.get idx := by
  obtain rfl := create_fresh hL
  have hc : compute O f l = .ok a := by
    rw [← h, (reads_agree_partial hL [] (by simp) f).1.symm]
    rfl
  have hlt : ∃ k : ℕ, ∃ hk : k < l.length, normAxis l.length i = some k ∧ l[k] = e := by
    change pyIndex l i = .ok e at hi
    unfold pyIndex at hi
    unfold normAxis
    by_cases h0 : 0 ≤ i
    · rw [if_pos h0] at hi
      cases hg : l[i.toNat]? with
      | none =>
        rw [hg] at hi
        cases hi
      | some x =>
        rw [hg] at hi
        obtain ⟨hk, hx⟩ := List.getElem?_eq_some_iff.1 hg
        exact ⟨i.toNat, hk, by rw [if_pos ⟨h0, by omega⟩], hx.trans (Except.ok.inj hi)⟩
    · rw [if_neg h0] at hi
      by_cases h1 : (l.length : ℤ) + i < 0
      · rw [if_pos h1] at hi
        cases hi
      · rw [if_neg h1] at hi
        cases hg : l[((l.length : ℤ) + i).toNat]? with
        | none =>
          rw [hg] at hi
          cases hi
        | some x =>
          rw [hg] at hi
          obtain ⟨hk, hx⟩ := List.getElem?_eq_some_iff.1 hg
          refine ⟨((l.length : ℤ) + i).toNat, hk, ?_, hx.trans (Except.ok.inj hi)⟩
          rw [if_neg (by omega), if_pos ⟨by omega, by omega⟩, add_comm]
  obtain ⟨k, hk, hn, he⟩ := hlt
  have hne : l ≠ [] := by
    rintro rfl
    simp at hk
  obtain ⟨as, s, h1, h2⟩ := (field_stacks f hne).1 a hc
  have hka : k < as.length := h1.length_eq ▸ hk
  have hb : O.attr f e = .ok as[k] := by
    rw [← he]
    exact h1.get hk hka
  refine ⟨as[k], ⟨s, fun idx => a.get (k :: idx)⟩, hb, ?_, ?_, ?_⟩
  · unfold Arr.index
    have hlen : [KeyEl.int i].length ≤ a.ndim := by simp [Arr.ndim, h2.2.1]
    rw [if_pos hlen]
    simp only [gather, h2.2.1, List.length_singleton, List.take_succ_cons, List.take_zero, sels, axisSel, ← h1.length_eq, hn]
    simp [Except.bind, Except.map, combine, gatherOuter, Arr.gatherFirst, h2.2.1]
  · exact (h2.1 _ (List.getElem_mem hka)).symm
  · intro idx
    exact h2.2.2 k hka idx

theorem pick_eq {l : List E} {start stop step : Option ℤ} {r : ℤ × ℕ × ℤ} (h : sliceIndices l.length start stop step = .ok r) :
    (pick l r).length = r.2.1 ∧ ∀ k (hk : k < r.2.1), (pick l r)[k]? = l[(r.1 + (k : ℤ) * r.2.2).toNat]? := by
  have hin := slice_inside h
  have e : ∀ k ∈ List.range r.2.1, ∃ hk : (r.1 + (k : ℤ) * r.2.2).toNat < l.length,
      l[(r.1 + (k : ℤ) * r.2.2).toNat]? = some l[(r.1 + (k : ℤ) * r.2.2).toNat] := by
    intro k hk
    have := hin k (List.mem_range.1 hk)
    exact ⟨by omega, List.getElem?_eq_getElem (by omega)⟩
  have gen : ∀ m ≤ r.2.1, ((List.range m).filterMap fun k : ℕ => l[(r.1 + (k : ℤ) * r.2.2).toNat]?).length = m ∧
      ∀ k < m, ((List.range m).filterMap fun k : ℕ => l[(r.1 + (k : ℤ) * r.2.2).toNat]?)[k]? = l[(r.1 + (k : ℤ) * r.2.2).toNat]? := by
    intro m
    induction m with
    | zero => simp
    | succ m ih =>
      intro hm
      obtain ⟨h1, h2⟩ := ih (by omega)
      obtain ⟨hk, hs⟩ := e m (List.mem_range.2 (by omega))
      rw [List.range_succ, List.filterMap_append]
      have hx : List.filterMap (fun k : ℕ => l[(r.1 + (k : ℤ) * r.2.2).toNat]?) [m] = [l[(r.1 + (m : ℤ) * r.2.2).toNat]] := by
        simp [List.filterMap_cons, hs]
      rw [hx]
      refine ⟨by simp [h1], fun k hkm => ?_⟩
      by_cases hkm' : k < m
      · rw [List.getElem?_append_left (by rw [h1]; exact hkm'), h2 k hkm']
      · obtain rfl : k = m := by omega
        rw [List.getElem?_append_right (by rw [h1]), h1, Nat.sub_self, hs]
        rfl
  exact gen r.2.1 le_rfl

/-- **C93 (i).**  `l[start:stop:step].mean` is `l.mean[start:stop:step]` for slices that are not empty, and similarly for the other
properties. -/
theorem slice_field {f : Field} {l : List E} {L M : RvList E} (hL : create O (.list l) = .ok L) {a : Arr}
    (h : (L.read O f).1 = .ok a) {start stop step : Option ℤ} (hM : L.slice O start stop step = .ok M) (hne : M.items ≠ []) :
    ∃ b c, (M.read O f).1 = .ok b ∧ a.index [.slice start stop step] = .ok c ∧ c.shape = b.shape ∧
      ∀ i < M.items.length, ∀ idx, c.get (i :: idx) = b.get (i :: idx) := by
  obtain rfl := create_fresh hL
  have hc : compute O f l = .ok a := by
    rw [← h, (reads_agree_partial hL [] (by simp) f).1.symm]
    rfl
  unfold RvList.slice at hM
  change (sliceIndices l.length start stop step).bind (fun r => create O (.list (pick l r))) = .ok M at hM
  cases hr : sliceIndices l.length start stop step with
  | error e =>
    rw [hr] at hM
    cases hM
  | ok r =>
    rw [hr] at hM
    change create O (.list (pick l r)) = .ok M at hM
    have hMi := create_fresh hM
    obtain ⟨hlen, hget⟩ := pick_eq hr
    have hin := slice_inside hr
    have hMit : M.items = pick l r := by rw [hMi]
    have hpos : 0 < r.2.1 := by
      rw [← hlen, ← hMit]
      exact List.length_pos_iff.2 hne
    have hl : l ≠ [] := by
      rintro rfl
      have := hin 0 hpos
      simp at this
      omega
    obtain ⟨as, s, h1, h2⟩ := (field_stacks f hl).1 a hc
    have hk : ∀ k < r.2.1, (r.1 + (k : ℤ) * r.2.2).toNat < as.length := by
      intro k hk
      have := hin k hk
      rw [← h1.length_eq]
      omega
    have hsub : Attrs O f (pick l r) (pick as r) := by
      obtain ⟨hlen', hget'⟩ := pick_eq (l := as) (start := start) (stop := stop) (step := step) (r := r) (by rw [← h1.length_eq]; exact hr)
      refine List.forall₂_iff_get.2 ⟨by rw [hlen, hlen'], fun i hi hi' => ?_⟩
      have e1 := hget i (hlen ▸ hi)
      have e2 := hget' i (hlen ▸ hi)
      have hka := hk i (hlen ▸ hi)
      have hkl : (r.1 + (i : ℤ) * r.2.2).toNat < l.length := h1.length_eq ▸ hka
      rw [List.getElem?_eq_getElem hi, List.getElem?_eq_getElem hkl] at e1
      rw [List.getElem?_eq_getElem hi', List.getElem?_eq_getElem hka] at e2
      have := h1.get hkl hka
      simp only [List.get_eq_getElem] at this ⊢
      rw [Option.some.inj e1, Option.some.inj e2]
      exact this
    have hps : ∀ b ∈ pick as r, b.shape = s := by
      intro b hb
      obtain ⟨k, -, hk'⟩ := List.mem_filterMap.1 hb
      exact h2.1 b (List.mem_of_getElem? hk')
    have hpne : pick l r ≠ [] := hMit ▸ hne
    obtain ⟨b, hb, hbs⟩ := (field_stacks f hpne).2 _ s hsub hps
    refine ⟨b, ⟨r.2.1 :: s, fun idx => a.get ((r.1 + ((idx.take 1).headD 0 : ℕ) * r.2.2).toNat :: idx.drop 1)⟩, ?_, ?_, ?_, ?_⟩
    · rw [← hb]
      exact (reads_agree_partial hM [] (by simp) f).1
    · unfold Arr.index
      have hlen1 : [KeyEl.slice start stop step].length ≤ a.ndim := by simp [Arr.ndim, h2.2.1]
      rw [if_pos hlen1]
      simp only [gather, h2.2.1, List.length_singleton, List.take_succ_cons, List.take_zero, sels, axisSel, ← h1.length_eq, hr]
      simp [Except.bind, Except.map, combine, gatherOuter, Arr.gatherFirst, h2.2.1]
    · rw [hbs.2.1, ← hsub.length_eq, hlen]
    · intro i hi idx
      rw [hMit, hlen] at hi
      have hi' : i < (pick as r).length := by rw [← hsub.length_eq, hlen]; exact hi
      rw [hbs.2.2 i hi' idx]
      show a.get ((r.1 + (i : ℤ) * r.2.2).toNat :: idx) = _
      rw [h2.2.2 _ (hk i hi) idx]
      have e2 := (pick_eq (l := as) (start := start) (stop := stop) (step := step) (r := r) (by rw [← h1.length_eq]; exact hr)).2 i hi
      rw [List.getElem?_eq_getElem hi', List.getElem?_eq_getElem (hk i hi)] at e2
      rw [Option.some.inj e2]

/-- **C93 (j), disagreement.**  For an empty slice the axes of the elements are lost: `l[:0].mean` has shape `(0,)`, `l.mean[:0]` has the
axes of the elements besides. -/
theorem empty_slice {f : Field} {l : List E} {L : RvList E} (hL : create O (.list l) = .ok L) :
    ∃ M a, L.slice O none (some 0) none = .ok M ∧ (M.read O f).1 = .ok a ∧ a.shape = [0] ∧
      ∀ b, l ≠ [] → (L.read O f).1 = .ok b → ∃ c, b.index [.slice none (some 0) none] = .ok c ∧ c.shape = 0 :: b.shape.tail := by
  obtain rfl := create_fresh hL
  have hz : ∀ n : ℕ, sliceIndices n none (some 0) none = .ok (0, 0, 1) := by
    intro n
    unfold sliceIndices
    simp [clipBound]
    omega
  refine ⟨{ items := [] }, ⟨[0], fun _ => 0⟩, ?_, rfl, rfl, fun b hl hb => ?_⟩
  · unfold RvList.slice
    show (sliceIndices l.length none (some 0) none).bind _ = _
    rw [hz]
    rfl
  · have hc : compute O f l = .ok b := by
      rw [← hb, (reads_agree_partial hL [] (by simp) f).1.symm]
      rfl
    obtain ⟨as, s, h1, h2⟩ := (field_stacks f hl).1 b hc
    refine ⟨⟨0 :: s, fun idx => b.get ((0 + ((idx.take 1).headD 0 : ℕ) * 1 : ℤ).toNat :: idx.drop 1)⟩, ?_, ?_⟩
    · unfold Arr.index
      have hlen1 : [KeyEl.slice none (some 0) none].length ≤ b.ndim := by simp [Arr.ndim, h2.2.1]
      rw [if_pos hlen1]
      simp only [gather, h2.2.1, List.length_singleton, List.take_succ_cons, List.take_zero, sels, axisSel, ← h1.length_eq, hz]
      simp [Except.bind, Except.map, combine, gatherOuter, Arr.gatherFirst, h2.2.1]
    · rw [h2.2.1]
      rfl

/-! ### Shape and resampling -/

/-- **C93 (k), partial.**  `l.shape` is the shape of `l.mean`.  (Missing: the empty list raises IndexError, although it has a mean.) -/
theorem shape_mean_partial {l : List E} {L : RvList E} (hL : create O (.list l) = .ok L) {a : Arr}
    (h : (L.read O .mean).1 = .ok a) :
    (l ≠ [] → L.shape O = .ok a.shape) ∧ (l = [] → L.shape O = .error .indexError ∧ a.shape = [0]) := by
  obtain rfl := create_fresh hL
  have hc : compute O .mean l = .ok a := by
    rw [← h, (reads_agree_partial hL [] (by simp) .mean).1.symm]
    rfl
  constructor
  · intro hl
    cases l with
    | nil => exact absurd rfl hl
    | cons e l =>
      obtain ⟨as, s, h1, h2⟩ := (field_stacks Field.mean hl).1 a hc
      cases h1 with
      | cons he ht =>
        rename_i b as
        show (O.attr .mean e).map _ = _
        rw [he]
        show Except.ok ((e :: l).length :: b.shape) = _
        rw [h2.2.1, h2.1 b (by simp), List.length_cons, List.length_cons, ht.length_eq]
  · rintro rfl
    exact ⟨rfl, by rw [← Except.ok.inj hc]⟩

/-- The elements are resampled in order, each with the generator the previous one left behind. -/
inductive Resampled (O : Objects E ρ) : List E → ρ → List E → ρ → Prop
  | nil (r) : Resampled O [] r [] r
  | cons {e l r e' r' l' r''} : O.resample e r = .ok (e', r') → Resampled O l r' l' r'' → Resampled O (e :: l) r (e' :: l') r''

/-- **C93 (l).**  Resampling a list resamples every element once, in order, and leaves the old list as it is. -/
theorem resample_all {l : List E} {L M : RvList E} (hL : create O (.list l) = .ok L) {r r' : ρ} (h : L.resample O r = .ok (M, r')) :
    Resampled O l r M.items r' := by
  obtain rfl := create_fresh hL
  have key : ∀ (l : List E) (r : ρ) (l' : List E) (r' : ρ), resampleAll O l r = .ok (l', r') → Resampled O l r l' r' := by
    intro l
    induction l with
    | nil =>
      intro r l' r' h
      cases h
      exact .nil _
    | cons e l ih =>
      intro r l' r' h
      unfold resampleAll at h
      cases h1 : O.resample e r with
      | error x =>
        rw [h1] at h
        cases h
      | ok p =>
        rw [h1] at h
        change (resampleAll O l p.2).map _ = _ at h
        cases h2 : resampleAll O l p.2 with
        | error x =>
          rw [h2] at h
          cases h
        | ok q =>
          rw [h2] at h
          cases h
          exact .cons h1 (ih _ _ _ h2)
  unfold RvList.resample at h
  change (resampleAll O l r).bind _ = _ at h
  cases h1 : resampleAll O l r with
  | error x =>
    rw [h1] at h
    cases h
  | ok p =>
    rw [h1] at h
    change (create O (.list p.1)).map _ = _ at h
    cases h2 : create O (.list p.1) with
    | error x =>
      rw [h2] at h
      cases h
    | ok M' =>
      rw [h2] at h
      have e := Except.ok.inj h
      obtain ⟨rfl, rfl⟩ := Prod.mk.inj e
      rw [create_fresh h2]
      exact key _ _ _ _ h1

/-! ### Concrete cases -/

/-- Numbers as random variables with that mean; every other attribute is missing; resampling adds 1 for each use of the generator. -/
def numbers : Objects (Option ℕ) ℕ where
  isRv e := e.isSome
  attr f e :=
    match f, e with
    | .mean, some v => .ok ⟨[], fun _ => v⟩
    | _, _ => .error .attributeError
  resample e r :=
    match e with
    | some v => .ok (some (v + r), r + 1)
    | none => .error .attributeError

theorem numbers_mean (l : List ℕ) (hl : l ≠ []) : ∃ a, compute numbers .mean (l.map some) = .ok a ∧
    IsStack (l.map fun v : ℕ => (⟨[], fun _ => (v : ℝ)⟩ : Arr)) [] a := by
  refine (field_stacks Field.mean (by simpa using hl)).2 _ [] ?_ (by simp)
  rw [Attrs, List.forall₂_map_left_iff, List.forall₂_map_right_iff]
  exact List.forall₂_same.2 fun _ _ => rfl

/-- Two random variables; the mean is read, a third is appended, and the mean has still two entries. -/
example : ∃ L a, create numbers (.list [some 4, some 7]) = .ok L ∧ a.shape = [2] ∧ a.get [1] = 7 ∧
    ((run numbers L [.read .mean, .append (some 9)]).read numbers .mean).1 = .ok a ∧
    (run numbers L [.read .mean, .append (some 9)]).items.length = 3 := by
  obtain ⟨a, ha, hs⟩ := numbers_mean [4, 7] (by simp)
  have hL : create numbers (.list [some 4, some 7]) = .ok { items := [some 4, some 7] } := rfl
  have h : (RvList.read numbers .mean { items := [some 4, some 7] }).1 = .ok a := by
    have := (reads_agree_partial hL [] (by simp) .mean).1
    exact this.trans ha
  obtain ⟨h1, h2, -, -⟩ := stale_append hL h (some 9)
  refine ⟨_, a, hL, hs.2.1, ?_, h2, by rw [h1]; rfl⟩
  have := hs.2.2 1 (by simp) []
  simpa using this

/-- Negative indices, slices with a step, the shape. -/
example : ∃ L a M e, create numbers (.list [some 4, some 7, some 9]) = .ok L ∧ (L.read numbers .mean).1 = .ok a ∧
    L.item (-1) = .ok e ∧ e = some 9 ∧ L.slice numbers none none (some (-2)) = .ok M ∧ M.items = [some 9, some 4] ∧
    L.shape numbers = .ok a.shape := by
  obtain ⟨a, ha, hs⟩ := numbers_mean [4, 7, 9] (by simp)
  have hL : create numbers (.list [some 4, some 7, some 9]) = .ok { items := [some 4, some 7, some 9] } := rfl
  have h : (RvList.read numbers .mean { items := [some 4, some 7, some 9] }).1 = .ok a :=
    ((reads_agree_partial hL [] (by simp) .mean).1).trans ha
  exact ⟨_, a, { items := [some 9, some 4] }, _, hL, h, rfl, rfl, rfl, rfl, (shape_mean_partial hL h).1 (by simp)⟩

example : ∃ L M, create numbers (.list [some 4, some 7]) = .ok L ∧ L.resample numbers 1 = .ok (M, 3) ∧ M.items = [some 5, some 9] :=
  ⟨_, { items := [some 5, some 9] }, rfl, rfl, rfl⟩

example : ∃ L, create numbers (.list [some 4, none]) = .ok L ∧ (L.read numbers .mean).1 = .error .attributeError :=
  ⟨_, rfl, rfl⟩

/-- A posterior to which two states are appended. -/
example : ∃ L, states numbers ([(0, some 1), (2, some 5)].foldl (fun p d => (p.append d.1 d.2).2) (Post.init : Post ℤ (Option ℕ))) = .ok L ∧
    L.items = [some 1, some 5] := by
  obtain ⟨L, h1, h2, -⟩ := posterior_states (O := numbers) [((0 : ℤ), some 1), (2, some 5)] (by simp) (by simp [numbers])
  exact ⟨L, h1, h2⟩

end Probnum.RvList
