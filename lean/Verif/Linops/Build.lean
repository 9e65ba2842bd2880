import Verif.Linops.Spec

/-! # What the constructors return -/

namespace Probnum.Linops

open Finset

/-! ## Headers -/

@[simp] theorem hdr_withHdr (h : Hdr) (a : Op) : (a.withHdr h).hdr = h := by cases a <;> rfl

theorem den_withHdr {h : Hdr} {a : Op} (hr : h.rows = a.rows) : den (a.withHdr h) = den a := by
  cases a <;> simp only [Op.withHdr, den]
  simp only [Op.rows, Op.hdr] at hr
  rw [hr]

@[simp] theorem den_withFl (a : Op) (fl : Flags) : den (a.withFl fl) = den a := den_withHdr rfl

@[simp] theorem rows_withFl (a : Op) (fl : Flags) : (a.withFl fl).rows = a.rows := by simp [Op.withFl, Op.rows]
@[simp] theorem cols_withFl (a : Op) (fl : Flags) : (a.withFl fl).cols = a.cols := by simp [Op.withFl, Op.cols]
@[simp] theorem fl_withFl (a : Op) (fl : Flags) : (a.withFl fl).fl = fl := by simp [Op.withFl, Op.fl]

@[simp] theorem derived_withFl (a : Op) (fl : Flags) : derived (a.withFl fl) = derived a := by
  cases a <;> simp [Op.withFl, Op.withHdr, derived, Op.rows, Op.cols, Op.hdr]

@[simp] theorem withFl_withFl (a : Op) (f g : Flags) : (a.withFl f).withFl g = a.withFl g := by cases a <;> rfl

theorem withFl_self (a : Op) : a.withFl a.fl = a := by cases a <;> rfl

/-- The object as its constructor leaves it. -/
noncomputable def build (a : Op) : Op := a.withFl (derived a)

/-! ## Flags -/

theorem Flags.Le.refl (f : Flags) : f.Le f := ⟨.inr rfl, .inr rfl, .inr rfl, .inr rfl⟩

theorem Flags.Le.trans {f g k : Flags} (h : f.Le g) (h' : g.Le k) : f.Le k := by
  constructor
  · rcases h.sym with e | e
    · exact .inl e
    · rw [e]; exact h'.sym
  · rcases h.low with e | e
    · exact .inl e
    · rw [e]; exact h'.low
  · rcases h.up with e | e
    · exact .inl e
    · rw [e]; exact h'.up
  · rcases h.pd with e | e
    · exact .inl e
    · rw [e]; exact h'.pd

@[simp] theorem Flags.swap_swap (f : Flags) : f.swap.swap = f := rfl

theorem Flags.Le.swap {f g : Flags} (h : f.Le g) : f.swap.Le g.swap := ⟨h.sym, h.up, h.low, h.pd⟩

theorem setProp_le {cur v : Option Bool} (h : cur = none ∨ cur = v) : setProp cur v = .ok v := by
  rcases h with rfl | rfl
  · simp only [setProp]
    split
    · next h => rw [h]
    · rfl
  · simp [setProp]

theorem setSym_le {h : Hdr} {v : Option Bool} (hc : h.fl.sym = none ∨ h.fl.sym = v)
    (hs : v = some true → h.rows = h.cols) : setSym h v = .ok { h with fl := { h.fl with sym := v } } := by
  unfold setSym
  rw [if_neg (by rintro ⟨a, b⟩; exact b (hs a)), setProp_le hc]
  rfl

theorem setLow_le {h : Hdr} {v : Option Bool} (hc : h.fl.low = none ∨ h.fl.low = v) :
    setLow h v = .ok { h with fl := { h.fl with low := v } } := by
  unfold setLow
  rw [setProp_le hc]
  rfl

theorem setUp_le {h : Hdr} {v : Option Bool} (hc : h.fl.up = none ∨ h.fl.up = v) :
    setUp h v = .ok { h with fl := { h.fl with up := v } } := by
  unfold setUp
  rw [setProp_le hc]
  rfl

theorem setPd_le {h : Hdr} {v : Option Bool} (hc : h.fl.pd = none ∨ h.fl.pd = v)
    (hs : v = some true → h.fl.sym = some true) : setPd h v = .ok { h with fl := { h.fl with pd := v } } := by
  unfold setPd
  rw [if_neg (by rintro ⟨a, b⟩; exact b (hs a)), setProp_le hc]
  rfl

theorem ok_bind {α γ : Type _} (a : α) (f : α → Res γ) : ((Except.ok a : Res α) >>= f) = f a := rfl

/-- The assignments at the end of `T` succeed if they do not contradict the flags of the new operator. -/
theorem copyFlags_eq {op t : Op} (hle : t.fl.Le op.fl.swap) (hs : op.fl.sym = some true → t.rows = t.cols)
    (hp : op.fl.pd = some true → op.fl.sym = some true) : copyFlags op t = .ok (t.withFl op.fl.swap) := by
  unfold copyFlags
  rw [setUp_le (by exact hle.up), ok_bind, setLow_le (by exact hle.low), ok_bind,
    setSym_le (by exact hle.sym) (by exact hs), ok_bind, setPd_le (by exact hle.pd) (by exact hp), ok_bind]
  rfl

/-! ## Coherent headers -/

/-- Header conditions that every reachable object satisfies. -/
structure Coh (a : Op) : Prop where
  nonsquare : a.rows ≠ a.cols → a.fl.sym = some false
  pdsym : a.fl.pd = some true → a.fl.sym = some true

theorem Node.coh {full : Prop} {a : Op} (h : Node full a) : Coh a := ⟨h.nonsquare, h.pdsym⟩

theorem Coh.square {a : Op} (h : Coh a) (hs : a.fl.sym = some true) : a.rows = a.cols := by
  by_contra hne
  rw [h.nonsquare hne] at hs
  cases hs

theorem base_sym_le {r c : ℕ} {v : Option Bool} (h : r ≠ c → v = some false) :
    (base r c).fl.sym = none ∨ (base r c).fl.sym = v := by
  simp only [base]
  by_cases hrc : r = c
  · simp [hrc]
  · simp [hrc, h hrc]

theorem mkMatrix_eq (r c : ℕ) (A : Mat) : mkMatrix r c A = build (.matrix ⟨r, c, (base r c).fl⟩ A) := rfl

theorem mkKron_eq {A B : Op} (hA : Coh A) (hB : Coh B) (fl : Flags) :
    mkKron A B = .ok (build (.kron ⟨A.rows * B.rows, A.cols * B.cols, fl⟩ A B)) := by
  simp only [mkKron]
  split
  · next h =>
    have hsq : A.rows * B.rows = A.cols * B.cols := by rw [hA.square h.1, hB.square h.2]
    rw [setSym_le (by left; simp [base, hsq]) (fun _ => hsq), ok_bind]
    simp [build, derived, Op.withFl, Op.withHdr, h, base, Op.rows, Op.cols, Op.hdr]
  · next h =>
    simp only [ok_bind]
    simp [build, derived, Op.withFl, Op.withHdr, h, base, Op.rows, Op.cols, Op.hdr]

theorem mkIdkron_eq {k : ℕ} {B : Op} (hB : Coh B) (fl : Flags) :
    mkIdkron k B = .ok (build (.idkron ⟨k * B.rows, k * B.cols, fl⟩ k B)) := by
  simp only [mkIdkron]
  by_cases h : B.fl.sym = some true
  · have hsq : k * B.rows = k * B.cols := by rw [hB.square h]
    simp only [if_pos h]
    rw [setSym_le (by left; simp [base, hsq]) (fun _ => hsq), ok_bind, setSym_le (by right; rfl) (fun _ => hsq), ok_bind]
    simp [build, derived, Op.withFl, Op.withHdr, h, base, Op.rows, Op.cols, Op.hdr]
  · simp only [if_neg h, ok_bind]
    simp [build, derived, Op.withFl, Op.withHdr, h, base, Op.rows, Op.cols, Op.hdr]

theorem mkSymkron_eq {same : Bool} {A B : Op} (h1 : A.rows = A.cols) (h2 : B.rows = A.rows) (h3 : B.cols = A.cols)
    (fl : Flags) :
    mkSymkron same A B = .ok (build (.symkron ⟨A.rows * A.rows, A.rows * A.rows, fl⟩ same A B)) := by
  simp only [mkSymkron]
  rw [if_neg (by simpa using h1), if_neg (by simp [h2, h3])]
  by_cases h : A.fl.sym = some true ∧ B.fl.sym = some true
  · rw [if_pos h, setSym_le (by left; simp [base]) (fun _ => rfl), ok_bind]
    simp [build, derived, Op.withFl, Op.withHdr, h, base, Op.rows, Op.cols, Op.hdr]
  · simp only [if_neg h, ok_bind]
    simp [build, derived, Op.withFl, Op.withHdr, h, base, Op.rows, Op.cols, Op.hdr]

theorem mkScaled_eq {neg : Bool} {s : ℝ} {A : Op} (hA : Coh A) (fl : Flags) :
    mkScaled neg s A = .ok (build (.scaled ⟨A.rows, A.cols, fl⟩ neg s A)) := by
  simp only [mkScaled]
  rw [setSym_le (base_sym_le hA.nonsquare) (by intro h; exact hA.square h), ok_bind, setLow_le (by left; rfl), ok_bind,
    setUp_le (by left; rfl), ok_bind]
  by_cases hp : A.fl.pd = some true
  · rw [if_pos hp]
    by_cases hs : 0 < s
    · rw [if_pos hs, setPd_le (by left; rfl) (by intro _; exact hA.pdsym hp), ok_bind]
      simp [build, derived, Op.withFl, Op.withHdr, hp, hs, base, Op.rows, Op.cols, Op.hdr]
    · rw [if_neg hs, setPd_le (by left; rfl) (by simp), ok_bind]
      simp [build, derived, Op.withFl, Op.withHdr, hp, hs, base, Op.rows, Op.cols, Op.hdr]
  · rw [if_neg hp, ok_bind]
    simp [build, derived, Op.withFl, Op.withHdr, hp, base, Op.rows, Op.cols, Op.hdr]

theorem mkInverse_eq {A : Op} (hA : Coh A) (h1 : A.rows = A.cols) (fl : Flags) :
    mkInverse A = .ok (build (.inverse ⟨A.rows, A.rows, fl⟩ A)) := by
  simp only [mkInverse]
  rw [if_neg (by simpa using h1), setSym_le (base_sym_le hA.nonsquare) (by intro h; exact hA.square h), ok_bind,
    setPd_le (by left; rfl) (by exact hA.pdsym), ok_bind]
  simp [build, derived, Op.withFl, Op.withHdr, base, Op.rows, Op.cols, Op.hdr] at h1 ⊢
  exact h1.symm

theorem mem_expandSum {b : Op} : ∀ {l : List Op}, b ∈ expandSum l →
    b ∈ l ∨ ∃ h m, Op.sum h m ∈ l ∧ b ∈ m
  | [], h => by simp [expandSum] at h
  | a :: t, h => by
    have ih := @mem_expandSum b t
    cases a
    case sum hh m =>
      simp only [expandSum, List.mem_append] at h
      rcases h with h | h
      · exact .inr ⟨hh, m, by simp, h⟩
      · rcases ih h with h | ⟨h1, m1, h2, h3⟩
        · exact .inl (by simp [h])
        · exact .inr ⟨h1, m1, by simp [h2], h3⟩
    all_goals
      simp only [expandSum, List.mem_cons] at h
      rcases h with h | h
      · exact .inl (by simp [h])
      · rcases ih h with h | ⟨h1, m1, h2, h3⟩
        · exact .inl (by simp [h])
        · exact .inr ⟨h1, m1, by simp [h2], h3⟩

theorem subset_expandSum {b : Op} : ∀ {l : List Op}, b ∈ l →
    (∃ h m, b = Op.sum h m ∧ m ⊆ expandSum l) ∨ b ∈ expandSum l
  | [], h => by simp at h
  | a :: t, h => by
    have ih := @subset_expandSum b t
    rcases List.mem_cons.1 h with rfl | h
    · cases b
      case sum hh m =>
        left
        exact ⟨hh, m, rfl, by simp [expandSum]⟩
      all_goals right; simp [expandSum]
    · have key : ∀ c, c ∈ expandSum t → c ∈ expandSum (a :: t) := by
        intro c hc
        cases a <;> simp [expandSum, hc]
      rcases ih h with ⟨h1, m, e, hm⟩ | h
      · exact .inl ⟨h1, m, e, fun c hc => key c (hm hc)⟩
      · exact .inr (key b h)

theorem mkSum_eq {a : Op} {t : List Op} (hs : ∀ b ∈ a :: t, b.rows = a.rows ∧ b.cols = a.cols)
    (hc : ∀ b ∈ expandSum (a :: t), Coh b ∧ b.rows = a.rows ∧ b.cols = a.cols) (hne : expandSum (a :: t) ≠ [])
    (fl : Flags) :
    mkSum (a :: t) = .ok (build (.sum ⟨a.rows, a.cols, fl⟩ (expandSum (a :: t)))) := by
  obtain ⟨b0, hb0⟩ := List.exists_mem_of_ne_nil _ hne
  simp only [mkSum]
  rw [if_neg (by simpa using hs)]
  set s := expandSum (a :: t) with hsdef
  have hsq : (∀ b ∈ s, b.fl.sym = some true) → a.rows = a.cols := by
    intro h
    have := (hc b0 hb0).1.square (h b0 hb0)
    rw [← (hc b0 hb0).2.1, this, (hc b0 hb0).2.2]
  have hpd : (∀ b ∈ s, b.fl.pd = some true) → ∀ b ∈ s, b.fl.sym = some true :=
    fun h b hb => (hc b hb).1.pdsym (h b hb)
  clear_value s
  generalize a.rows = r at *
  generalize a.cols = c at *
  clear hs hc
  by_cases h1 : ∀ b ∈ s, b.fl.sym = some true
  · obtain rfl := hsq h1
    simp only [build, derived, if_pos h1]
    by_cases h2 : ∀ b ∈ s, b.fl.low = some true <;> by_cases h3 : ∀ b ∈ s, b.fl.up = some true <;>
    by_cases h4 : ∀ b ∈ s, b.fl.pd = some true <;>
    (first | simp only [if_pos h2] | simp only [if_neg h2]) <;>
    (first | simp only [if_pos h3] | simp only [if_neg h3]) <;>
    (first | simp only [if_pos h4] | simp only [if_neg h4]) <;>
    simp [setSym, setLow, setUp, setPd, setProp, base, build, derived,
      Op.withFl, Op.withHdr, bind, Except.bind, Op.rows, Op.cols, Op.hdr]
  · have h4 := fun h => h1 (hpd h)
    simp only [build, derived, if_neg h1, if_neg h4]
    by_cases h2 : ∀ b ∈ s, b.fl.low = some true <;> by_cases h3 : ∀ b ∈ s, b.fl.up = some true <;>
    (first | simp only [if_pos h2] | simp only [if_neg h2]) <;>
    (first | simp only [if_pos h3] | simp only [if_neg h3]) <;>
    simp [setSym, setLow, setUp, setPd, setProp, base, build, derived,
      Op.withFl, Op.withHdr, bind, Except.bind, Op.rows, Op.cols, Op.hdr]

theorem inferProp_true {p : Op → Option Bool} {l : List Op} :
    inferProp p l = some true ↔ ∀ b ∈ l, p b = some true := by
  unfold inferProp
  split
  · next h => simpa using h
  · next h =>
    split
    · simpa using h
    · simpa using h

theorem inferProp_false {p : Op → Option Bool} {l : List Op} (h : inferProp p l = some false) :
    ∃ b ∈ l, p b = some false := by
  unfold inferProp at h
  split at h
  · cases h
  · split at h
    · next h' => exact h'
    · cases h

theorem inferProp_none {p : Op → Option Bool} {l : List Op} (h : inferProp p l = none) (b : Op) (hb : b ∈ l) :
    p b ≠ some false := by
  unfold inferProp at h
  split at h
  · cases h
  · split at h
    · cases h
    · next h' => exact fun hf => h' ⟨b, hb, hf⟩

theorem mkBlock_eq {l : List Op} (hne : l ≠ []) (hc : ∀ b ∈ l, Coh b) (fl : Flags) :
    mkBlock l = .ok (build (.block ⟨(l.map Op.rows).sum, (l.map Op.cols).sum, fl⟩ l)) := by
  simp only [mkBlock]
  rw [if_neg hne]
  have hns : (l.map Op.rows).sum ≠ (l.map Op.cols).sum → inferProp (fun b => b.fl.sym) l = some false := by
    intro h
    have : ∃ b ∈ l, b.rows ≠ b.cols := by
      by_contra hall
      push Not at hall
      exact h (by rw [List.map_congr_left hall])
    obtain ⟨b, hb, hbne⟩ := this
    have hf := (hc b hb).nonsquare hbne
    unfold inferProp
    rw [if_neg (fun h' => by have h2 : b.fl.sym = some true := h' b hb; rw [h2] at hf; cases hf), if_pos ⟨b, hb, hf⟩]
  have hsq : inferProp (fun b => b.fl.sym) l = some true → (l.map Op.rows).sum = (l.map Op.cols).sum := by
    intro h
    rw [inferProp_true] at h
    rw [List.map_congr_left fun b hb => (hc b hb).square (h b hb)]
  have hpd : inferProp (fun b => b.fl.pd) l = some true → inferProp (fun b => b.fl.sym) l = some true := by
    intro h
    rw [inferProp_true] at h ⊢
    exact fun b hb => (hc b hb).pdsym (h b hb)
  rw [setSym_le (base_sym_le hns) (by exact hsq), ok_bind, setPd_le (by left; rfl) (by exact hpd), ok_bind, setUp_le (by left; rfl), ok_bind,
    setLow_le (by left; rfl), ok_bind]
  simp [build, derived, Op.withFl, Op.withHdr, base, Op.rows, Op.cols, Op.hdr]

end Probnum.Linops
