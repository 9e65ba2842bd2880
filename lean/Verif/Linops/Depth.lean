import Verif.Linops.Arith
import Verif.Linops.Spec

/-! # The recursion depth that operator calls need (lemmas)

`Quick r P`: the call does not exceed the recursion limit and, if it returns, its result has `P`. -/

namespace Probnum.Linops

/-- The call does not raise RecursionError, and its result satisfies `P`. -/
def Quick {α : Type _} (r : Res α) (P : α → Prop) : Prop :=
  match r with
  | .ok a => P a
  | .error e => e ≠ .recursionError

theorem Quick.ok {α : Type _} {a : α} {P : α → Prop} (h : P a) : Quick (.ok a) P := h

theorem Quick.mono {α : Type _} {r : Res α} {P Q : α → Prop} (h : Quick r P) (hPQ : ∀ a, P a → Q a) : Quick r Q := by
  cases r with
  | ok a => exact hPQ a h
  | error e => exact h

theorem Quick.bind {α γ : Type _} {r : Res α} {f : α → Res γ} {P : α → Prop} {Q : γ → Prop} (h : Quick r P)
    (hf : ∀ a, P a → Quick (f a) Q) : Quick (r >>= f) Q := by
  cases r with
  | ok a => exact hf a h
  | error e => exact h

theorem Quick.bind' {α γ : Type _} {r : Res α} {f : α → Res γ} {P : α → Prop} {Q : γ → Prop} (h : Quick r P)
    (hf : ∀ a, r = .ok a → P a → Quick (f a) Q) : Quick (r >>= f) Q := by
  cases r with
  | ok a => exact hf a rfl h
  | error e => exact h

theorem Quick.mapM {α γ : Type} {f : α → Res γ} {P : α → γ → Prop} :
    ∀ {l : List α}, (∀ a ∈ l, Quick (f a) (P a)) → Quick (l.mapM f) (fun ys => List.Forall₂ P l ys)
  | [], _ => by
    rw [List.mapM_nil]
    exact List.Forall₂.nil
  | a :: l, h => by
    rw [List.mapM_cons]
    refine Quick.bind (h a (by simp)) fun b hb => ?_
    refine Quick.bind (Quick.mapM fun c hc => h c (List.mem_cons_of_mem _ hc)) fun bs hbs => ?_
    exact List.Forall₂.cons hb hbs

/-- A call that meets its specification and stays within the recursion limit returns. -/
theorem Meets.returns {α : Type _} {r : Res α} {P Q : α → Prop} (h : Meets r P) (hq : Quick r Q) :
    ∃ a, r = .ok a ∧ P a ∧ Q a := by
  cases r with
  | ok a => exact ⟨a, rfl, h, hq⟩
  | error e => exact absurd h hq

mutual

/-- Depth of the tree. -/
def depth : Op → ℕ
  | .kron _ A B => max (depth A) (depth B) + 1
  | .idkron _ _ B => depth B + 1
  | .symkron _ _ A B => max (depth A) (depth B) + 1
  | .scaled _ _ _ A => depth A + 1
  | .sum _ l => depthL l + 1
  | .prod _ l => depthL l + 1
  | .transposed _ A => depth A + 1
  | .inverse _ A => depth A + 1
  | .block _ l => depthL l + 1
  | _ => 0

/-- Largest depth in a list. -/
def depthL : List Op → ℕ
  | [] => 0
  | a :: l => max (depth a) (depthL l)

end

mutual

/-- No `Embedding` in the tree is flagged symmetric.  (`todense` of such an `Embedding` calls itself without end.) -/
def Calm : Op → Prop
  | .kron _ A B => Calm A ∧ Calm B
  | .idkron _ _ B => Calm B
  | .symkron _ _ A B => Calm A ∧ Calm B
  | .scaled _ _ _ A => Calm A
  | .sum _ l => CalmL l
  | .prod _ l => CalmL l
  | .transposed _ A => Calm A
  | .inverse _ A => Calm A
  | .block _ l => CalmL l
  | .embedding h _ _ _ => h.fl.sym ≠ some true
  | _ => True

/-- All operators of the list are calm. -/
def CalmL : List Op → Prop
  | [] => True
  | a :: l => Calm a ∧ CalmL l

end

theorem CalmL.mem : ∀ {l : List Op}, CalmL l → ∀ a ∈ l, Calm a
  | b :: l, h, a, ha => by
    rw [CalmL] at h
    rcases List.mem_cons.1 ha with rfl | ha
    · exact h.1
    · exact h.2.mem a ha

theorem CalmL.of : ∀ {l : List Op}, (∀ a ∈ l, Calm a) → CalmL l
  | [], _ => by rw [CalmL]; trivial
  | a :: l, h => by
    rw [CalmL]
    exact ⟨h a (by simp), CalmL.of fun b hb => h b (List.mem_cons_of_mem _ hb)⟩

/-- Calm, and of depth at most `m`. -/
structure Fine (m : ℕ) (t : Op) : Prop where
  depth : depth t ≤ m
  calm : Calm t

theorem Fine.mono {m k : ℕ} {t : Op} (h : Fine m t) (hk : m ≤ k) : Fine k t := ⟨h.depth.trans hk, h.calm⟩

theorem depth_le_depthL : ∀ {l : List Op} {a : Op}, a ∈ l → depth a ≤ depthL l
  | b :: l, a, h => by
    rw [depthL]
    rcases List.mem_cons.1 h with rfl | h
    · exact le_max_left _ _
    · exact (depth_le_depthL h).trans (le_max_right _ _)

theorem depthL_le {m : ℕ} : ∀ {l : List Op}, (∀ a ∈ l, depth a ≤ m) → depthL l ≤ m
  | [], _ => by rw [depthL]; exact Nat.zero_le _
  | a :: l, h => by
    rw [depthL]
    exact max_le (h a (by simp)) (depthL_le fun b hb => h b (List.mem_cons_of_mem _ hb))

theorem depth_withHdr (h : Hdr) (a : Op) : depth (a.withHdr h) = depth a := by
  cases a <;> simp only [Op.withHdr, depth]

theorem calm_withHdr {h : Hdr} {a : Op} (hs : h.fl.sym ≠ some true) (ha : Calm a) : Calm (a.withHdr h) := by
  cases a <;> first | exact ha | exact hs

theorem fine_kron {m : ℕ} {h : Hdr} {A B : Op} (hA : Fine m A) (hB : Fine m B) : Fine (m + 1) (.kron h A B) :=
  ⟨by rw [depth]; exact Nat.succ_le_succ (max_le hA.depth hB.depth), by rw [Calm]; exact ⟨hA.calm, hB.calm⟩⟩

theorem fine_symkron {m : ℕ} {h : Hdr} {s : Bool} {A B : Op} (hA : Fine m A) (hB : Fine m B) :
    Fine (m + 1) (.symkron h s A B) :=
  ⟨by rw [depth]; exact Nat.succ_le_succ (max_le hA.depth hB.depth), by rw [Calm]; exact ⟨hA.calm, hB.calm⟩⟩

theorem fine_idkron {m k : ℕ} {h : Hdr} {B : Op} (hB : Fine m B) : Fine (m + 1) (.idkron h k B) :=
  ⟨by rw [depth]; exact Nat.succ_le_succ hB.depth, by rw [Calm]; exact hB.calm⟩

theorem fine_scaled {m : ℕ} {h : Hdr} {g : Bool} {s : ℝ} {B : Op} (hB : Fine m B) : Fine (m + 1) (.scaled h g s B) :=
  ⟨by rw [depth]; exact Nat.succ_le_succ hB.depth, by rw [Calm]; exact hB.calm⟩

theorem fine_sum {m : ℕ} {h : Hdr} {l : List Op} (hl : ∀ a ∈ l, Fine m a) : Fine (m + 1) (.sum h l) :=
  ⟨by rw [depth]; exact Nat.succ_le_succ (depthL_le fun a ha => (hl a ha).depth),
    by rw [Calm]; exact CalmL.of fun a ha => (hl a ha).calm⟩

theorem fine_prod {m : ℕ} {h : Hdr} {l : List Op} (hl : ∀ a ∈ l, Fine m a) : Fine (m + 1) (.prod h l) :=
  ⟨by rw [depth]; exact Nat.succ_le_succ (depthL_le fun a ha => (hl a ha).depth),
    by rw [Calm]; exact CalmL.of fun a ha => (hl a ha).calm⟩

theorem fine_block {m : ℕ} {h : Hdr} {l : List Op} (hl : ∀ a ∈ l, Fine m a) : Fine (m + 1) (.block h l) :=
  ⟨by rw [depth]; exact Nat.succ_le_succ (depthL_le fun a ha => (hl a ha).depth),
    by rw [Calm]; exact CalmL.of fun a ha => (hl a ha).calm⟩

theorem fine_matrix {m r c : ℕ} {A : Mat} : Fine m (mkMatrix r c A) :=
  ⟨by simp [mkMatrix, depth], by simp [mkMatrix, Calm]⟩

/-! ## Constructors -/

theorem setProp_quick (c v : Option Bool) : Quick (setProp c v) fun _ => True := by
  unfold setProp
  split
  · exact trivial
  · split
    · simp [Quick]
    · exact trivial

theorem setSym_quick (h : Hdr) (v : Option Bool) : Quick (setSym h v) fun _ => True := by
  unfold setSym
  split
  · simp [Quick]
  · exact Quick.bind (setProp_quick _ _) fun _ _ => Quick.ok trivial

theorem setLow_quick (h : Hdr) (v : Option Bool) : Quick (setLow h v) fun _ => True :=
  Quick.bind (setProp_quick _ _) fun _ _ => Quick.ok trivial

theorem setUp_quick (h : Hdr) (v : Option Bool) : Quick (setUp h v) fun _ => True :=
  Quick.bind (setProp_quick _ _) fun _ _ => Quick.ok trivial

theorem setPd_quick (h : Hdr) (v : Option Bool) : Quick (setPd h v) fun _ => True := by
  unfold setPd
  split
  · simp [Quick]
  · exact Quick.bind (setProp_quick _ _) fun _ _ => Quick.ok trivial

theorem jp_quick {γ : Type _} {p : Prop} [Decidable p] {h : Hdr} {r : Res Hdr} {f : Hdr → Res γ} {Q : γ → Prop}
    (hr : Quick r fun _ => True) (hf : ∀ h, Quick (f h) Q) :
    Quick (if p then r >>= f else ((Except.ok h : Res Hdr) >>= f)) Q := by
  split
  · exact Quick.bind hr fun h _ => hf h
  · exact hf h

theorem mkKron_quick {m : ℕ} {A B : Op} (hA : Fine m A) (hB : Fine m B) : Quick (mkKron A B) (Fine (m + 1)) := by
  unfold mkKron
  exact jp_quick (setSym_quick _ _) fun h => Quick.ok (fine_kron hA hB)

theorem mkIdkron_quick {m : ℕ} (k : ℕ) {B : Op} (hB : Fine m B) : Quick (mkIdkron k B) (Fine (m + 1)) := by
  unfold mkIdkron
  exact jp_quick (setSym_quick _ _) fun h => jp_quick (setSym_quick _ _) fun _ => Quick.ok (fine_idkron hB)

theorem mkSymkron_quick {m : ℕ} (same : Bool) {A B : Op} (hA : Fine m A) (hB : Fine m B) :
    Quick (mkSymkron same A B) (Fine (m + 1)) := by
  unfold mkSymkron
  split
  · simp [Quick]
  · split
    · simp [Quick]
    · exact jp_quick (setSym_quick _ _) fun _ => Quick.ok (fine_symkron hA hB)

theorem mkScaled_quick {m : ℕ} (neg : Bool) (s : ℝ) {A : Op} (hA : Fine m A) :
    Quick (mkScaled neg s A) (Fine (m + 1)) := by
  unfold mkScaled
  refine Quick.bind (setSym_quick _ _) fun _ _ => Quick.bind (setLow_quick _ _) fun _ _ =>
    Quick.bind (setUp_quick _ _) fun _ _ => jp_quick ?_ fun _ => Quick.ok (fine_scaled hA)
  split <;> exact setPd_quick _ _

theorem fine_expandSum {m : ℕ} : ∀ {l : List Op}, (∀ a ∈ l, Fine m a) → ∀ a ∈ expandSum l, Fine m a
  | [], _, a, h => by simp [expandSum] at h
  | b :: l, hl, a, h => by
    have hb := hl b (by simp)
    have ih := fine_expandSum fun c hc => hl c (List.mem_cons_of_mem _ hc)
    cases b with
    | sum g k =>
      rw [expandSum] at h
      rcases List.mem_append.1 h with h | h
      · obtain ⟨h1, h2⟩ := hb
        rw [depth] at h1
        rw [Calm] at h2
        have := depth_le_depthL h
        exact ⟨by omega, h2.mem a h⟩
      · exact ih a h
    | _ =>
      rw [expandSum] at h
      · rcases List.mem_cons.1 h with rfl | h
        · exact hb
        · exact ih a h
      all_goals intros; contradiction

theorem mkSum_quick {m : ℕ} {l : List Op} (hl : ∀ a ∈ l, Fine m a) : Quick (mkSum l) (Fine (m + 1)) := by
  unfold mkSum
  cases l with
  | nil => simp [Quick]
  | cons a l =>
    dsimp only
    split
    · simp [Quick]
    · exact jp_quick (setSym_quick _ _) fun _ => jp_quick (setLow_quick _ _) fun _ =>
        jp_quick (setUp_quick _ _) fun _ => jp_quick (setPd_quick _ _) fun _ => Quick.ok (fine_sum (fine_expandSum hl))

theorem fine_expandProd {m : ℕ} : ∀ {l : List Op}, (∀ a ∈ l, Fine m a) → ∀ a ∈ expandProd l, Fine m a
  | [], _, a, h => by simp [expandProd] at h
  | b :: l, hl, a, h => by
    have hb := hl b (by simp)
    have ih := fine_expandProd fun c hc => hl c (List.mem_cons_of_mem _ hc)
    cases b with
    | prod g k =>
      rw [expandProd] at h
      rcases List.mem_append.1 h with h | h
      · obtain ⟨h1, h2⟩ := hb
        rw [depth] at h1
        rw [Calm] at h2
        have := depth_le_depthL h
        exact ⟨by omega, h2.mem a h⟩
      · exact ih a h
    | _ =>
      rw [expandProd] at h
      · rcases List.mem_cons.1 h with rfl | h
        · exact hb
        · exact ih a h
      all_goals intros; contradiction

theorem mkProd_quick {m : ℕ} {l : List Op} (hl : ∀ a ∈ l, Fine m a) : Quick (mkProd l) (Fine (m + 1)) := by
  unfold mkProd
  split
  · simp [Quick]
  · have := fine_expandProd hl
    split
    · simp [Quick]
    · next a t e =>
      rw [e] at this
      exact Quick.ok (fine_prod this)

theorem mkBlock_quick {m : ℕ} {l : List Op} (hl : ∀ a ∈ l, Fine m a) : Quick (mkBlock l) (Fine (m + 1)) := by
  unfold mkBlock
  split
  · simp [Quick]
  · exact Quick.bind (setSym_quick _ _) fun _ _ => Quick.bind (setPd_quick _ _) fun _ _ =>
      Quick.bind (setUp_quick _ _) fun _ _ => Quick.bind (setLow_quick _ _) fun _ _ => Quick.ok (fine_block hl)

theorem mkSelection_quick (idx : List ℕ) (r c : ℕ) : Quick (mkSelection idx r c) (Fine 0) := by
  unfold mkSelection
  split
  · simp [Quick]
  · split
    · simp [Quick]
    · exact Quick.ok ⟨by simp [depth], by simp [Calm]⟩

theorem mkEmbedding_quick (take put : List ℕ) (fill : ℝ) (r c : ℕ) :
    Quick (mkEmbedding take put fill r c) (Fine 0) := by
  unfold mkEmbedding
  split
  · simp [Quick]
  · refine Quick.ok ⟨by simp [depth], ?_⟩
    simp only [Calm, base]
    split <;> simp

theorem setProp_ok {c v x : Option Bool} (h : setProp c v = .ok x) : x = v := by
  unfold setProp at h
  split at h
  · next e => cases h; exact e
  · split at h
    · cases h
    · cases h; rfl

theorem setProp_val (c v : Option Bool) : Quick (setProp c v) fun x => x = v := by
  cases h : setProp c v with
  | ok x => exact setProp_ok h
  | error e =>
    have := setProp_quick c v
    rw [h] at this
    exact this

theorem copyFlags_quick (op t : Op) : Quick (copyFlags op t) fun t' => ∃ h : Hdr, t' = t.withHdr h ∧ h.fl.sym = op.fl.sym := by
  unfold copyFlags
  refine Quick.bind (setUp_quick _ _) fun h1 _ => Quick.bind (setLow_quick _ _) fun h2 _ =>
    Quick.bind (P := fun h => h.fl.sym = op.fl.sym) ?_ fun h3 e3 => Quick.bind (P := fun h => h.fl.sym = op.fl.sym) ?_
      fun h4 e4 => Quick.ok ⟨h4, rfl, e4⟩
  · unfold setSym
    split
    · simp [Quick]
    · exact Quick.bind (setProp_val _ _) fun x hx => Quick.ok hx
  · unfold setPd
    split
    · simp [Quick]
    · exact Quick.bind (setProp_val _ _) fun x hx => Quick.ok e3

theorem isIsotropic_quick (n : ℕ) (iso : Bool) (f : ℕ → ℝ) : Quick (isIsotropic n iso f) fun _ => True := by
  unfold isIsotropic
  split
  · exact trivial
  · split
    · simp [Quick]
    · exact trivial

/-! ## Scalar multiples, transposes, negatives -/

theorem fine_self {a : Op} (h : Calm a) : Fine (depth a) a := ⟨le_rfl, h⟩

theorem mulScalar_quick : ∀ (n : ℕ) (s : ℝ) {m : ℕ} {op : Op}, Fine m op → m < n →
    Quick (mulScalar n s op) (Fine (m + 1))
  | 0, _, _, _, _, h => absurd h (Nat.not_lt_zero _)
  | n + 1, s, m, op, hf, h => by
    have fb : Quick (mkScaled false s op) (Fine (m + 1)) := mkScaled_quick _ _ hf
    rw [mulScalar.eq_def]
    dsimp only
    split
    · refine Quick.bind (isIsotropic_quick _ _ _) fun i _ => ?_
      split <;> refine Quick.ok ⟨?_, ?_⟩ <;> simp [mkScalingIso, mkScalingAniso, depth, Calm]
    · next A B =>
      split
      · exact fb
      · obtain ⟨h1, h2⟩ := hf
        rw [depth] at h1
        rw [Calm] at h2
        obtain ⟨k, rfl⟩ : ∃ k, m = k + 1 := ⟨m - 1, by omega⟩
        exact Quick.bind (mulScalar_quick n _ (m := k) ⟨by omega, h2.1⟩ (by omega)) fun A' hA =>
          Quick.bind (mulScalar_quick n _ (m := k) ⟨by omega, h2.2⟩ (by omega)) fun B' hB => mkKron_quick hA hB
    · next k B =>
      obtain ⟨h1, h2⟩ := hf
      rw [depth] at h1
      rw [Calm] at h2
      obtain ⟨k, rfl⟩ : ∃ k, m = k + 1 := ⟨m - 1, by omega⟩
      exact Quick.bind (mulScalar_quick n _ (m := k) ⟨by omega, h2⟩ (by omega)) fun B' hB => mkIdkron_quick _ hB
    · exact Quick.ok fine_matrix
    · exact Quick.ok ⟨by simp [depth], by simp [Calm]⟩
    · exact fb

theorem mapM_fine {f : Op → Res Op} {m k : ℕ} {l : List Op} (hl : ∀ a ∈ l, Fine m a)
    (hf : ∀ a, Fine m a → Quick (f a) (Fine k)) : Quick (l.mapM f) fun l' => ∀ t ∈ l', Fine k t := by
  refine (Quick.mapM (P := fun _ t => Fine k t) fun a ha => hf a (hl a ha)).mono fun l' hl' => ?_
  clear hl
  induction hl' with
  | nil => simp
  | cons h _ ih =>
    intro t ht
    rcases List.mem_cons.1 ht with rfl | ht
    · exact h
    · exact ih t ht

theorem Fine.list {m : ℕ} {l : List Op} (h1 : depthL l + 1 ≤ m + 1) (h2 : CalmL l) : ∀ a ∈ l, Fine m a := fun a ha =>
  ⟨by have := depth_le_depthL ha; omega, h2.mem a ha⟩

theorem T_quick : ∀ (n : ℕ) {m : ℕ} {op : Op}, Fine m op → m + 1 < n → Quick (T n op) (Fine (m + 1))
  | 0, _, _, _, h => absurd h (Nat.not_lt_zero _)
  | n + 1, m, op, hf, h => by
    rw [T]
    split
    · exact Quick.ok (hf.mono (Nat.le_succ _))
    · next hsym =>
      have wrap : ∀ {r : Res Op}, Quick r (Fine (m + 1)) →
          Quick (r >>= fun t => copyFlags op t) (Fine (m + 1)) := fun hr =>
        Quick.bind hr fun t ht => (copyFlags_quick op t).mono fun t' ⟨g, e1, e2⟩ => by
          rw [e1]
          exact ⟨by rw [depth_withHdr]; exact ht.depth, calm_withHdr (by rw [e2]; exact hsym) ht.calm⟩
      refine wrap ?_
      clear wrap
      obtain ⟨h1, h2⟩ := hf
      cases op with
      | matrix g A => exact Quick.ok fine_matrix
      | lam g A => exact Quick.ok ⟨by simp [mkTransposed, depth], by simp [mkTransposed, Calm]⟩
      | identity g => exact Quick.ok ⟨by simp [depth], by simp [Calm]⟩
      | scaling g i f => exact Quick.ok ⟨by simp [depth], by simp [Calm]⟩
      | zero g => exact Quick.ok ⟨by simp [mkZero, depth], by simp [mkZero, Calm]⟩
      | symmetrize g m => exact Quick.ok ⟨by simp [mkTransposed, depth], by simp [mkTransposed, Calm]⟩
      | selection g idx => exact (mkEmbedding_quick _ _ _ _ _).mono fun t ht => ht.mono (by omega)
      | embedding g tk put fill => exact (mkSelection_quick _ _ _).mono fun t ht => ht.mono (by omega)
      | transposed g A =>
        rw [depth] at h1
        rw [Calm] at h2
        exact Quick.ok ⟨by omega, h2⟩
      | inverse g A =>
        refine Quick.ok ⟨?_, ?_⟩
        · simp only [mkTransposed, depth] at h1 ⊢
          omega
        · simpa only [mkTransposed, Calm] using h2
      | kron g A B =>
        rw [depth] at h1
        rw [Calm] at h2
        obtain ⟨k, rfl⟩ : ∃ k, m = k + 1 := ⟨m - 1, by omega⟩
        exact Quick.bind (T_quick n (m := k) ⟨by omega, h2.1⟩ (by omega)) fun A' hA =>
          Quick.bind (T_quick n (m := k) ⟨by omega, h2.2⟩ (by omega)) fun B' hB => mkKron_quick hA hB
      | idkron g _ B =>
        rw [depth] at h1
        rw [Calm] at h2
        obtain ⟨k, rfl⟩ : ∃ k, m = k + 1 := ⟨m - 1, by omega⟩
        exact Quick.bind (T_quick n (m := k) ⟨by omega, h2⟩ (by omega)) fun B' hB => mkIdkron_quick _ hB
      | symkron g same A B =>
        rw [depth] at h1
        rw [Calm] at h2
        obtain ⟨k, rfl⟩ : ∃ k, m = k + 1 := ⟨m - 1, by omega⟩
        refine Quick.bind (T_quick n (m := k) ⟨by omega, h2.1⟩ (by omega)) fun A' hA => ?_
        split
        · exact mkSymkron_quick _ hA hA
        · exact Quick.bind (T_quick n (m := k) ⟨by omega, h2.2⟩ (by omega)) fun B' hB => mkSymkron_quick _ hA hB
      | scaled g neg s A =>
        rw [depth] at h1
        rw [Calm] at h2
        obtain ⟨k, rfl⟩ : ∃ k, m = k + 1 := ⟨m - 1, by omega⟩
        exact Quick.bind (T_quick n (m := k) ⟨by omega, h2⟩ (by omega)) fun A' hA =>
          mulScalar_quick n s hA (by omega)
      | sum g l =>
        rw [depth] at h1
        rw [Calm] at h2
        obtain ⟨k, rfl⟩ : ∃ k, m = k + 1 := ⟨m - 1, by omega⟩
        exact Quick.bind (mapM_fine (Fine.list h1 h2) fun a ha => T_quick n ha (by omega)) fun l' hl' =>
          mkSum_quick hl'
      | prod g l =>
        rw [depth] at h1
        rw [Calm] at h2
        obtain ⟨k, rfl⟩ : ∃ k, m = k + 1 := ⟨m - 1, by omega⟩
        exact Quick.bind (mapM_fine (fun a ha => Fine.list h1 h2 a (List.mem_reverse.1 ha)) fun a ha =>
          T_quick n ha (by omega)) fun l' hl' => mkProd_quick hl'
      | block g l =>
        rw [depth] at h1
        rw [Calm] at h2
        obtain ⟨k, rfl⟩ : ∃ k, m = k + 1 := ⟨m - 1, by omega⟩
        exact Quick.bind (mapM_fine (Fine.list h1 h2) fun a ha => T_quick n ha (by omega)) fun l' hl' =>
          mkBlock_quick hl'

theorem negOp_quick : ∀ (n : ℕ) {m : ℕ} {op : Op}, Fine m op → m < n → Quick (negOp n op) (Fine (m + 1))
  | 0, _, _, _, h => absurd h (Nat.not_lt_zero _)
  | n + 1, m, op, hf, h => by
    rw [negOp.eq_def]
    dsimp only
    split
    · exact Quick.ok fine_matrix
    · obtain ⟨h1, h2⟩ := hf
      rw [depth] at h1
      rw [Calm] at h2
      exact Quick.ok ⟨by omega, h2⟩
    · next l =>
      obtain ⟨h1, h2⟩ := hf
      rw [depth] at h1
      rw [Calm] at h2
      obtain ⟨k, rfl⟩ : ∃ k, m = k + 1 := ⟨m - 1, by omega⟩
      exact Quick.bind (mapM_fine (Fine.list h1 h2) fun a ha => negOp_quick n ha (by omega)) fun l' hl' =>
        mkSum_quick hl'
    · exact mkScaled_quick _ _ hf

/-! ## Sums and differences -/

theorem eqOp_quick (env : Env) (a b : Op) : Quick (eqOp env a b) fun _ => True := by
  unfold eqOp
  split
  · exact trivial
  · exact trivial
  · split
    · exact trivial
    · refine Quick.bind (isIsotropic_quick _ _ _) fun i _ => Quick.bind (P := fun _ => True) ?_ fun j _ => ?_
      · split
        · exact isIsotropic_quick _ _ _
        · exact trivial
      · split
        · exact trivial
        · split <;> exact trivial
  · exact trivial
  · exact trivial
  all_goals first | exact trivial | (split <;> first | exact trivial | simp [Quick])

theorem isOrEq_quick (env : Env) (a b : Op) : Quick (isOrEq env a b) fun _ => True := by
  unfold isOrEq
  split
  · exact trivial
  · exact eqOp_quick env a b

theorem broadcast_quick (f : ℝ → ℝ → ℝ) (r c : ℕ) (A : Mat) (s d : ℕ) (B : Mat) (m : ℕ) :
    Quick (broadcast f r c A s d B) (Fine m) := by
  unfold broadcast
  split
  · exact Quick.ok fine_matrix
  · simp [Quick]

theorem option_quick {m : ℕ} {x : Res Op} (h : Quick x (Fine m)) :
    Quick (x >>= fun t => .ok (some t)) fun o => ∀ t, o = some t → Fine m t :=
  Quick.bind h fun a ha => Quick.ok fun t e => by cases e; exact ha

theorem fallback_quick {m : ℕ} {x : Res (Option Op)} {y : Res Op}
    (hx : Quick x fun o => ∀ t, o = some t → Fine m t) (hy : Quick y (Fine m)) :
    Quick (x >>= fun o => match o with | some t => .ok t | none => y) (Fine m) :=
  Quick.bind hx fun o ho => by
    cases o with
    | none => exact hy
    | some t => exact Quick.ok (ho t rfl)

theorem none_quick {m : ℕ} : Quick (.ok none : Res (Option Op)) fun o => ∀ t, o = some t → Fine m t :=
  Quick.ok fun t e => by cases e

theorem error_quick {α : Type _} {e : PyErr} (h : e ≠ .recursionError) {P : α → Prop} : Quick (.error e) P := h

theorem fine_pred_kron {m : ℕ} {h : Hdr} {A B : Op} (hf : Fine m (.kron h A B)) :
    ∃ k, m = k + 1 ∧ Fine k A ∧ Fine k B := by
  obtain ⟨h1, h2⟩ := hf
  rw [depth] at h1
  rw [Calm] at h2
  exact ⟨m - 1, by omega, ⟨by omega, h2.1⟩, ⟨by omega, h2.2⟩⟩

theorem fine_pred_idkron {m l : ℕ} {h : Hdr} {B : Op} (hf : Fine m (.idkron h l B)) : ∃ k, m = k + 1 ∧ Fine k B := by
  obtain ⟨h1, h2⟩ := hf
  rw [depth] at h1
  rw [Calm] at h2
  exact ⟨m - 1, by omega, ⟨by omega, h2⟩⟩

theorem fine_pred_scaled {m : ℕ} {h : Hdr} {g : Bool} {s : ℝ} {B : Op} (hf : Fine m (.scaled h g s B)) :
    ∃ k, m = k + 1 ∧ Fine k B := by
  obtain ⟨h1, h2⟩ := hf
  rw [depth] at h1
  rw [Calm] at h2
  exact ⟨m - 1, by omega, ⟨by omega, h2⟩⟩

theorem kronRule_quick {env : Env} {rec : Op → Op → Res Op} {k m : ℕ} {A B C D : Op} (hA : Fine k A) (hB : Fine k B)
    (hC : Fine k C) (hD : Fine k D) (hkm : k ≤ m) (hrec : ∀ x y, Fine k x → Fine k y → Quick (rec x y) (Fine m)) :
    Quick (do
      let p ← isOrEq env A C
      if p then do
        let S ← rec B D
        let r ← mkKron A S
        .ok (some r)
      else do
        let q ← isOrEq env B D
        if q then do
          let S ← rec A C
          let r ← mkKron S D
          .ok (some r)
        else .ok none : Res (Option Op)) fun o => ∀ t, o = some t → Fine (m + 1) t := by
  refine Quick.bind (isOrEq_quick _ _ _) fun p _ => ?_
  split
  · exact Quick.bind (hrec B D hB hD) fun S hS => option_quick (mkKron_quick (hA.mono hkm) hS)
  · refine Quick.bind (isOrEq_quick _ _ _) fun q _ => ?_
    split
    · exact Quick.bind (hrec A C hA hC) fun S hS => option_quick (mkKron_quick hS (hD.mono hkm))
    · exact none_quick

theorem addOp_quick {env : Env} : ∀ (n : ℕ) {m : ℕ} {a b : Op}, Fine m a → Fine m b → m < n →
    Quick (addOp env n a b) (Fine (m + 1))
  | 0, _, _, _, _, _, h => absurd h (Nat.not_lt_zero _)
  | n + 1, m, a, b, ha, hb, h => by
    have fb : Quick (mkSum [a, b]) (Fine (m + 1)) := mkSum_quick fun x hx => by
      simp only [List.mem_cons, List.not_mem_nil, or_false] at hx
      rcases hx with rfl | rfl
      · exact ha
      · exact hb
    rw [addOp]
    split
    · exact fb
    · next r _ =>
      refine fallback_quick ?_ fb
      unfold runAdd
      split
      · split
        · simp [Quick]
        · exact Quick.ok fun t e => by cases e; exact ⟨by simp [mkScalingAniso, depth], by simp [mkScalingAniso, Calm]⟩
      · obtain ⟨k, rfl, hA, hB⟩ := fine_pred_kron ha
        obtain ⟨k', e, hC, hD⟩ := fine_pred_kron hb
        obtain rfl : k = k' := by omega
        exact kronRule_quick hA hB hC hD (Nat.le_succ k) fun x y hx hy => addOp_quick n hx hy (by omega)
      · obtain ⟨k, rfl, hB⟩ := fine_pred_idkron ha
        obtain ⟨k', e, hD⟩ := fine_pred_idkron hb
        obtain rfl : k = k' := by omega
        split
        · exact Quick.bind (addOp_quick n hB hD (by omega)) fun S hS => option_quick (mkIdkron_quick _ hS)
        · exact none_quick
      · exact option_quick (broadcast_quick _ _ _ _ _ _ _ _)
      · split
        · simp [Quick]
        · exact Quick.ok fun t e => by cases e; exact hb.mono (Nat.le_succ m)
      · split
        · simp [Quick]
        · exact Quick.ok fun t e => by cases e; exact ha.mono (Nat.le_succ m)
      · simp [Quick]

theorem subOp_quick {env : Env} : ∀ (n : ℕ) {m : ℕ} {a b : Op}, Fine m a → Fine m b → m + 1 < n →
    Quick (subOp env n a b) (Fine (m + 2))
  | 0, _, _, _, _, _, h => absurd h (Nat.not_lt_zero _)
  | n + 1, m, a, b, ha, hb, h => by
    have fb : Quick (negOp n b >>= fun c => mkSum [a, c]) (Fine (m + 2)) :=
      Quick.bind (negOp_quick n hb (by omega)) fun c hc => mkSum_quick fun x hx => by
        simp only [List.mem_cons, List.not_mem_nil, or_false] at hx
        rcases hx with rfl | rfl
        · exact ha.mono (Nat.le_succ m)
        · exact hc
    rw [subOp]
    split
    · exact fb
    · next r _ =>
      refine fallback_quick ?_ fb
      unfold runSub
      split
      · split
        · simp [Quick]
        · exact Quick.ok fun t e => by cases e; exact ⟨by simp [mkScalingAniso, depth], by simp [mkScalingAniso, Calm]⟩
      · obtain ⟨k, rfl, hA, hB⟩ := fine_pred_kron ha
        obtain ⟨k', e, hC, hD⟩ := fine_pred_kron hb
        obtain rfl : k = k' := by omega
        exact kronRule_quick hA hB hC hD (by omega : k ≤ k + 2) fun x y hx hy => subOp_quick n hx hy (by omega)
      · obtain ⟨k, rfl, hB⟩ := fine_pred_idkron ha
        obtain ⟨k', e, hD⟩ := fine_pred_idkron hb
        obtain rfl : k = k' := by omega
        split
        · exact Quick.bind (subOp_quick n hB hD (by omega)) fun S hS => option_quick (mkIdkron_quick _ hS)
        · exact none_quick
      · exact option_quick (broadcast_quick _ _ _ _ _ _ _ _)
      · split
        · simp [Quick]
        · exact option_quick ((negOp_quick n hb (by omega)).mono fun t ht => ht.mono (by omega))
      · split
        · simp [Quick]
        · exact Quick.ok fun t e => by cases e; exact ha.mono (by omega)
      · simp [Quick]

end Probnum.Linops
