import Verif.Linops.PropsChol

/-!
# Property C78, continued: repeated calls of `cholesky` and the cached factor
-/

namespace Probnum.Linops

open Finset

/-- A linear operator together with `_cholesky_cache`. -/
structure CholObj where
  op : Op
  cache : Option Op

/-- `_linear_operator.py` 844-857: fills the cache if it is empty.  (`cholesky n op lower` is the factor with its triangle
marked; the code marks it after having assigned `is_positive_definite`, which cannot fail there.) -/
noncomputable def CholObj.fill (n : ℕ) (s : CholObj) (lower : Bool) : CholObj × Option PyErr :=
  match s.cache with
  | some _ => (s, none)
  | none =>
    match cholesky n s.op lower with
    | .ok c =>
      match s.op.assign setPd (some true) with
      | .ok op' => (⟨op', some c⟩, none)
      | .error e => (⟨s.op, some c⟩, some e)
    | .error .linAlgError =>
      match s.op.assign setPd (some false) with
      | .ok op' => (⟨op', none⟩, some .linAlgError)
      | .error e => (s, some e)
    | .error e => (s, some e)

/-- `_linear_operator.py` 859-872: the cached factor, or its transpose. -/
noncomputable def fromCache (n : ℕ) (c : Op) (lower : Bool) : Res Op :=
  if (lower ∧ c.fl.low = some true) ∨ (¬ lower ∧ c.fl.up = some true) then .ok c
  else if ¬ (c.fl.low = some true ∨ c.fl.up = some true) then .error .assertionError
  else T n c

/-- `cholesky(lower)` as a method of the object (`_linear_operator.py` 836-872). -/
noncomputable def CholObj.call (n : ℕ) (s : CholObj) (lower : Bool) : CholObj × Res Op :=
  if s.op.fl.sym ≠ some true then (s, .error .linAlgError)
  else if s.op.fl.pd = some false then (s, .error .linAlgError)
  else
    let (s', e) := s.fill n lower
    match e, s'.cache with
    | some e, _ => (s', .error e)
    | none, none => (s', .error .attributeError)
    | none, some c => (s', fromCache n c lower)

/-- The results of a sequence of calls on the same object (exceptions are caught by the caller). -/
noncomputable def CholObj.calls (n : ℕ) : CholObj → List Bool → List (Res Op)
  | _, [] => []
  | s, lower :: l => (s.call n lower).2 :: CholObj.calls n (s.call n lower).1 l

/-! ## Proofs -/

theorem ActsLike.factorOp {r : ℕ} {lower : Bool} {M : Mat} {c : Op} (h : ActsLike r (den c) c) (hf : IsFactor r lower M (den c)) :
    FactorOp r lower M c :=
  ⟨h.rows, h.cols, hf, fun m _ e => (h.dense m).elim e, fun m _ k x _ e => (h.mat m k x).elim e⟩

/-- The cached factor answers both kinds of calls. -/
theorem fromCache_meets {n r : ℕ} {l₀ : Bool} {M : Mat} {c : Op} (h : CholRes r l₀ M c) (lower : Bool) :
    Meets (fromCache n c lower) (FactorOp r lower M) := by
  have hany : c.fl.low = some true ∨ c.fl.up = some true := by
    have := h.own
    cases l₀
    · exact .inr this
    · exact .inl this
  have hsel : ((lower ∧ c.fl.low = some true) ∨ (¬ lower ∧ c.fl.up = some true)) ↔ own lower c.fl = some true := by
    cases lower <;> simp [own]
  unfold fromCache
  rw [if_neg (not_not.2 hany)]
  by_cases hl : lower = l₀
  · subst hl
    rw [if_pos (hsel.2 h.own)]
    exact Meets.ok h.factorOp
  have hl : lower = !l₀ := by cases lower <;> cases l₀ <;> simp_all
  subst hl
  by_cases ho : own (!l₀) c.fl = some true
  · rw [if_pos (hsel.2 ho)]
    refine Meets.ok (h.acts.factorOp ?_)
    rcases h.oth with e | e
    · rw [e] at ho; cases ho
    · exact h.factor.trn.congr_left (h.symm e.2).2
  · rw [if_neg fun e => ho (hsel.1 e)]
    exact (h.tr n).mono fun t ht => ht.acts.factorOp (h.factor.trn.congr_left ht.den.symm)

/-- States that calls on an object that starts as `op` can lead to. -/
def Reach (op : Op) (s : CholObj) : Prop :=
  s = ⟨op, none⟩ ∨ (∃ c l₀, s.cache = some c ∧ CholRes op.rows l₀ (den op) c) ∨ s.op.fl.pd = some false

theorem assign_pd {op op' : Op} {b : Bool} (h : op.assign setPd (some b) = .ok op') : op'.fl.pd = some b := by
  unfold Op.assign setPd at h
  obtain ⟨h0, e0, h⟩ := bind_ok h
  cases h
  split at e0
  · cases e0
  · obtain ⟨v, ev, e0⟩ := bind_ok e0
    cases e0
    simp only [Op.fl, hdr_withHdr]
    unfold setProp at ev
    split at ev
    · next hc => cases ev; exact hc
    · split at ev
      · cases ev
      · cases ev; rfl

theorem call_reach {full : Prop} {op : Op} (hV : Valid full op) (n : ℕ) {s : CholObj} (hs : Reach op s) (lower : Bool) :
    Reach op (s.call n lower).1 ∧ ∀ c, (s.call n lower).2 = .ok c → FactorOp op.rows lower (den op) c := by
  unfold CholObj.call
  by_cases h1 : s.op.fl.sym ≠ some true
  · rw [if_pos h1]
    exact ⟨hs, fun c h => by cases h⟩
  rw [if_neg h1]
  by_cases h2 : s.op.fl.pd = some false
  · rw [if_pos h2]
    exact ⟨hs, fun c h => by cases h⟩
  rw [if_neg h2]
  have cached : ∀ {s : CholObj} {c : Op} {l₀ : Bool}, s.cache = some c → CholRes op.rows l₀ (den op) c →
      Reach op s ∧ ∀ d, fromCache n c lower = .ok d → FactorOp op.rows lower (den op) d := fun e hc =>
    ⟨.inr (.inl ⟨_, _, e, hc⟩), fun d hd => (fromCache_meets hc lower).elim hd⟩
  rcases hs with rfl | ⟨c, l₀, hc, hres⟩ | hf
  · simp only [CholObj.fill]
    rcases hch : cholesky n op lower with e | c
    · cases e
      case linAlgError =>
        rcases ha : op.assign setPd (some false) with e | op'
        · exact ⟨.inl rfl, fun c h => by cases h⟩
        · exact ⟨.inr (.inr (assign_pd ha)), fun c h => by cases h⟩
      all_goals exact ⟨.inl rfl, fun c h => by cases h⟩
    · have hres := cholesky_res n hV hch
      rcases ha : op.assign setPd (some true) with e | op'
      · exact ⟨.inr (.inl ⟨c, lower, rfl, hres⟩), fun c h => by cases h⟩
      · exact cached (s := ⟨op', some c⟩) rfl hres
  · simp only [CholObj.fill, hc]
    exact cached hc hres
  · exact absurd hf h2

/-- **Every history of calls.**  However often `cholesky` is called on an operator, and with whatever values of `lower`,
each call that returns gives the factor that it asked for. -/
theorem calls_factor {full : Prop} {op : Op} (hV : Valid full op) (n : ℕ) (ls : List Bool) :
    List.Forall₂ (fun lower r => ∀ c, r = .ok c → FactorOp op.rows lower (den op) c) ls
      (CholObj.calls n ⟨op, none⟩ ls) := by
  have : ∀ s, Reach op s → List.Forall₂ (fun lower r => ∀ c, r = .ok c → FactorOp op.rows lower (den op) c) ls
      (CholObj.calls n s ls) := by
    induction ls with
    | nil => exact fun _ _ => .nil
    | cons lower l ih =>
      intro s hs
      have := call_reach hV n hs lower
      exact .cons this.2 (ih _ this.1)
  exact this _ (.inl rfl)

theorem fine_assign {m : ℕ} {c d : Op} {lower : Bool} (hc : Fine m c)
    (h : (if lower then c.assign setLow (some true) else c.assign setUp (some true)) = .ok d) : Fine m d := by
  have key : ∀ {g : Hdr}, g.fl.sym = c.fl.sym → Fine m (c.withHdr g) := by
    intro g hg
    refine ⟨by rw [depth_withHdr]; exact hc.depth, ?_⟩
    have hcalm := hc.calm
    cases c <;> first | exact hcalm | (rw [Op.withHdr, Calm, hg]; rw [Calm] at hcalm; exact hcalm)
  cases lower
  · simp only [Bool.false_eq_true, if_false, Op.assign] at h
    obtain ⟨g, eg, h⟩ := bind_ok h
    cases h
    unfold setUp at eg
    obtain ⟨v, _, eg⟩ := bind_ok eg
    cases eg
    exact key rfl
  · simp only [if_true, Op.assign] at h
    obtain ⟨g, eg, h⟩ := bind_ok h
    cases h
    unfold setLow at eg
    obtain ⟨v, _, eg⟩ := bind_ok eg
    cases eg
    exact key rfl

theorem Quick.elim {α : Type _} {r : Res α} {P : α → Prop} (h : Quick r P) {a : α} (e : r = .ok a) : P a := by
  subst e; exact h

/-- A factor is not deeper than the operator. -/
theorem cholesky_fine : ∀ (n : ℕ) {m : ℕ} {op c : Op} {lower : Bool}, Fine m op → cholesky n op lower = .ok c → Fine m c
  | 0, _, _, _, _, _, h => by rw [cholesky] at h; cases h
  | n + 1, m, op, c, lower, hf, h => by
    rw [cholesky] at h
    by_cases hs : op.fl.sym ≠ some true
    · rw [if_pos hs] at h; cases h
    rw [if_neg hs] at h
    by_cases hp : op.fl.pd = some false
    · rw [if_pos hp] at h; cases h
    rw [if_neg hp] at h
    obtain ⟨c0, hc0, h⟩ := bind_ok h
    refine fine_assign ?_ h
    have gen : (do
        let D ← todense n op
        let L ← chol op.rows lower D
        (.ok (mkMatrix op.rows op.cols L) : Res Op)) = .ok c0 → Fine m c0 := by
      intro h
      obtain ⟨D, _, h⟩ := bind_ok h
      obtain ⟨L, _, h⟩ := bind_ok h
      cases h
      exact fine_matrix
    cases op with
    | matrix _ _ => exact gen hc0
    | lam _ _ => exact gen hc0
    | zero _ => exact gen hc0
    | symmetrize _ _ => exact gen hc0
    | scaled _ _ _ _ => exact gen hc0
    | sum _ _ => exact gen hc0
    | prod _ _ => exact gen hc0
    | inverse _ _ => exact gen hc0
    | selection _ _ => exact gen hc0
    | embedding _ _ _ _ => exact gen hc0
    | transposed hd A =>
      dsimp only at hc0
      rcases cholesky_transposed hd A lower n with e | e <;> rw [e] at hc0 <;> cases hc0
    | identity hd =>
      cases hc0
      exact hf
    | scaling hd iso f =>
      dsimp only at hc0
      split at hc0
      · cases hc0
      · split at hc0 <;> cases hc0
        · exact ⟨by simp [mkScalingIso, depth], by simp [mkScalingIso, Calm]⟩
        · exact ⟨by simp [mkScalingAniso, depth], by simp [mkScalingAniso, Calm]⟩
    | kron hd A B =>
      obtain ⟨hd1, hd2⟩ := hf
      rw [depth] at hd1
      rw [Calm] at hd2
      obtain ⟨k, rfl⟩ : ∃ k, m = k + 1 := ⟨m - 1, by omega⟩
      dsimp only at hc0
      split at hc0
      · cases hc0
      · obtain ⟨A', eA, hc0⟩ := bind_ok hc0
        obtain ⟨B', eB, hc0⟩ := bind_ok hc0
        exact (mkKron_quick (cholesky_fine n ⟨by omega, hd2.1⟩ eA) (cholesky_fine n ⟨by omega, hd2.2⟩ eB)).elim hc0
    | idkron hd k B =>
      obtain ⟨hd1, hd2⟩ := hf
      rw [depth] at hd1
      rw [Calm] at hd2
      obtain ⟨k', rfl⟩ : ∃ k, m = k + 1 := ⟨m - 1, by omega⟩
      obtain ⟨B', eB, hc0⟩ := bind_ok hc0
      exact (mkIdkron_quick k (cholesky_fine n ⟨by omega, hd2⟩ eB)).elim hc0
    | symkron hd same A B =>
      cases same with
      | false => exact gen hc0
      | true =>
        obtain ⟨hd1, hd2⟩ := hf
        rw [depth] at hd1
        rw [Calm] at hd2
        obtain ⟨k, rfl⟩ : ∃ k, m = k + 1 := ⟨m - 1, by omega⟩
        dsimp only at hc0
        rw [if_pos rfl] at hc0
        obtain ⟨A', eA, hc0⟩ := bind_ok hc0
        have fA := cholesky_fine n (m := k) ⟨by omega, hd2.1⟩ eA
        exact (mkSymkron_quick true fA fA).elim hc0
    | block hd l =>
      dsimp only at hc0
      split at hc0
      · obtain ⟨hd1, hd2⟩ := hf
        rw [depth] at hd1
        rw [Calm] at hd2
        obtain ⟨k, rfl⟩ : ∃ k, m = k + 1 := ⟨m - 1, by omega⟩
        obtain ⟨l', el, hc0⟩ := bind_ok hc0
        have hm := forall₂_right (forall₂_mem (mapM_ok el))
        refine (mkBlock_quick fun b hb => ?_).elim hc0
        obtain ⟨a, ha, _, e⟩ := hm b hb
        exact cholesky_fine n ⟨by have := depth_le_depthL ha; omega, hd2.mem a ha⟩ e
      · exact gen hc0

theorem call_cached {n r m : ℕ} {M : Mat} {s : CholObj} {c : Op} {l₀ : Bool} (hc : s.cache = some c)
    (hres : CholRes r l₀ M c) (hsym : s.op.fl.sym = some true) (hpd : s.op.fl.pd ≠ some false) (hf : Fine m c)
    (hn : m + 2 ≤ n) (lower : Bool) :
    (s.call n lower).1 = s ∧ ∃ d, (s.call n lower).2 = .ok d ∧ FactorOp r lower M d := by
  unfold CholObj.call
  rw [if_neg (not_not.2 hsym), if_neg hpd]
  simp only [CholObj.fill, hc, true_and]
  have hq : Quick (fromCache n c lower) fun _ => True := by
    unfold fromCache
    split
    · exact trivial
    · split
      · simp [Quick]
      · exact (T_quick n hf (by omega)).mono fun _ _ => trivial
  obtain ⟨d, e, hd, _⟩ := (fromCache_meets hres lower).returns hq
  exact ⟨d, e, hd⟩

/-- A positive definite operator: all calls return the factor they ask for. -/
theorem calls_pd {n m : ℕ} {op : Op} (hV : Valid True op) (hs : op.fl.sym = some true) (hR : Ready op) (hf : Fine m op)
    (hn : 4 * m + 7 ≤ n) (hP : IsPd op.rows op.rows (den op)) (ls : List Bool) :
    List.Forall₂ (fun lower r => ∃ c, r = .ok c ∧ FactorOp op.rows lower (den op) c) ls
      (CholObj.calls n ⟨op, none⟩ ls) := by
  have hsq := hV.node.coh.square hs
  have hpd : op.fl.pd ≠ some false := fun e => hV.node.sound.pd.2 trivial e (by rw [← hsq]; exact hP)
  have cached : ∀ (ls : List Bool) {s : CholObj} {c : Op} {l₀ : Bool}, s.cache = some c →
      CholRes op.rows l₀ (den op) c → s.op.fl.sym = some true → s.op.fl.pd ≠ some false → Fine m c →
      List.Forall₂ (fun lower r => ∃ c, r = .ok c ∧ FactorOp op.rows lower (den op) c) ls (CholObj.calls n s ls) := by
    intro ls
    induction ls with
    | nil => intros; exact .nil
    | cons lower l ih =>
      intro s c l₀ h1 h2 h3 h4 h5
      obtain ⟨e1, e2⟩ := call_cached h1 h2 h3 h4 h5 (by omega : m + 2 ≤ n) lower
      rw [CholObj.calls, e1]
      exact .cons e2 (ih h1 h2 h3 h4 h5)
  cases ls with
  | nil => exact .nil
  | cons lower l =>
    obtain ⟨c, ec, _⟩ := (cholesky_decides lower hV hs hR hf hn).1 hP
    have hres := cholesky_res n hV ec
    have hfc := cholesky_fine n hf ec
    have ha : op.assign setPd (some true) = .ok (op.withFl { op.fl with pd := some true }) := by
      unfold Op.assign
      have hpd' : op.hdr.fl.pd = none ∨ op.hdr.fl.pd = some true := by
        rcases e : op.hdr.fl.pd with _ | _ | _
        · exact .inl rfl
        · exact absurd e hpd
        · exact .inr rfl
      rw [setPd_le hpd' (fun _ => hs), ok_bind]
      rfl
    have first : (CholObj.call n ⟨op, none⟩ lower) =
        (⟨op.withFl { op.fl with pd := some true }, some c⟩, fromCache n c lower) := by
      unfold CholObj.call
      rw [if_neg (not_not.2 hs), if_neg hpd]
      simp only [CholObj.fill, ec, ha]
    rw [CholObj.calls, first]
    have hsel : fromCache n c lower = .ok c := by
      unfold fromCache
      rw [if_pos]
      have := hres.own
      cases lower
      · exact .inr ⟨by simp, this⟩
      · exact .inl ⟨rfl, this⟩
    rw [hsel]
    exact .cons ⟨c, rfl, hres.factorOp⟩ (cached l rfl hres (by simpa using hs) (by simp) hfc)

/-- An operator that is not positive definite: all calls raise `LinAlgError`, and it is marked after the first. -/
theorem calls_not_pd {n m : ℕ} {op : Op} (hV : Valid True op) (hs : op.fl.sym = some true) (hR : Ready op)
    (hf : Fine m op) (hn : 4 * m + 7 ≤ n) (hP : ¬ IsPd op.rows op.rows (den op)) (ls : List Bool) :
    CholObj.calls n ⟨op, none⟩ ls = ls.map fun _ => .error .linAlgError := by
  have hsq := hV.node.coh.square hs
  have marked : ∀ (ls : List Bool) {s : CholObj}, s.op.fl.sym = some true → s.op.fl.pd = some false →
      CholObj.calls n s ls = ls.map fun _ => .error .linAlgError := by
    intro ls
    induction ls with
    | nil => intros; rfl
    | cons lower l ih =>
      intro s h1 h2
      have : s.call n lower = (s, .error .linAlgError) := by
        unfold CholObj.call
        rw [if_neg (not_not.2 h1), if_pos h2]
      rw [CholObj.calls, this, ih h1 h2]
      rfl
  by_cases hpd : op.fl.pd = some false
  · exact marked ls hs hpd
  cases ls with
  | nil => rfl
  | cons lower l =>
    have ec := (cholesky_decides lower hV hs hR hf hn).2 hP
    have hpd' : op.hdr.fl.pd = none := by
      rcases e : op.hdr.fl.pd with _ | _ | _
      · rfl
      · exact absurd e hpd
      · exact absurd (by have := hV.node.sound.pd.1 e; rwa [← hsq] at this) hP
    have ha : op.assign setPd (some false) = .ok (op.withFl { op.fl with pd := some false }) := by
      unfold Op.assign
      rw [setPd_le (.inl hpd') (by simp), ok_bind]
      rfl
    have first : (CholObj.call n ⟨op, none⟩ lower) =
        (⟨op.withFl { op.fl with pd := some false }, none⟩, .error .linAlgError) := by
      unfold CholObj.call
      rw [if_neg (not_not.2 hs), if_neg hpd]
      simp only [CholObj.fill, ec, ha]
    rw [CholObj.calls, first, marked l (by simpa using hs) (by simp)]
    rfl

/-! ## Examples and disagreements -/

/-- `Kronecker(Scaling(s, shape=(k, k)), Scaling(t, shape=(k, k)))`. -/
noncomputable def scalKron (k : ℕ) (s t : ℝ) : Op :=
  build (.kron ⟨k * k, k * k, ⟨none, none, none, none⟩⟩ (mkScalingIso k s) (mkScalingIso k t))

theorem mkKron_scal (k : ℕ) (s t : ℝ) : mkKron (mkScalingIso k s) (mkScalingIso k t) = .ok (scalKron k s t) :=
  mkKron_eq ⟨fun h => absurd rfl h, fun _ => rfl⟩ ⟨fun h => absurd rfl h, fun _ => rfl⟩ _

theorem scalKron_valid {full : Prop} {k : ℕ} (hk : 0 < k) (s t : ℝ) : Valid full (scalKron k s t) :=
  valid_kron (valid_scalingIso hk s) (valid_scalingIso hk t) _

theorem scalKron_fl (k : ℕ) (s t : ℝ) : (scalKron k s t).fl = ⟨some true, none, none, none⟩ := by
  rw [scalKron, build, fl_withFl, derived, if_pos ⟨rfl, rfl⟩]
  simp [base]

theorem scalKron_rows (k : ℕ) (s t : ℝ) : (scalKron k s t).rows = k * k := by
  rw [scalKron, build, rows_withFl]; rfl

theorem scalKron_den (k : ℕ) (s t : ℝ) : den (scalKron k s t) = kronM k k (s • eye) (t • eye) := by
  rw [scalKron, build, den_withFl, den, mkScalingIso, mkScalingIso, den, den]
  funext i j
  simp only [kronM, eye, Op.rows, Op.cols, Op.hdr]
  by_cases h1 : i / k = j / k <;> by_cases h2 : i % k = j % k <;> simp [eye, h1, h2]

theorem scalKron_pd {k : ℕ} (hk : 0 < k) {s t : ℝ} (h : 0 < s * t) :
    IsPd (k * k) (k * k) (den (scalKron k s t)) := by
  have e : Eqv (k * k) (k * k) (den (scalKron k s t)) (fun i j => if i = j then s * t else 0) := by
    rw [scalKron_den]
    intro i hi j hj
    simp only [kronM, eye]
    show s * _ * (t * _) = _
    by_cases hij : i = j
    · subst hij
      simp [eye]
    · rw [if_neg hij]
      by_cases h1 : i / k = j / k
      · have h2 : i % k ≠ j % k := fun h2 => hij (by rw [← Nat.div_add_mod i k, ← Nat.div_add_mod j k, h1, h2])
        simp [eye, h2]
      · simp [eye, h1]
  refine ⟨rfl, ?_⟩
  rw [eqv_iff_toM] at e
  rw [e]
  exact (isPd_diag.2 fun _ _ => h).2

/-- A case that meets the hypotheses of `cholesky_decides`, `calls_factor` and `calls_pd`. -/
example : Valid True (scalKron 2 3 5) ∧ (scalKron 2 3 5).fl.sym = some true ∧ Ready (scalKron 2 3 5) ∧
    Fine 1 (scalKron 2 3 5) ∧ IsPd (scalKron 2 3 5).rows (scalKron 2 3 5).rows (den (scalKron 2 3 5)) := by
  refine ⟨scalKron_valid (by norm_num) _ _, by rw [scalKron_fl], ?_, ⟨?_, ?_⟩, ?_⟩
  · simp only [scalKron, build, Op.withFl, Op.withHdr, Ready]
    refine ⟨rfl, rfl, fun h => ?_, by simp [mkScalingIso, Ready], by simp [mkScalingIso, Ready]⟩
    have h := h.diag_pos (i := 0) (show 0 < (mkScalingIso 2 3).rows by decide)
    have h : 0 < -(den (mkScalingIso 2 3) 0 0) := h
    rw [mkScalingIso, den] at h
    simp at h
    linarith
  · simp [scalKron, build, Op.withFl, Op.withHdr, depth, mkScalingIso]
  · simp [scalKron, build, Op.withFl, Op.withHdr, Calm, mkScalingIso]
  · rw [scalKron_rows]; exact scalKron_pd (by norm_num) (by norm_num)

/-- A case that meets the hypotheses of `calls_not_pd`. -/
example : Valid True (scalKron 2 3 (-5)) ∧ (scalKron 2 3 (-5)).fl.sym = some true ∧ Ready (scalKron 2 3 (-5)) ∧
    Fine 1 (scalKron 2 3 (-5)) ∧ ¬ IsPd (scalKron 2 3 (-5)).rows (scalKron 2 3 (-5)).rows (den (scalKron 2 3 (-5))) := by
  refine ⟨scalKron_valid (by norm_num) _ _, by rw [scalKron_fl], ?_, ⟨?_, ?_⟩, fun h => ?_⟩
  · simp only [scalKron, build, Op.withFl, Op.withHdr, Ready]
    refine ⟨rfl, rfl, fun h => ?_, by simp [mkScalingIso, Ready], by simp [mkScalingIso, Ready]⟩
    have h := h.diag_pos (i := 0) (show 0 < (mkScalingIso 2 3).rows by decide)
    have h : 0 < -(den (mkScalingIso 2 3) 0 0) := h
    rw [mkScalingIso, den] at h
    simp at h
    linarith
  · simp [scalKron, build, Op.withFl, Op.withHdr, depth, mkScalingIso]
  · simp [scalKron, build, Op.withFl, Op.withHdr, Calm, mkScalingIso]
  · rw [scalKron_rows] at h
    have h := h.diag_pos (i := 0) (by norm_num)
    rw [scalKron_den] at h
    simp [kronM, eye] at h
    linarith

/-- **Disagreement.**  The Kronecker product of two negative definite scalings is positive definite, but `cholesky`
raises `LinAlgError`, and marks the operator as not positive definite. -/
theorem cholesky_negative_factors {k : ℕ} (hk : 0 < k) (n : ℕ) (lower : Bool) :
    mkKron (mkScalingIso k (-1)) (mkScalingIso k (-1)) = .ok (scalKron k (-1) (-1)) ∧
      IsPd (k * k) (k * k) (den (scalKron k (-1) (-1))) ∧
      (CholObj.call (n + 2) ⟨scalKron k (-1) (-1), none⟩ lower).2 = .error .linAlgError ∧
      (CholObj.call (n + 2) ⟨scalKron k (-1) (-1), none⟩ lower).1.op.fl.pd = some false := by
  have fl := scalKron_fl k (-1) (-1)
  have e0 : cholesky (n + 1) (mkScalingIso k (-1)) lower = .error .linAlgError := by
    rw [cholesky]
    split
    · rfl
    · split
      · rfl
      · simp only [mkScalingIso]
        rw [if_pos ⟨0, hk, by norm_num⟩]
        rfl
  have ec : cholesky (n + 2) (scalKron k (-1) (-1)) lower = .error .linAlgError := by
    rw [cholesky, if_neg (by rw [fl]; simp), if_neg (by rw [fl]; simp)]
    simp only [scalKron, build, Op.withFl, Op.withHdr]
    rw [if_neg (not_not.2 ⟨rfl, rfl⟩), e0]
    rfl
  have ha : (scalKron k (-1) (-1)).assign setPd (some false) =
      .ok ((scalKron k (-1) (-1)).withFl { (scalKron k (-1) (-1)).fl with pd := some false }) := by
    unfold Op.assign
    rw [setPd_le (.inl (congrArg Flags.pd fl)) (by simp), ok_bind]
    rfl
  have : CholObj.call (n + 2) ⟨scalKron k (-1) (-1), none⟩ lower =
      (⟨(scalKron k (-1) (-1)).withFl { (scalKron k (-1) (-1)).fl with pd := some false }, none⟩, .error .linAlgError) := by
    unfold CholObj.call
    rw [if_neg (by rw [fl]; simp), if_neg (by rw [fl]; simp)]
    simp only [CholObj.fill, ec, ha]
  refine ⟨mkKron_scal _ _ _, scalKron_pd hk (by norm_num), ?_, ?_⟩
  · rw [this]
  · rw [this]; simp

/-- **Disagreement.**  The upper factor that a Kronecker product of scalings returns after its lower factor was computed
has the right matrix, but `is_upper_triangular` is `None`. -/
theorem second_factor_unmarked {n k : ℕ} (hk : 0 < k) (hn : 11 ≤ n) : ∃ c d : Op,
    CholObj.calls n ⟨scalKron k 1 1, none⟩ [true, false] = [.ok c, .ok d] ∧ c.fl.low = some true ∧ d.fl.up = none ∧
      FactorOp (k * k) false (den (scalKron k 1 1)) d := by
  have fl := scalKron_fl k 1 1
  have e1 : ∀ m, cholesky (m + 1) (mkScalingIso k 1) true = .ok (mkScalingIso k 1) := by
    intro m
    rw [cholesky, if_neg (show ¬ (mkScalingIso k 1).fl.sym ≠ some true from not_not.2 rfl),
      if_neg (by simp [mkScalingIso, Op.fl, Op.hdr])]
    simp only [mkScalingIso]
    rw [if_neg (by push Not; intro _ _; norm_num), if_pos trivial, Real.sqrt_one, ok_bind,
      if_pos trivial]
    simp [mkScalingIso, Op.assign, setLow, setProp, Op.hdr, Op.withHdr, bind, Except.bind]
  set c : Op := (scalKron k 1 1).withFl ⟨some true, some true, none, none⟩ with hc
  have ec : cholesky n (scalKron k 1 1) true = .ok c := by
    obtain ⟨m, rfl⟩ : ∃ m, n = m + 2 := ⟨n - 2, by omega⟩
    rw [cholesky, if_neg (by rw [fl]; simp), if_neg (by rw [fl]; simp)]
    have : (scalKron k 1 1) = .kron ⟨k * k, k * k, ⟨some true, none, none, none⟩⟩ (mkScalingIso k 1) (mkScalingIso k 1) := by
      have e := withFl_self (scalKron k 1 1)
      rw [fl] at e
      rw [← e]
      simp [scalKron, build, Op.withFl, Op.withHdr, Op.rows, Op.cols, Op.hdr]
    conv_lhs => rw [this]
    simp only
    rw [if_neg (not_not.2 ⟨rfl, rfl⟩), e1, ok_bind, ok_bind, mkKron_scal, ok_bind, if_pos trivial]
    have hl : (scalKron k 1 1).hdr.fl.low = none := congrArg Flags.low fl
    unfold Op.assign
    rw [setLow_le (.inl hl), ok_bind, hc]
    rw [show (scalKron k 1 1).hdr.fl = ⟨some true, none, none, none⟩ from fl]
    rfl
  have hres := cholesky_res n (scalKron_valid (full := True) hk 1 1) ec
  have cfl : c.fl = ⟨some true, some true, none, none⟩ := by rw [hc, fl_withFl]
  have ha : (scalKron k 1 1).assign setPd (some true) =
      .ok ((scalKron k 1 1).withFl { (scalKron k 1 1).fl with pd := some true }) := by
    unfold Op.assign
    rw [setPd_le (.inl (congrArg Flags.pd fl)) (fun _ => congrArg Flags.sym fl), ok_bind]
    rfl
  have first : CholObj.call n ⟨scalKron k 1 1, none⟩ true =
      (⟨(scalKron k 1 1).withFl { (scalKron k 1 1).fl with pd := some true }, some c⟩, .ok c) := by
    unfold CholObj.call
    rw [if_neg (by rw [fl]; simp), if_neg (by rw [fl]; simp)]
    simp only [CholObj.fill, ec, ha]
    unfold fromCache
    rw [if_pos (.inl ⟨rfl, congrArg Flags.low cfl⟩)]
  have second : fromCache n c false = .ok c := by
    unfold fromCache
    rw [if_neg (by simp [cfl]), if_neg (by simp [cfl])]
    obtain ⟨m, rfl⟩ : ∃ m, n = m + 1 := ⟨n - 1, by omega⟩
    rw [T, if_pos (congrArg Flags.sym cfl)]
  refine ⟨c, c, ?_, congrArg Flags.low cfl, congrArg Flags.up cfl, ?_⟩
  · rw [CholObj.calls, first, CholObj.calls]
    have : CholObj.call n ⟨(scalKron k 1 1).withFl { (scalKron k 1 1).fl with pd := some true }, some c⟩ false =
        (⟨(scalKron k 1 1).withFl { (scalKron k 1 1).fl with pd := some true }, some c⟩, .ok c) := by
      unfold CholObj.call
      rw [if_neg (by simp [fl]), if_neg (by simp)]
      simp only [CholObj.fill, second]
    rw [this]
    rfl
  · have := (fromCache_meets (n := n) hres false).elim second
    rwa [scalKron_rows] at this

/-- **Disagreement.**  An identity-Kronecker product of a positive definite block, marked symmetric (and positive
definite) by the user, has no factor if its block is not marked symmetric, too: `LinAlgError`. -/
theorem cholesky_unmarked_block (n k : ℕ) (B : Op) (hB : B.fl.sym ≠ some true) (h : Hdr) (hs : h.fl.sym = some true)
    (lower : Bool) : cholesky (n + 2) (.idkron h k B) lower = .error .linAlgError := by
  rw [cholesky]
  split
  · rfl
  · split
    · rfl
    · simp only
      rw [cholesky, if_pos hB]
      rfl

/-- The same for a Kronecker product, where the exception is an `AssertionError`. -/
theorem cholesky_unmarked_kron (n : ℕ) (A B : Op) (hB : A.fl.sym ≠ some true ∨ B.fl.sym ≠ some true) (h : Hdr)
    (hs : h.fl.sym = some true) (hp : h.fl.pd ≠ some false) (lower : Bool) :
    cholesky (n + 1) (.kron h A B) lower = .error .assertionError := by
  rw [cholesky, if_neg (show ¬ (Op.kron h A B).fl.sym ≠ some true from not_not.2 hs),
    if_neg (show ¬ (Op.kron h A B).fl.pd = some false from hp)]
  simp only
  rw [if_pos (by tauto)]
  rfl

/-- The two theorems above apply to valid, positive definite operators: the identity, as a Kronecker product of unmarked
matrices, marked symmetric. -/
example : Valid True (.kron ⟨1, 1, ⟨some true, none, none, none⟩⟩ (mkMatrix 1 1 eye) (mkMatrix 1 1 eye)) ∧
    Valid True (.idkron ⟨2, 2, ⟨some true, none, none, none⟩⟩ 2 (mkMatrix 1 1 eye)) ∧
    (mkMatrix 1 1 eye).fl.sym ≠ some true ∧
    IsPd 2 2 (den (.idkron ⟨2, 2, ⟨some true, none, none, none⟩⟩ 2 (mkMatrix 1 1 eye))) := by
  have hE : IsSym 1 1 (den (mkMatrix 1 1 eye)) := by rw [mkMatrix, den]; exact ⟨rfl, Eqv.of_eq trn_eye⟩
  have hd : den (.idkron ⟨2, 2, ⟨some true, none, none, none⟩⟩ 2 (mkMatrix 1 1 eye)) = kronM 1 1 eye eye := by
    rw [den, mkMatrix, den]; rfl
  refine ⟨.kron (valid_matrix one_pos one_pos _) (valid_matrix one_pos one_pos _) rfl rfl
    ⟨one_pos, one_pos, fun h => absurd rfl h, by simp [Op.fl, Op.hdr], fun _ => rfl, ?_, ⟨⟨fun _ => ?_, ?_⟩, ⟨?_, ?_⟩, ⟨?_, ?_⟩, ⟨?_, ?_⟩⟩, ?_⟩,
    .idkron (valid_matrix one_pos one_pos _) rfl rfl
    ⟨two_pos, two_pos, fun h => absurd rfl h, by simp [Op.fl, Op.hdr], fun _ => rfl, ?_, ⟨⟨fun _ => ?_, ?_⟩, ⟨?_, ?_⟩, ⟨?_, ?_⟩, ⟨?_, ?_⟩⟩, ?_⟩,
    by simp [mkMatrix, base, Op.fl, Op.hdr], ?_⟩
  case refine_2 => rw [den]; exact isSym_kronM hE hE
  case refine_12 => rw [hd]; exact isSym_kron (a := 2) (b := 1) ⟨rfl, Eqv.of_eq trn_eye⟩ ⟨rfl, Eqv.of_eq trn_eye⟩
  case refine_21 => rw [hd]; exact (isPd_idkron (k := 2) two_pos one_pos).2 (isFactor_eye 1 true).isPd
  all_goals first
    | exact ⟨by simp [derived, mkMatrix, base, Op.fl, Op.hdr], by simp [derived, mkMatrix, base, Op.fl, Op.hdr],
        by simp [derived, mkMatrix, base, Op.fl, Op.hdr], by simp [derived, mkMatrix, base, Op.fl, Op.hdr]⟩
    | simp [Op.fl, Op.hdr, zeroLike]

end Probnum.Linops
