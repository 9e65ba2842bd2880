import Verif.Perturbed.Model
import Mathlib.Tactic.Linarith
import Mathlib.Tactic.FieldSimp
import Mathlib.Tactic.NormNum
import Mathlib.Tactic.Positivity

/-!
# C53, C66: perturbed-step solvers
-/

namespace Probnum.Perturbed

open Posterior

variable {Y K : Type}

/-! ## Perturbation functions -/

/-- **C53 (a).**  `perturb_uniform` raises exactly for steps of at least one; otherwise every value it can return lies within
`noise_scale * step^(order + 1/2)` of the step, all values in that interval are possible, and for
`noise_scale * step^(order - 1/2) < 1` they are positive. -/
theorem uniform_bounds (order : ℕ) (ns step : ℝ) (hns : 0 ≤ ns) (hs : 0 < step) :
    (1 ≤ step → ∀ u, perturbUniform order ns step u = .error .valueError) ∧
    (step < 1 → ∀ u, 0 ≤ u → u ≤ 1 → ∃ h, perturbUniform order ns step u = .ok h ∧
      |h - step| ≤ ns * step ^ ((order : ℝ) + 1 / 2) ∧
      (ns * step ^ ((order : ℝ) - 1 / 2) < 1 → 0 < h)) ∧
    (step < 1 → 0 < ns → ∀ h, |h - step| ≤ ns * step ^ ((order : ℝ) + 1 / 2) →
      ∃ u, 0 ≤ u ∧ u ≤ 1 ∧ perturbUniform order ns step u = .ok h) := by
  have hexp : ((order : ℝ) + 0.5) = (order : ℝ) + 1 / 2 := by norm_num
  have hpow : step ^ ((order : ℝ) + 1 / 2) = step ^ ((order : ℝ) - 1 / 2) * step := by
    rw [← Real.rpow_add_one hs.ne']; congr 1; ring
  set p := step ^ ((order : ℝ) + 1 / 2) with hp
  have hp0 : 0 < p := Real.rpow_pos_of_pos hs _
  refine ⟨fun h u => by rw [perturbUniform, if_pos h], fun h u h0 h1 => ?_, fun h hn x hx => ?_⟩
  · refine ⟨step - ns * p + (step + ns * p - (step - ns * p)) * u, ?_, ?_, fun hlt => ?_⟩
    · rw [perturbUniform, if_neg (not_le.2 h), hexp]
    · rw [abs_le]
      have : 0 ≤ ns * p := mul_nonneg hns hp0.le
      constructor <;> nlinarith
    · have h2 : ns * p < step := by
        rw [hpow]
        calc ns * (step ^ ((order : ℝ) - 1 / 2) * step) = (ns * step ^ ((order : ℝ) - 1 / 2)) * step := by ring
          _ < 1 * step := mul_lt_mul_of_pos_right hlt hs
          _ = step := one_mul _
      have : 0 ≤ ns * p := mul_nonneg hns hp0.le
      nlinarith [mul_nonneg this h0]
  · have hpos : 0 < ns * p := mul_pos hn hp0
    rw [abs_le] at hx
    refine ⟨(x - step + ns * p) / (2 * (ns * p)), ?_, ?_, ?_⟩
    · exact div_nonneg (by linarith) (by positivity)
    · rw [div_le_one (by positivity)]; linarith
    · rw [perturbUniform, if_neg (not_le.2 h), hexp, ← hp]
      refine congrArg Except.ok ?_
      have hn' : ns ≠ 0 := hn.ne'
      have hp' : p ≠ 0 := hp0.ne'
      field_simp
      ring

example : ∃ h, perturbUniform 2 1 (1 / 4) 1 = .ok h ∧ 0 < h := by
  obtain ⟨h, e, -, hp⟩ := (uniform_bounds 2 1 (1 / 4) (by norm_num) (by norm_num)).2.1 (by norm_num) 1
    (by norm_num) le_rfl
  refine ⟨h, e, hp ?_⟩
  rw [one_mul]
  exact Real.rpow_lt_one (by norm_num) (by norm_num) (by norm_num)

/-- **C53 fails (steps need not be positive).**  With a large noise scale the uniform perturbation of a positive step below
one can be negative: the solver steps backwards. -/
theorem uniform_negative :
    ∃ h, perturbUniform 1 100 (1 / 4) 0 = .ok h ∧ h < 0 := by
  refine ⟨_, by rw [perturbUniform, if_neg (by norm_num)], ?_⟩
  have : ((1 / 4 : ℝ)) ^ (((1 : ℕ) : ℝ) + 0.5) = 1 / 8 := by
    have h1 : (((1 : ℕ) : ℝ) + 0.5) = 3 / 2 := by norm_num
    have h2 : (1 / 4 : ℝ) = (1 / 2) ^ (2 : ℝ) := by norm_num
    rw [h1, h2, ← Real.rpow_mul (by norm_num)]
    norm_num
  rw [this]; norm_num

/-- **C53 (b).**  `perturb_lognormal` always returns a positive step, and its logarithm is the normal draw with mean
`log step - v/2` and variance `v = log (1 + noise_scale * step^(2 order))`. -/
theorem lognormal_positive (order : ℕ) (ns step z : ℝ) :
    ∃ h, perturbLognormal order ns step z = .ok h ∧ 0 < h ∧
      Real.log h = (Real.log step - Real.log (1 + ns * step ^ (2 * order)) / 2)
        + √(Real.log (1 + ns * step ^ (2 * order))) * z := by
  refine ⟨_, rfl, Real.exp_pos _, ?_⟩
  rw [Real.log_exp]
  congr 2
  · ring
  · congr 1; ring

example : ∃ h, perturbLognormal 2 1 (1 / 4) (-3) = .ok h ∧ 0 < h := by
  obtain ⟨h, e, p, -⟩ := lognormal_positive 2 1 (1 / 4) (-3)
  exact ⟨h, e, p⟩

/-! ## Bookkeeping -/

/-- The accepted attempts of a history. -/
def acceptedOf (es : List Event) : List Event := es.filter (·.accepted)

/-- The perturbed step of an attempt, if the perturbation function does not raise. -/
def noisyOf (perturb : ℝ → ℝ → Res ℝ) (e : Event) : ℝ :=
  match perturb e.dt e.draw with
  | .ok h => h
  | .error _ => 0

/-- The facts kept true by every attempt, for the history `es` so far. -/
private structure Inv (perturb : ℝ → ℝ → Res ℝ) (t0 : ℝ) (y0 : Y) (es : List Event) (s : State Y K) : Prop where
  scales : s.scales = es.map fun e => noisyOf perturb e / e.dt
  nlocs : s.locs.length = (acceptedOf es).length + 1
  nstates : s.states.length = (acceptedOf es).length + 1
  ninterps : s.interps.length = (acceptedOf es).length
  lastLoc : s.locs.getLast? = some s.t
  lastState : s.states.getLast? = some s.y
  firstLoc : s.locs[0]? = some t0
  firstState : s.states[0]? = some y0
  grid : ∀ (i : ℕ) (e : Event) (a b : ℝ), (acceptedOf es)[i]? = some e → s.locs[i]? = some a → s.locs[i + 1]? = some b →
    b = a + e.dt
  interps : ∀ (i : ℕ) (e : Event) (ip : Interp Y K), (acceptedOf es)[i]? = some e → s.interps[i]? = some ip →
    s.locs[i]? = some ip.tOld ∧ s.states[i]? = some ip.yOld ∧ ip.tNew = ip.tOld + noisyOf perturb e

private theorem inv_init (rk : Rk Y K) (perturb : ℝ → ℝ → Res ℝ) (t0 : ℝ) (y0 : Y) :
    Inv perturb t0 y0 [] (init rk t0 y0) := by
  constructor <;> simp [init, acceptedOf]

private theorem step_cases (rk : Rk Y K) (perturb : ℝ → ℝ → Res ℝ) (s s' : State Y K) (e : Event)
    (h : step rk perturb s e = .ok s') :
    ∃ noisy, perturb e.dt e.draw = .ok noisy ∧
      s'.scales = s.scales ++ [noisy / e.dt] ∧
      s'.slope = rk.rhs (s.t + noisy) (rk.stepY s.t s.y s.slope noisy) ∧
      ((e.accepted = false ∧ s'.t = s.t ∧ s'.y = s.y ∧ s'.locs = s.locs ∧ s'.states = s.states ∧
        s'.interps = s.interps) ∨
       (e.accepted = true ∧ s'.t = s.t + e.dt ∧ s'.y = rk.stepY s.t s.y s.slope noisy ∧
        s'.locs = s.locs ++ [s.t + e.dt] ∧ s'.states = s.states ++ [rk.stepY s.t s.y s.slope noisy] ∧
        s'.interps = s.interps ++ [⟨s.t, s.t + noisy, s.y, rk.stages s.t s.y s.slope noisy⟩])) := by
  unfold step attempt at h
  cases hp : perturb e.dt e.draw with
  | error err => rw [hp] at h; cases h
  | ok noisy =>
    rw [hp] at h
    refine ⟨noisy, rfl, ?_⟩
    cases ha : e.accepted with
    | false =>
      simp only [ha, Bool.false_eq_true, if_false] at h
      obtain rfl := Except.ok.inj h
      simp
    | true =>
      simp only [ha, if_true, methodCallback] at h
      obtain rfl := Except.ok.inj h
      simp

private theorem inv_step (rk : Rk Y K) (perturb : ℝ → ℝ → Res ℝ) (t0 : ℝ) (y0 : Y) (es : List Event) (s s' : State Y K)
    (e : Event) (hi : Inv perturb t0 y0 es s) (h : step rk perturb s e = .ok s') :
    Inv perturb t0 y0 (es ++ [e]) s' := by
  obtain ⟨noisy, hp, hsc, -, hc⟩ := step_cases rk perturb s s' e h
  have hn : noisyOf perturb e = noisy := by rw [noisyOf, hp]
  have hscales : s'.scales = (es ++ [e]).map fun e => noisyOf perturb e / e.dt := by
    rw [hsc, hi.scales, List.map_append, List.map_singleton, hn]
  rcases hc with ⟨ha, ht, hy, hl, hst, hin⟩ | ⟨ha, ht, hy, hl, hst, hin⟩
  · have hacc : acceptedOf (es ++ [e]) = acceptedOf es := by simp [acceptedOf, List.filter_append, ha]
    refine ⟨hscales, ?_, ?_, ?_, ?_, ?_, ?_, ?_, ?_, ?_⟩
    · rw [hl, hacc, hi.nlocs]
    · rw [hst, hacc, hi.nstates]
    · rw [hin, hacc, hi.ninterps]
    · rw [hl, ht, hi.lastLoc]
    · rw [hst, hy, hi.lastState]
    · rw [hl, hi.firstLoc]
    · rw [hst, hi.firstState]
    · rw [hl, hacc]; exact hi.grid
    · rw [hl, hst, hin, hacc]; exact hi.interps
  · have hacc : acceptedOf (es ++ [e]) = acceptedOf es ++ [e] := by simp [acceptedOf, List.filter_append, ha]
    have hlastL : s.locs[(acceptedOf es).length]? = some s.t := by
      rw [← hi.lastLoc, List.getLast?_eq_getElem?, hi.nlocs]; rfl
    have hlastS : s.states[(acceptedOf es).length]? = some s.y := by
      rw [← hi.lastState, List.getLast?_eq_getElem?, hi.nstates]; rfl
    refine ⟨hscales, ?_, ?_, ?_, ?_, ?_, ?_, ?_, ?_, ?_⟩
    · simp [hl, hacc, hi.nlocs]
    · simp [hst, hacc, hi.nstates]
    · simp [hin, hacc, hi.ninterps]
    · simp [hl, ht]
    · simp [hst, hy]
    · rw [hl, List.getElem?_append_left (by rw [hi.nlocs]; omega), hi.firstLoc]
    · rw [hst, List.getElem?_append_left (by rw [hi.nstates]; omega), hi.firstState]
    · intro i e' a b he' hla hlb
      rw [hacc] at he'
      rw [hl] at hla hlb
      rcases Nat.lt_or_ge i (acceptedOf es).length with hlt | hge
      · rw [List.getElem?_append_left hlt] at he'
        rw [List.getElem?_append_left (by rw [hi.nlocs]; omega)] at hla hlb
        exact hi.grid i e' a b he' hla hlb
      · have hieq : i = (acceptedOf es).length := by
          have := (List.getElem?_eq_some_iff.1 he').1
          rw [List.length_append, List.length_singleton] at this
          omega
        subst hieq
        rw [List.getElem?_append_left (by rw [hi.nlocs]; omega), hlastL] at hla
        rw [List.getElem?_append_right (by rw [hi.nlocs])] at hlb
        rw [List.getElem?_append_right le_rfl] at he'
        simp [hi.nlocs] at hla hlb he'
        rw [← hla, ← hlb, ← he']
    · intro i e' ip he' hip
      rw [hacc] at he'
      rw [hin] at hip
      rw [hl, hst]
      rcases Nat.lt_or_ge i (acceptedOf es).length with hlt | hge
      · rw [List.getElem?_append_left hlt] at he'
        rw [List.getElem?_append_left (by rw [hi.ninterps]; omega)] at hip
        rw [List.getElem?_append_left (by rw [hi.nlocs]; omega), List.getElem?_append_left (by rw [hi.nstates]; omega)]
        exact hi.interps i e' ip he' hip
      · have hieq : i = (acceptedOf es).length := by
          have := (List.getElem?_eq_some_iff.1 he').1
          rw [List.length_append, List.length_singleton] at this
          omega
        subst hieq
        rw [List.getElem?_append_right (by rw [hi.ninterps])] at hip
        rw [List.getElem?_append_right le_rfl] at he'
        rw [List.getElem?_append_left (by rw [hi.nlocs]; omega), List.getElem?_append_left (by rw [hi.nstates]; omega),
          hlastL, hlastS]
        simp [hi.ninterps] at hip he'
        rw [← hip, ← he', hn]
        simp

private theorem inv_run (rk : Rk Y K) (perturb : ℝ → ℝ → Res ℝ) (t0 : ℝ) (y0 : Y) :
    ∀ (es pre : List Event) (s s' : State Y K), Inv perturb t0 y0 pre s → runFrom rk perturb s es = .ok s' →
      Inv perturb t0 y0 (pre ++ es) s' := by
  intro es
  induction es with
  | nil =>
    intro pre s s' hi h
    rw [runFrom] at h
    obtain rfl := Except.ok.inj h
    simpa using hi
  | cons e es ih =>
    intro pre s s' hi h
    rw [runFrom] at h
    cases hs : step rk perturb s e with
    | error err => rw [hs] at h; cases h
    | ok s1 =>
      rw [hs] at h
      have := ih (pre ++ [e]) s1 s' (inv_step rk perturb t0 y0 pre s s1 e hi hs) h
      simpa using this

/-- **C53 (c).**  After any history of accepted and rejected attempts that has not raised: there is one reported location
and state more than accepted attempts and one interpolant per accepted attempt; the grid advances by the *unperturbed* steps
of the accepted attempts; interpolant `i` starts at location `i` and state `i` and covers the *perturbed* step of the
`i`-th accepted attempt.  The noise scales, however, are those of *all* attempts. -/
theorem bookkeeping (rk : Rk Y K) (perturb : ℝ → ℝ → Res ℝ) (t0 : ℝ) (y0 : Y) (es : List Event) (s : State Y K)
    (h : run rk perturb t0 y0 es = .ok s) :
    s.locs.length = (acceptedOf es).length + 1 ∧ s.states.length = (acceptedOf es).length + 1 ∧
    s.interps.length = (acceptedOf es).length ∧ s.locs[0]? = some t0 ∧ s.states[0]? = some y0 ∧
    (∀ (i : ℕ) (e : Event) (a b : ℝ), (acceptedOf es)[i]? = some e → s.locs[i]? = some a → s.locs[i + 1]? = some b →
      b = a + e.dt) ∧
    (∀ (i : ℕ) (e : Event) (ip : Interp Y K), (acceptedOf es)[i]? = some e → s.interps[i]? = some ip →
      s.locs[i]? = some ip.tOld ∧ s.states[i]? = some ip.yOld ∧ ip.tNew = ip.tOld + noisyOf perturb e) ∧
    s.scales = es.map (fun e => noisyOf perturb e / e.dt) := by
  have hi : Inv perturb t0 y0 es s := by
    simpa using inv_run rk perturb t0 y0 es [] _ s (inv_init rk perturb t0 y0) h
  exact ⟨hi.nlocs, hi.nstates, hi.ninterps, hi.firstLoc, hi.firstState, hi.grid, hi.interps, hi.scales⟩

/-- The identity perturbation never raises, so histories of every shape run. -/
theorem run_total (rk : Rk Y K) (perturb : ℝ → ℝ → Res ℝ) (t0 : ℝ) (y0 : Y) (es : List Event)
    (hp : ∀ e ∈ es, ∃ h, perturb e.dt e.draw = .ok h) : ∃ s, run rk perturb t0 y0 es = .ok s := by
  have key : ∀ (es : List Event) (s : State Y K), (∀ e ∈ es, ∃ h, perturb e.dt e.draw = .ok h) →
      ∃ s', runFrom rk perturb s es = .ok s' := by
    intro es
    induction es with
    | nil => intro s _; exact ⟨s, rfl⟩
    | cons e es ih =>
      intro s hp
      obtain ⟨h, hh⟩ := hp e (by simp)
      have : ∃ s1, step rk perturb s e = .ok s1 := by
        unfold step attempt
        rw [hh]
        cases e.accepted <;> simp [methodCallback]
      obtain ⟨s1, h1⟩ := this
      obtain ⟨s', h'⟩ := ih s1 (fun e he => hp e (by simp [he]))
      exact ⟨s', by rw [runFrom, h1]; exact h'⟩
  exact key es _ hp

example (rk : Rk Y K) (y0 : Y) :
    ∃ s, run rk (fun dt u => .ok (dt * (1 + u))) 0 y0 [⟨1, 1 / 2, false⟩, ⟨1 / 2, 0, true⟩, ⟨1 / 4, 1, true⟩] = .ok s :=
  run_total _ _ _ _ _ (fun _ _ => ⟨_, rfl⟩)

private theorem searchsortedLeft_spec (l : List ℝ) (hl : l.Pairwise (· < ·)) (i : ℕ) (a b t : ℝ)
    (ha : l[i]? = some a) (hb : l[i + 1]? = some b) (h1 : a < t) (h2 : t ≤ b) : searchsortedLeft l t = i + 1 := by
  induction l generalizing i with
  | nil => simp at ha
  | cons x xs ih =>
    rw [List.pairwise_cons] at hl
    cases i with
    | zero =>
      simp only [List.getElem?_cons_zero, Option.some.injEq] at ha
      subst ha
      cases xs with
      | nil => simp at hb
      | cons z zs =>
        simp only [zero_add, List.getElem?_cons_succ, List.getElem?_cons_zero, Option.some.injEq] at hb
        subst hb
        rw [searchsortedLeft, if_pos h1, searchsortedLeft, if_neg (not_lt.2 h2)]
    | succ i =>
      rw [List.getElem?_cons_succ] at ha hb
      have hx : x < t := lt_trans (hl.1 a (List.mem_of_getElem? ha)) h1
      rw [searchsortedLeft, if_pos hx, ih hl.2 i ha hb]

private theorem pyIndex_nat {α : Type} (l : List α) (i : ℕ) (x : α) (h : l[i]? = some x) : pyIndex l (i : ℤ) = .ok x := by
  rw [pyIndex, if_pos (Int.natCast_nonneg i), Int.toNat_natCast, h]

private theorem foldl_min_eq (x : ℝ) (xs : List ℝ) (h : ∀ z ∈ xs, x ≤ z) : xs.foldl min x = x := by
  induction xs with
  | nil => rfl
  | cons z zs ih => rw [List.foldl_cons, min_eq_left (h z (by simp)), ih (fun w hw => h w (by simp [hw]))]

private theorem foldl_max_ge (x : ℝ) (xs : List ℝ) : x ≤ xs.foldl max x ∧ ∀ z ∈ xs, z ≤ xs.foldl max x := by
  induction xs generalizing x with
  | nil => simp
  | cons z zs ih =>
    rw [List.foldl_cons]
    obtain ⟨h1, h2⟩ := ih (max x z)
    refine ⟨le_trans (le_max_left _ _) h1, fun w hw => ?_⟩
    rcases List.mem_cons.1 hw with rfl | hw
    · exact le_trans (le_max_right _ _) h1
    · exact h2 w hw

/-- Dense output between two neighbouring locations is `interpolate` with the index of the left one. -/
private theorem solutionAt_between (rk : Rk Y K) (s : State Y K) (hl : s.locs.Pairwise (· < ·)) (i : ℕ) (a b t : ℝ)
    (ha : s.locs[i]? = some a) (hb : s.locs[i + 1]? = some b) (h1 : a < t) (h2 : t ≤ b) :
    solutionAt rk s t = interpolate rk s t (some (i : ℤ)) (some ((i + 1 : ℕ) : ℤ)) := by
  have hss := searchsortedLeft_spec s.locs hl i a b t ha hb h1 h2
  have hne : ∃ x xs, s.locs = x :: xs := by
    cases hc : s.locs with
    | nil => rw [hc] at ha; simp at ha
    | cons x xs => exact ⟨x, xs, rfl⟩
  obtain ⟨x, xs, hx⟩ := hne
  have hmem_a : a ∈ x :: xs := by rw [← hx]; exact List.mem_of_getElem? ha
  have hmem_b : b ∈ x :: xs := by rw [← hx]; exact List.mem_of_getElem? hb
  have hmin : amin s.locs = .ok x := by
    rw [hx, amin, foldl_min_eq]
    intro z hz
    rw [hx, List.pairwise_cons] at hl
    exact (hl.1 z hz).le
  have hmax : ∃ m, amax s.locs = .ok m ∧ t ≤ m := by
    refine ⟨xs.foldl max x, by rw [hx, amax], le_trans h2 ?_⟩
    obtain ⟨g1, g2⟩ := foldl_max_ge x xs
    rcases List.mem_cons.1 hmem_b with rfl | hm
    · exact g1
    · exact g2 b hm
  obtain ⟨m, hm, htm⟩ := hmax
  have hxt : x ≤ t := by
    rcases List.mem_cons.1 hmem_a with rfl | hm'
    · exact h1.le
    · rw [hx, List.pairwise_cons] at hl
      exact ((hl.1 a hm').trans h1).le
  have hcast : ((i + 1 : ℕ) : ℤ) - 1 = (i : ℤ) := by push_cast; ring
  unfold solutionAt callScalar call
  simp only [sortedCheck, hmin, hm, bind, Except.bind, not_true_eq_false, if_false, pure, Except.pure]
  have f1 : List.filter (fun u => decide (x ≤ u ∧ u ≤ m)) [t] = [t] := by simp [hxt, htm]
  have f2 : List.filter (fun u => decide (u < x)) [t] = [] := by simp [hxt]
  have f3 : List.filter (fun u => decide (m < u)) [t] = [] := by simp [htm]
  rw [f1, f2, f3]
  simp only [List.mapM_cons, List.mapM_nil, bind, Except.bind, pure, Except.pure, hss, hcast]
  cases interpolate rk s t (some (i : ℤ)) (some ((i + 1 : ℕ) : ℤ)) <;> rfl

private theorem locs_increasing (es : List Event) (l : List ℝ) (hdt : ∀ e ∈ es, 0 < e.dt)
    (hn : l.length = es.length + 1)
    (hg : ∀ (i : ℕ) (e : Event) (a b : ℝ), es[i]? = some e → l[i]? = some a → l[i + 1]? = some b → b = a + e.dt) :
    l.Pairwise (· < ·) := by
  apply List.pairwise_iff_getElem.2
  have key : ∀ (i k : ℕ) (hk : i + 1 + k < l.length), l[i]'(by omega) < l[i + 1 + k] := by
    intro i k
    induction k with
    | zero =>
      intro hk
      have he : i < es.length := by omega
      have := hg i es[i] (l[i]'(by omega)) (l[i + 1]'(by omega)) (List.getElem?_eq_getElem he)
        (List.getElem?_eq_getElem (by omega)) (List.getElem?_eq_getElem (by omega))
      have hd := hdt es[i] (List.getElem_mem he)
      simp only [Nat.add_zero]
      linarith
    | succ k ih =>
      intro hk
      have he : i + 1 + k < es.length := by omega
      have h1 := ih (by omega)
      have := hg (i + 1 + k) es[i + 1 + k] (l[i + 1 + k]'(by omega)) (l[i + 1 + k + 1]'(by omega))
        (List.getElem?_eq_getElem he) (List.getElem?_eq_getElem (by omega)) (List.getElem?_eq_getElem (by omega))
      have hd := hdt es[i + 1 + k] (List.getElem_mem he)
      have h3 : l[i + 1 + (k + 1)]'hk = l[i + 1 + k + 1]'(by omega) := rfl
      rw [h3]
      linarith
  intro i j hi hj hij
  obtain ⟨k, rfl⟩ : ∃ k, j = i + 1 + k := ⟨j - (i + 1), by omega⟩
  exact key i k hj

/-- Dense output inside step `i` uses interpolant `i` at the position scaled by the scale of *attempt* `i`.  (For every
history, with or without rejections.) -/
theorem dense_output_any_history (rk : Rk Y K) (perturb : ℝ → ℝ → Res ℝ) (t0 : ℝ) (y0 : Y) (es : List Event)
    (s : State Y K) (h : run rk perturb t0 y0 es = .ok s) (hdt : ∀ e ∈ es, 0 < e.dt)
    (i : ℕ) (e : Event) (a b t : ℝ) (ip : Interp Y K) (hip : s.interps[i]? = some ip)
    (he : es[i]? = some e) (ha : s.locs[i]? = some a) (hb : s.locs[i + 1]? = some b) (h1 : a < t) (h2 : t < b) :
    solutionAt rk s t = .ok (ip.eval rk (a + (t - a) * (noisyOf perturb e / e.dt))) := by
  obtain ⟨nl, ns, ni, fl, -, hg, hin, hsc⟩ := bookkeeping rk perturb t0 y0 es s h
  have hdt' : ∀ e ∈ acceptedOf es, 0 < e.dt := fun e he => hdt e (List.mem_of_mem_filter he)
  have hinc := locs_increasing (acceptedOf es) s.locs hdt' nl hg
  rw [solutionAt_between rk s hinc i a b t ha hb h1 h2.le]
  have ha' : i < s.locs.length := (List.getElem?_eq_some_iff.1 ha).1
  have hb' : i + 1 < s.locs.length := (List.getElem?_eq_some_iff.1 hb).1
  have e0 : pyIndex s.locs 0 = .ok t0 := pyIndex_nat s.locs 0 t0 fl
  have h0 : t ≠ t0 := by
    intro hc
    have : t0 ≤ a := by
      rcases Nat.eq_zero_or_pos i with rfl | hp
      · rw [fl] at ha; exact (Option.some.inj ha).le
      · have := (List.pairwise_iff_getElem.1 hinc) 0 i (by omega) ha' hp
        rw [(List.getElem?_eq_some_iff.1 ha).2, (List.getElem?_eq_some_iff.1 fl).2] at this
        exact this.le
    linarith
  have hlast : s.locs[s.locs.length - 1]? = some (s.locs[s.locs.length - 1]'(by omega)) :=
    List.getElem?_eq_getElem (by omega)
  have e1 : pyIndex s.locs (-1) = .ok (s.locs[s.locs.length - 1]'(by omega)) := by
    rw [pyIndex, if_neg (by norm_num), if_neg (by omega)]
    have : ((s.locs.length : ℤ) + -1).toNat = s.locs.length - 1 := by omega
    rw [this, hlast]
  have h1' : t ≠ s.locs[s.locs.length - 1]'(by omega) := by
    have hbl : b ≤ s.locs[s.locs.length - 1]'(by omega) := by
      rcases Nat.lt_or_ge (i + 1) (s.locs.length - 1) with hlt | hge
      · have := (List.pairwise_iff_getElem.1 hinc) (i + 1) (s.locs.length - 1) hb' (by omega) hlt
        rw [(List.getElem?_eq_some_iff.1 hb).2] at this
        exact this.le
      · have hh : i + 1 = s.locs.length - 1 := by omega
        rw [← (List.getElem?_eq_some_iff.1 hb).2]
        exact le_of_eq (by congr 1)
    intro hc
    linarith
  have hscale : s.scales[i]? = some (noisyOf perturb e / e.dt) := by rw [hsc, List.getElem?_map, he]; rfl
  unfold interpolate
  simp only [e0, e1, bind, Except.bind, h0, h1', if_false, pyIndex_nat s.interps i ip hip, pyIndex_nat s.locs i a ha,
    pyIndex_nat s.scales i _ hscale, pure, Except.pure]

/-- At the two ends of the time span the solution returns the first and the last reported state. -/
theorem dense_output_at_ends (rk : Rk Y K) (perturb : ℝ → ℝ → Res ℝ) (t0 : ℝ) (y0 : Y) (es : List Event)
    (s : State Y K) (h : run rk perturb t0 y0 es = .ok s) (hdt : ∀ e ∈ es, 0 < e.dt) :
    solutionAt rk s t0 = .ok y0 ∧
    ∀ b y, s.locs.getLast? = some b → s.states.getLast? = some y → solutionAt rk s b = .ok y := by
  obtain ⟨nl, ns, ni, fl, fs, hg, -, -⟩ := bookkeeping rk perturb t0 y0 es s h
  have hdt' : ∀ e ∈ acceptedOf es, 0 < e.dt := fun e he => hdt e (List.mem_of_mem_filter he)
  have hinc := locs_increasing (acceptedOf es) s.locs hdt' nl hg
  have inside : ∀ t ∈ s.locs, ∃ i j, solutionAt rk s t = interpolate rk s t i j := by
    intro t ht
    obtain ⟨x, xs, hx⟩ : ∃ x xs, s.locs = x :: xs := by
      cases hc : s.locs with
      | nil => rw [hc] at ht; simp at ht
      | cons x xs => exact ⟨x, xs, rfl⟩
    have hle : ∀ z ∈ xs, x ≤ z := by
      intro z hz
      rw [hx, List.pairwise_cons] at hinc
      exact (hinc.1 z hz).le
    have hmin : amin s.locs = .ok x := by rw [hx, amin, foldl_min_eq]; exact hle
    have hxt : x ≤ t := by
      rw [hx] at ht
      rcases List.mem_cons.1 ht with rfl | hm
      · exact le_rfl
      · exact hle t hm
    obtain ⟨m, hm, htm⟩ : ∃ m, amax s.locs = .ok m ∧ t ≤ m := by
      refine ⟨xs.foldl max x, by rw [hx, amax], ?_⟩
      obtain ⟨g1, g2⟩ := foldl_max_ge x xs
      rw [hx] at ht
      rcases List.mem_cons.1 ht with rfl | hm
      · exact g1
      · exact g2 t hm
    refine ⟨some ((searchsortedLeft s.locs t : ℤ) - 1), some (searchsortedLeft s.locs t : ℤ), ?_⟩
    unfold solutionAt callScalar call
    simp only [sortedCheck, hmin, hm, bind, Except.bind, not_true_eq_false, if_false, pure, Except.pure]
    have f1 : List.filter (fun u => decide (x ≤ u ∧ u ≤ m)) [t] = [t] := by simp [hxt, htm]
    have f2 : List.filter (fun u => decide (u < x)) [t] = [] := by simp [hxt]
    have f3 : List.filter (fun u => decide (m < u)) [t] = [] := by simp [htm]
    rw [f1, f2, f3]
    simp only [List.mapM_cons, List.mapM_nil, bind, Except.bind, pure, Except.pure]
    cases interpolate rk s t (some ((searchsortedLeft s.locs t : ℤ) - 1)) (some (searchsortedLeft s.locs t : ℤ)) <;> rfl
  have e0 : pyIndex s.locs 0 = .ok t0 := pyIndex_nat s.locs 0 t0 fl
  have s0 : pyIndex s.states 0 = .ok y0 := pyIndex_nat s.states 0 y0 fs
  have last : ∀ {α : Type} (l : List α) (a : α), l.getLast? = some a → pyIndex l (-1) = .ok a := by
    intro α l a hl
    rw [List.getLast?_eq_getElem?] at hl
    have hpos : l ≠ [] := by rintro rfl; simp at hl
    have := List.length_pos_iff.2 hpos
    rw [pyIndex, if_neg (by norm_num), if_neg (by omega)]
    have : ((l.length : ℤ) + -1).toNat = l.length - 1 := by omega
    rw [this, hl]
  constructor
  · obtain ⟨i, j, hij⟩ := inside t0 (List.mem_of_getElem? fl)
    rw [hij]
    unfold interpolate
    simp only [e0, bind, Except.bind, if_true, s0]
  · intro b y hb hy
    obtain ⟨i, j, hij⟩ := inside b (List.mem_of_getLast? hb)
    rw [hij]
    unfold interpolate
    simp only [e0, bind, Except.bind, last s.locs b hb, last s.states y hy, if_true, s0]
    split
    · rename_i hbt
      -- only one location
      have h1 : (acceptedOf es).length = 0 := by
        by_contra hne
        rw [List.getLast?_eq_getElem?] at hb
        have hlt := (List.pairwise_iff_getElem.1 hinc) 0 (s.locs.length - 1) (by omega) (by omega) (by omega)
        rw [(List.getElem?_eq_some_iff.1 fl).2, (List.getElem?_eq_some_iff.1 hb).2] at hlt
        linarith
      rw [List.getLast?_eq_getElem?, show s.states.length - 1 = 0 by omega, fs] at hy
      cases hy; rfl
    · rfl

/-- **C53 (d), no rejections.**  If every attempt was accepted, the dense output at a time inside step `i` is the wrapped
solver's dense output of that step at the matching relative position: the fraction `(t - t_i) / (t_{i+1} - t_i)` of the
perturbed step that was really taken.  (Partial: the property claims this for every history; see
`rejected_scale_is_used`.) -/
theorem dense_output_partial (rk : Rk Y K) (perturb : ℝ → ℝ → Res ℝ) (t0 : ℝ) (y0 : Y) (es : List Event)
    (s : State Y K) (h : run rk perturb t0 y0 es = .ok s) (hdt : ∀ e ∈ es, 0 < e.dt)
    (hacc : ∀ e ∈ es, e.accepted = true) (hnz : ∀ e ∈ es, noisyOf perturb e ≠ 0)
    (i : ℕ) (hi : i < es.length) :
    ∃ (a b : ℝ) (y : Y) (k : K) (noisy : ℝ),
      perturb es[i].dt es[i].draw = .ok noisy ∧
      s.locs[i]? = some a ∧ s.locs[i + 1]? = some b ∧ b = a + es[i].dt ∧ s.states[i]? = some y ∧
      ∀ t, a < t → t < b → solutionAt rk s t = .ok (rk.dense y k noisy ((t - a) / (b - a))) := by
  obtain ⟨nl, ns, ni, fl, -, hg, hin, hsc⟩ := bookkeeping rk perturb t0 y0 es s h
  have hae : acceptedOf es = es := List.filter_eq_self.2 hacc
  rw [hae] at nl ns ni hg hin
  have hip : s.interps[i]? = some (s.interps[i]'(by omega)) := List.getElem?_eq_getElem (by omega)
  have he : es[i]? = some es[i] := List.getElem?_eq_getElem hi
  obtain ⟨g1, g2, g3⟩ := hin i es[i] _ he hip
  have hla : s.locs[i + 1]? = some (s.locs[i + 1]'(by omega)) := List.getElem?_eq_getElem (by omega)
  have hgrid := hg i es[i] _ _ he g1 hla
  have hnoisy : perturb es[i].dt es[i].draw = .ok (noisyOf perturb es[i]) := by
    have hne := hnz es[i] (List.getElem_mem hi)
    revert hne
    unfold noisyOf
    cases perturb es[i].dt es[i].draw with
    | error err => intro hc; exact absurd rfl hc
    | ok x => intro _; rfl
  refine ⟨_, _, _, (s.interps[i]'(by omega)).k, noisyOf perturb es[i], hnoisy, g1, hla, hgrid, g2, fun t h1 h2 => ?_⟩
  rw [dense_output_any_history rk perturb t0 y0 es s h hdt i es[i] _ _ t _ hip he g1 hla h1 h2, Interp.eval, g3, hgrid]
  have hd : es[i].dt ≠ 0 := (hdt es[i] (List.getElem_mem hi)).ne'
  have hz := hnz es[i] (List.getElem_mem hi)
  set p := s.interps[i].tOld
  set q := noisyOf perturb es[i]
  set d := es[i].dt
  have e1 : p + q - p = q := by ring
  have e2 : (p + (t - p) * (q / d) - p) / q = (t - p) / d := by
    field_simp
    ring
  have e3 : p + d - p = d := by ring
  rw [e1, e2, e3]

/-- A solver with `y' = 1`, whose steps are exact and whose dense output is the straight line. -/
def clock : Rk ℝ Unit where
  rhs := fun _ _ => 1
  stepY := fun _ y f h => y + h * f
  stages := fun _ _ _ _ => ()
  dense := fun y _ h x => y + h * x

example : ∃ s, run clock (fun dt u => .ok (dt * (1 + u))) 0 0 [⟨1, 1 / 2, true⟩, ⟨1, 0, true⟩] = .ok s ∧
    solutionAt clock s (1 / 2) = .ok (3 / 4) := by
  obtain ⟨s, hs⟩ := run_total clock (fun dt u => .ok (dt * (1 + u))) 0 0 [⟨1, 1 / 2, true⟩, ⟨1, 0, true⟩]
    (fun _ _ => ⟨_, rfl⟩)
  refine ⟨s, hs, ?_⟩
  obtain ⟨a, b, y, k, noisy, hn, ha, hb, hab, hy, hall⟩ := dense_output_partial clock _ 0 0 _ s hs
    (by intro e he; simp at he; rcases he with rfl | rfl <;> norm_num)
    (by intro e he; simp at he; rcases he with rfl | rfl <;> rfl)
    (by intro e he; simp at he; rcases he with rfl | rfl <;> norm_num [noisyOf]) 0 (by simp)
  obtain ⟨-, -, -, fl, fs, -⟩ := bookkeeping clock _ 0 0 _ s hs
  rw [fl] at ha; rw [fs] at hy
  obtain rfl := Option.some.inj ha
  obtain rfl := Option.some.inj hy
  have hn' := Except.ok.inj hn
  simp only [List.getElem_cons_zero] at hn' hab
  subst hab
  rw [hall (1 / 2) (by norm_num) (by norm_num)]
  simp only [clock]
  rw [← hn']
  norm_num

/-- **C53 fails (rejections).**  A rejected attempt leaves its noise scale behind.  Here the first attempt (step `1`, noise
factor `3`) is rejected and the second (step `1`, no noise) accepted: the solution of `y' = 1` at half of the accepted step
is reported as `3/2` instead of `1/2`. -/
theorem rejected_scale_is_used :
    ∃ s, run clock (fun dt u => .ok (dt * (1 + u))) 0 0 [⟨1, 2, false⟩, ⟨1, 0, true⟩] = .ok s ∧
      s.locs = [0, 1] ∧ s.states = [0, 1] ∧ solutionAt clock s (1 / 2) = .ok (3 / 2) := by
  obtain ⟨s, hs⟩ := run_total clock (fun dt u => .ok (dt * (1 + u))) 0 0 [⟨1, 2, false⟩, ⟨1, 0, true⟩]
    (fun _ _ => ⟨_, rfl⟩)
  have hs' := hs
  simp only [run, runFrom, step, attempt, methodCallback, init, clock, if_true, Bool.false_eq_true, if_false] at hs'
  obtain hs' := Except.ok.inj hs'
  refine ⟨s, hs, ?_, ?_, ?_⟩
  · rw [← hs']; simp
  · rw [← hs']; simp
  · have hip : s.interps[0]? = some ⟨0, 0 + 1 * (1 + 0), 0, ()⟩ := by rw [← hs']; simp
    rw [dense_output_any_history clock _ 0 0 _ s hs
      (by intro e he; simp at he; rcases he with rfl | rfl <;> norm_num) 0 ⟨1, 2, false⟩ 0 1 (1 / 2) _ hip rfl
      (by rw [← hs']; simp) (by rw [← hs']; simp) (by norm_num) (by norm_num)]
    simp only [Interp.eval, clock, noisyOf]
    norm_num

/-- Left of the initial time the solution raises TypeError (`interpolants[None]`). -/
theorem before_start_raises (rk : Rk Y K) (perturb : ℝ → ℝ → Res ℝ) (t0 : ℝ) (y0 : Y) (es : List Event)
    (s : State Y K) (h : run rk perturb t0 y0 es = .ok s) (t : ℝ) (ht : t < t0) (hlast : ∀ x ∈ s.locs, t0 ≤ x) :
    interpolate rk s t none (some 0) = .error .typeError := by
  obtain ⟨nl, -, -, fl, -⟩ := bookkeeping rk perturb t0 y0 es s h
  have e0 : pyIndex s.locs 0 = .ok t0 := pyIndex_nat s.locs 0 t0 fl
  have e1 : pyIndex s.locs (-1) = .ok (s.locs[s.locs.length - 1]'(by omega)) := by
    rw [pyIndex, if_neg (by norm_num), if_neg (by omega)]
    have : ((s.locs.length : ℤ) + -1).toNat = s.locs.length - 1 := by omega
    rw [this, List.getElem?_eq_getElem (by omega)]
  have h1' : t ≠ s.locs[s.locs.length - 1]'(by omega) := by
    have := hlast _ (List.getElem_mem (l := s.locs) (n := s.locs.length - 1) (by omega))
    intro hc
    linarith
  unfold interpolate
  simp only [e0, e1, bind, Except.bind, ht.ne, h1', if_false]

/-! ## C66: the slope carried from step to step -/

/-- **C66 (unperturbed, no rejections).**  The wrapped Runge-Kutta solver computes every step from the slope
`f(t, y)` at its starting point, as long as no attempt was rejected.  (Partial: the property claims it for every
history; see `rejected_attempt_changes_next_step`.) -/
theorem slope_is_current_partial (rk : Rk Y K) (t0 : ℝ) (y0 : Y) (es : List Event) (s : State Y K)
    (hacc : ∀ e ∈ es, e.accepted = true)
    (h : run rk (fun dt _ => .ok dt) t0 y0 es = .ok s) : s.slope = rk.rhs s.t s.y := by
  have key : ∀ (es : List Event) (s s' : State Y K), (∀ e ∈ es, e.accepted = true) → s.slope = rk.rhs s.t s.y →
      runFrom rk (fun dt _ => .ok dt) s es = .ok s' → s'.slope = rk.rhs s'.t s'.y := by
    intro es
    induction es with
    | nil =>
      intro s s' _ hs h
      rw [runFrom] at h
      obtain rfl := Except.ok.inj h
      exact hs
    | cons e es ih =>
      intro s s' ha hs h
      rw [runFrom] at h
      cases hst : step rk (fun dt _ => .ok dt) s e with
      | error err => rw [hst] at h; cases h
      | ok s1 =>
        rw [hst] at h
        refine ih s1 s' (fun e he => ha e (by simp [he])) ?_ h
        obtain ⟨noisy, hp, -, hsl, hc⟩ := step_cases rk _ s s1 e hst
        obtain rfl := Except.ok.inj hp
        rcases hc with ⟨hf, -⟩ | ⟨-, ht, hy, -⟩
        · rw [ha e (by simp)] at hf; cases hf
        · rw [hsl, ht, hy]
  exact key es _ s hacc rfl h

/-- **C66 (any history).**  What the slope really is: the right-hand side at the end of the *last attempt*, accepted or
not. -/
theorem slope_after_attempt (rk : Rk Y K) (perturb : ℝ → ℝ → Res ℝ) (s s' : State Y K) (e : Event)
    (h : step rk perturb s e = .ok s') :
    ∃ noisy, perturb e.dt e.draw = .ok noisy ∧
      s'.slope = rk.rhs (s.t + noisy) (rk.stepY s.t s.y s.slope noisy) ∧
      (e.accepted = false → s'.t = s.t ∧ s'.y = s.y) := by
  obtain ⟨noisy, hp, -, hsl, hc⟩ := step_cases rk perturb s s' e h
  refine ⟨noisy, hp, hsl, fun hf => ?_⟩
  rcases hc with ⟨-, h1, h2, -⟩ | ⟨ht, -⟩
  · exact ⟨h1, h2⟩
  · rw [ht] at hf; cases hf

/-- Forward Euler for `y' = -y`. -/
def euler : Rk ℝ Unit where
  rhs := fun _ y => -y
  stepY := fun _ y f h => y + h * f
  stages := fun _ _ _ _ => ()
  dense := fun y _ h x => y + h * x

example : ∃ s, run euler (fun dt _ => .ok dt) 0 1 [⟨1 / 2, 0, true⟩, ⟨1 / 2, 0, true⟩] = .ok s ∧ s.slope = -(1 / 4) := by
  refine ⟨_, rfl, ?_⟩
  simp only [step, attempt, methodCallback, init, euler, if_true]
  norm_num

/-- **C66 fails (rejections).**  A rejected attempt changes the result of the retry: with forward Euler for `y' = -y` from
`y = 1`, the step of length `1/2` gives `1/2`; after a rejected attempt of length `2` the same step gives `3/2`, because
the slope of the rejected end point is used. -/
theorem rejected_attempt_changes_next_step :
    (∃ s, run euler (fun dt _ => .ok dt) 0 1 [⟨1 / 2, 0, true⟩] = .ok s ∧ s.states = [1, 1 / 2]) ∧
    (∃ s, run euler (fun dt _ => .ok dt) 0 1 [⟨2, 0, false⟩, ⟨1 / 2, 0, true⟩] = .ok s ∧ s.states = [1, 3 / 2]) := by
  constructor
  · refine ⟨_, rfl, ?_⟩
    simp only [step, attempt, methodCallback, init, euler, if_true, Bool.false_eq_true, if_false]
    norm_num
  · refine ⟨_, rfl, ?_⟩
    simp only [step, attempt, methodCallback, init, euler, if_true, Bool.false_eq_true, if_false]
    norm_num

end Probnum.Perturbed
