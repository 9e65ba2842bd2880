import Verif.Quad.PropsMulti

/-! # Property C80, continued: `bayesquad`, its policies and its budget -/

namespace Probnum.Quad

open Probnum Probnum.Linops Probnum.Cov Finset MeasureTheory ProbabilityTheory Probnum.Gauss
open scoped Matrix

/-! ## Specification -/

/-- The names of the policies. -/
def policyNames : List String := ["bmc", "vdc", "us_rand", "mi_rand", "ivr_rand", "us", "mi", "ivr"]

/-- What is assumed of the sources of random nodes: they return the number of nodes that is asked for. -/
structure Oracle.Sized {D : ℕ} {ρ : Type} (O : Oracle D ρ) : Prop where
  sample : ∀ n r, (O.sample n r).1.length = n
  latin : ∀ n r, (O.latin n r).1.length = n

/-- The number of nodes that a policy chooses at a time: `batch_size` matters for `bmc` and `vdc` only. -/
def batchOf (o : Options) (name : String) : ℕ := if name = "bmc" ∨ name = "vdc" then o.batchSize.getD 1 else 1

/-! ## Policies -/

theorem restarts_none {X : Type} (run : X → Bool × Option EReal × X) : ∀ (pts : List X) (fMin : EReal),
    restarts run pts fMin none = none ↔ ∀ p ∈ pts, ∀ v x, run p = (true, some v, x) → ¬ v < fMin
  | [], fMin => by simp [restarts]
  | p :: pts, fMin => by
    have hsome : ∀ (pts : List X) (fMin : EReal) (b : X), restarts run pts fMin (some b) ≠ none := by
      intro pts
      induction pts with
      | nil => intro fMin b h; cases h
      | cons q pts ih =>
        intro fMin b
        rw [restarts.eq_def]
        dsimp only
        split
        · split
          · exact ih _ _
          · exact ih _ _
        · exact ih _ _
    rw [restarts.eq_def]
    dsimp only
    split
    · next v x hr =>
      by_cases hv : v < fMin
      · rw [if_pos hv]
        exact ⟨fun h => absurd h (hsome _ _ _), fun h => absurd hv (h p (by simp) v x hr)⟩
      · rw [if_neg hv, restarts_none run pts fMin]
        constructor
        · intro h q hq w y hy
          rcases List.mem_cons.1 hq with rfl | hq
          · rw [hr] at hy
            cases hy
            exact hv
          · exact h q hq w y hy
        · exact fun h q hq => h q (List.mem_cons_of_mem _ hq)
    · next hno =>
      rw [restarts_none run pts fMin]
      constructor
      · intro h q hq w y hy
        rcases List.mem_cons.1 hq with rfl | hq
        · exact absurd hy (hno w y)
        · exact h q hq w y hy
      · exact fun h q hq => h q (List.mem_cons_of_mem _ hq)

theorem restarts_some {X : Type} (run : X → Bool × Option EReal × X) : ∀ (pts : List X) (fMin : EReal) (best : Option X) (z : X),
    restarts run pts fMin best = some z →
      (best = some z ∧ ∀ p ∈ pts, ∀ v x, run p = (true, some v, x) → fMin ≤ v) ∨
      ∃ p ∈ pts, ∃ v, run p = (true, some v, z) ∧ v < fMin ∧ ∀ q ∈ pts, ∀ w x, run q = (true, some w, x) → v ≤ w
  | [], fMin, best, z => by
    intro h
    exact .inl ⟨h, by simp⟩
  | p :: pts, fMin, best, z => by
    intro h
    rw [restarts.eq_def] at h
    dsimp only at h
    split at h
    · next v x hr =>
      by_cases hv : v < fMin
      · rw [if_pos hv] at h
        rcases restarts_some run pts _ _ _ h with ⟨h1, h2⟩ | ⟨q, hq, w, h1, h2, h3⟩
        · cases h1
          refine .inr ⟨p, by simp, v, hr, hv, fun q hq w y hy => ?_⟩
          rcases List.mem_cons.1 hq with rfl | hq
          · rw [hr] at hy; cases hy; exact le_refl _
          · exact h2 q hq w y hy
        · refine .inr ⟨q, List.mem_cons_of_mem _ hq, w, h1, h2.trans hv, fun q' hq' w' y hy => ?_⟩
          rcases List.mem_cons.1 hq' with rfl | hq'
          · rw [hr] at hy; cases hy; exact h2.le
          · exact h3 q' hq' w' y hy
      · rw [if_neg hv] at h
        rcases restarts_some run pts _ _ _ h with ⟨h1, h2⟩ | ⟨q, hq, w, h1, h2, h3⟩
        · refine .inl ⟨h1, fun q hq w y hy => ?_⟩
          rcases List.mem_cons.1 hq with rfl | hq
          · rw [hr] at hy; cases hy; exact not_lt.1 hv
          · exact h2 q hq w y hy
        · refine .inr ⟨q, List.mem_cons_of_mem _ hq, w, h1, h2, fun q' hq' w' y hy => ?_⟩
          rcases List.mem_cons.1 hq' with rfl | hq'
          · rw [hr] at hy; cases hy; exact h2.le.trans (not_lt.1 hv)
          · exact h3 q' hq' w' y hy
    · next hno =>
      rcases restarts_some run pts _ _ _ h with ⟨h1, h2⟩ | ⟨q, hq, w, h1, h2, h3⟩
      · refine .inl ⟨h1, fun q hq w y hy => ?_⟩
        rcases List.mem_cons.1 hq with rfl | hq
        · exact absurd hy (hno w y)
        · exact h2 q hq w y hy
      · refine .inr ⟨q, List.mem_cons_of_mem _ hq, w, h1, h2, fun q' hq' w' y hy => ?_⟩
        rcases List.mem_cons.1 hq' with rfl | hq'
        · exact absurd hy (hno w' y)
        · exact h3 q' hq' w' y hy

theorem argmax_spec {values : List (Option EReal)} (hne : values ≠ []) : ∃ h : argmax values < values.length,
    (none ∈ values → values[argmax values] = none) ∧
    (none ∉ values → ∀ w ∈ values, w.getD ⊥ ≤ values[argmax values].getD ⊥) := by
  classical
  by_cases hn : none ∈ values
  · have hlt : argmax values < values.length := by
      rw [argmax, if_pos hn]
      exact List.findIdx_lt_length.2 ⟨none, hn, by simp⟩
    refine ⟨hlt, fun _ => ?_, fun h => absurd hn h⟩
    have h0 : argmax values = values.findIdx fun v => decide (v = none) := by rw [argmax, if_pos hn]
    have := List.findIdx_getElem (xs := values) (p := fun v => decide (v = none)) (w := by rw [← h0]; exact hlt)
    simp only [decide_eq_true_eq] at this
    simp only [h0]
    exact this
  · have hex : ∃ v ∈ values, ∀ w ∈ values, w.getD ⊥ ≤ v.getD ⊥ := by
      obtain ⟨v, hv, hm⟩ := Finset.exists_max_image values.toFinset (fun v => v.getD ⊥)
        (List.toFinset_nonempty_iff _ |>.2 hne)
      exact ⟨v, List.mem_toFinset.1 hv, fun w hw => hm w (List.mem_toFinset.2 hw)⟩
    have h0 : argmax values = values.findIdx fun v => decide (∀ w ∈ values, w.getD ⊥ ≤ v.getD ⊥) := by
      rw [argmax, if_neg hn]
    have hlt : argmax values < values.length := by
      rw [h0]
      obtain ⟨v, hv, hm⟩ := hex
      exact List.findIdx_lt_length.2 ⟨v, hv, by simpa using hm⟩
    refine ⟨hlt, fun h => absurd h hn, fun _ => ?_⟩
    have := List.findIdx_getElem (xs := values) (p := fun v => decide (∀ w ∈ values, w.getD ⊥ ≤ v.getD ⊥))
      (w := by rw [← h0]; exact hlt)
    simp only [decide_eq_true_eq] at this
    simp only [h0]
    exact this

/-- **C80.**  The policy with random candidates chooses one node, a candidate that no other candidate exceeds in the
acquisition function; but if the acquisition function is nan somewhere, it is nan at the chosen node. -/
theorem random_candidates {D : ℕ} {ρ : Type} {O : Oracle D ρ} (hO : O.Sized) {acq : State (Fin D → ℝ) → (Fin D → ℝ) → Option EReal}
    {n : ℤ} :
    (n < 1 → randMaxPolicy O acq n = .error .valueError) ∧
    (1 ≤ n → ∃ p, randMaxPolicy O acq n = .ok p ∧ p.batchSize = 1 ∧ p.requiresRng = true ∧
      ∀ s r, ∃ x ∈ (O.sample n.toNat r).1, p.call s r = .ok ([x], (O.sample n.toNat r).2) ∧
        ((∃ y ∈ (O.sample n.toNat r).1, acq s y = none) → acq s x = none) ∧
        ((∀ y ∈ (O.sample n.toNat r).1, acq s y ≠ none) →
          ∃ v, acq s x = some v ∧ ∀ y ∈ (O.sample n.toNat r).1, ∀ w, acq s y = some w → w ≤ v)) := by
  refine ⟨fun h => if_pos h, fun h => ⟨_, if_neg (not_lt.2 h), rfl, rfl, fun s r => ?_⟩⟩
  have hlen := hO.sample n.toNat r
  have hne : (O.sample n.toNat r).1.map (acq s) ≠ [] := by
    intro h0
    rw [List.map_eq_nil_iff] at h0
    rw [h0] at hlen
    simp at hlen
    omega
  obtain ⟨hlt, h1, h2⟩ := argmax_spec hne
  have hlt' : argmax ((O.sample n.toNat r).1.map (acq s)) < (O.sample n.toNat r).1.length := by simpa using hlt
  refine ⟨(O.sample n.toNat r).1[argmax ((O.sample n.toNat r).1.map (acq s))], List.getElem_mem _, ?_, ?_, ?_⟩
  · dsimp only
    rw [List.getElem?_eq_getElem hlt']
  · rintro ⟨y, hy, hy0⟩
    have := h1 (List.mem_map.2 ⟨y, hy, hy0⟩)
    rwa [List.getElem_map] at this
  · intro hall
    have hno : none ∉ (O.sample n.toNat r).1.map (acq s) := by
      intro h0
      obtain ⟨y, hy, hy0⟩ := List.mem_map.1 h0
      exact hall y hy hy0
    have h2 := h2 hno
    rw [List.getElem_map] at h2
    obtain ⟨v, hv⟩ := Option.ne_none_iff_exists'.1 (hall _ (List.getElem_mem hlt'))
    refine ⟨v, hv, fun y hy w hw => ?_⟩
    have := h2 _ (List.mem_map.2 ⟨y, hy, hw⟩)
    rw [hv] at this
    exact this

/-- **C80.**  The policy with an optimizer chooses one node: a location that a successful run of the optimizer returned, with
the best value among the successful runs; without a successful run with a value below infinity it raises RuntimeError. -/
theorem optimizer_restarts {D : ℕ} {ρ : Type} (O : Oracle D ρ) (acq : State (Fin D → ℝ) → (Fin D → ℝ) → Option EReal) (n : ℤ) :
    (n < 1 → maxPolicy O acq n = .error .valueError) ∧
    (1 ≤ n → ∃ p, maxPolicy O acq n = .ok p ∧ p.batchSize = 1 ∧ p.requiresRng = true ∧
      ∀ s r, let run := O.minimize fun x => (acq s x).map fun v => -v
        ((∃ x v, p.call s r = .ok ([x], (O.sample n.toNat r).2) ∧ (∃ x0 ∈ (O.sample n.toNat r).1, run x0 = (true, some v, x)) ∧
            v < ⊤ ∧ ∀ x0 ∈ (O.sample n.toNat r).1, ∀ w y, run x0 = (true, some w, y) → v ≤ w) ∨
          (p.call s r = .error .runtimeError ∧
            ∀ x0 ∈ (O.sample n.toNat r).1, ∀ w y, run x0 = (true, some w, y) → w = ⊤))) := by
  refine ⟨fun h => if_pos h, fun h => ⟨_, if_neg (not_lt.2 h), rfl, rfl, fun s r => ?_⟩⟩
  dsimp only
  cases hr : restarts (O.minimize fun x => (acq s x).map fun v => -v) (O.sample n.toNat r).1 ⊤ none with
  | none =>
    refine .inr ⟨rfl, fun x0 hx0 w y hw => ?_⟩
    have := (restarts_none _ _ _).1 hr x0 hx0 w y hw
    rwa [not_lt_top_iff] at this
  | some x =>
    rcases restarts_some _ _ _ _ _ hr with ⟨h1, _⟩ | ⟨x0, hx0, v, h1, h2, h3⟩
    · cases h1
    · exact .inl ⟨x, v, rfl, ⟨x0, hx0, h1⟩, h2, h3⟩

/-! ## `bayesquad` -/

theorem updates_snoc {X : Type} {u : Update} {P : Problem X} {xs : List X} {ys : List ℝ} {s' : State X} :
    ∀ (batches : List (List X × List ℝ)) {s t : State X}, updates u P s batches = .ok t → u.call P t xs ys = .ok s' →
      updates u P s (batches ++ [(xs, ys)]) = .ok s'
  | [], s, t, h, hc => by
    cases h
    rw [List.nil_append, updates, hc]
    rfl
  | b :: bs, s, t, h, hc => by
    rw [updates] at h
    rw [List.cons_append, updates]
    cases hu : u.call P s b.1 b.2 with
    | error e => rw [hu] at h; cases h
    | ok s2 =>
      rw [hu] at h
      exact updates_snoc bs h hc

theorem Reachable.call {X : Type} {u : Update} {P : Problem X} {xs : List X} {ys : List ℝ} {s s' : State X}
    (h : Reachable u P s) (hc : u.call P s xs ys = .ok s') : Reachable u P s' :=
  let ⟨bs, hb⟩ := h
  ⟨bs ++ [(xs, ys)], updates_snoc bs hb hc⟩

theorem reach_fits {X : Type} {u : Update} {P : Problem X} (sym : ∀ x y, P.k x y = P.k y x) {s : State X} (h : Reachable u P s) :
    Fits P s :=
  (reach_unified sym h).1

theorem loop_evaluates {X ρ : Type} {P : Problem X} {u : Update} {crit : Crit X} {policy : Option (Policy X ρ)}
    {f : List X → List ℝ} {F : X → ℝ} (sym : ∀ x y, P.k x y = P.k y x) (hf : ∀ xs, f xs = xs.map F) :
    ∀ (fuel : ℕ) (s : State X) (info : Info) (r : ρ) (log : Log X) (s' : State X) (info' : Info) (log' : Log X),
      Reachable u P s → s.nodes = log → s.evals = log.map F →
      bqLoop P u crit policy f fuel s info r log = some (.ok (s', info', log')) →
      Reachable u P s' ∧ s'.nodes = log' ∧ s'.evals = log'.map F
  | 0, _, _, _, _, _, _, _, _, _, _, h => by cases h
  | fuel + 1, s, info, r, log, s', info', log', h1, h2, h3, h => by
    rw [bqLoop.eq_def] at h
    dsimp only at h
    split at h
    · cases h
      exact ⟨h1, h2, h3⟩
    · cases policy with
      | none => cases h
      | some p =>
        dsimp only at h
        cases hp : p.call s r with
        | error e => rw [hp] at h; cases h
        | ok z =>
          obtain ⟨xs, r'⟩ := z
          rw [hp] at h
          dsimp only at h
          cases hu : u.call P s xs (f xs) with
          | error e => rw [hu] at h; cases h
          | ok t =>
            rw [hu] at h
            obtain ⟨_, t1, t2, _⟩ := (reach_fits sym h1).call sym hu
            refine loop_evaluates sym hf fuel _ _ _ _ _ _ _ (h1.call hu) ?_ ?_ h
            · rw [t1, h2]
            · rw [t2, h3, hf, List.map_append]

theorem loop_converged {X ρ : Type} {P : Problem X} {u : Update} {crit : Crit X} {policy : Option (Policy X ρ)}
    {f : List X → List ℝ} : ∀ (fuel : ℕ) (s : State X) (info : Info) (r : ρ) (log : Log X) (s' : State X) (info' : Info) (log' : Log X),
      bqLoop P u crit policy f fuel s info r log = some (.ok (s', info', log')) → info'.hasConverged = true
  | 0, _, _, _, _, _, _, _, h => by cases h
  | fuel + 1, s, info, r, log, s', info', log', h => by
    rw [bqLoop.eq_def] at h
    dsimp only at h
    split at h
    · next hc =>
      cases h
      exact hc
    · cases policy with
      | none => cases h
      | some p =>
        dsimp only at h
        cases hp : p.call s r with
        | error e => rw [hp] at h; cases h
        | ok z =>
          rw [hp] at h
          dsimp only at h
          cases hu : u.call P s z.1 (f z.1) with
          | error e => rw [hu] at h; cases h
          | ok t =>
            rw [hu] at h
            exact loop_converged fuel _ _ _ _ _ _ _ h

/-- A run without given nodes: the data of the result is the integrand at the nodes at which it was evaluated. -/
theorem integrate_evaluates {X ρ : Type} {S : Solver X ρ} (sym : ∀ x y, S.problem.k x y = S.problem.k y x) {fuel : ℕ}
    {f : List X → Rows ℝ} {F : X → ℝ} (hf : ∀ xs, (f xs).rows = xs.map F) {hasRng : Bool} {r : ρ} {s : State X} {info : Info}
    {log : Log X} (h : S.integrate fuel (some f) none none hasRng r = some (.ok (s, info, log))) :
    Reachable S.update S.problem s ∧ s.nodes = log ∧ s.evals = log.map F := by
  rw [Solver.integrate] at h
  cases hp : S.prepare (some f) none none hasRng with
  | error e => rw [hp] at h; cases h
  | ok a =>
    obtain ⟨m, e, lg⟩ := a
    rw [hp] at h
    dsimp only at h
    have hprep : m = none ∧ e = [] ∧ lg = [] := by
      rw [Solver.prepare, if_neg (by simp)] at hp
      simp only [fixedEvals] at hp
      split at hp
      · cases hp
      · split at hp
        · cases hp
        · cases hp; exact ⟨rfl, rfl, rfl⟩
    obtain ⟨rfl, rfl, rfl⟩ := hprep
    rw [Solver.start] at h
    cases hd : S.design with
    | none =>
      rw [hd] at h
      exact loop_evaluates (f := integrand (some f)) sym hf _ _ _ _ _ _ _ _ ⟨[], rfl⟩ rfl rfl h
    | some d =>
      obtain ⟨needs, des⟩ := d
      rw [hd] at h
      dsimp only at h
      by_cases hn : needs = true ∧ hasRng = false
      · rw [if_pos hn] at h; cases h
      · rw [if_neg hn] at h
        dsimp only at h
        cases hu : S.update.call S.problem (State.initial S.problem) (des r).1 (integrand (some f) (des r).1) with
        | error e => rw [hu] at h; cases h
        | ok t =>
          rw [hu] at h
          obtain ⟨_, t1, t2, _⟩ := (fits_initial S.problem).call sym hu
          refine loop_evaluates (f := integrand (some f)) sym hf _ _ _ _ _ _ _ _ ⟨[(_, _)], by rw [updates, hu]; rfl⟩ ?_ ?_ h
          · rw [t1]; rfl
          · rw [t2]; exact hf _

theorem integrate_converged {X ρ : Type} {S : Solver X ρ} {fuel : ℕ} {f : Option (List X → Rows ℝ)} {nodes : Option (Rows X)}
    {evals : Option (Rows ℝ)} {hasRng : Bool} {r : ρ} {s : State X} {info : Info}
    {log : Log X} (h : S.integrate fuel f nodes evals hasRng r = some (.ok (s, info, log))) : info.hasConverged = true := by
  rw [Solver.integrate] at h
  split at h
  · cases h
  · split at h
    · cases h
    · dsimp only at h
      split at h
      · cases h
      · exact loop_converged _ _ _ _ _ _ _ _ h

theorem fromProblem_ok {X ρ : Type} {inputDim : ℤ} {policy : Problem X → Res (Option (Policy X ρ))} {hasPolicy : Bool}
    {design : Res (Option (Bool × (ρ → List X × ρ)))} {o : Options} {P : Problem X} {S : Solver X ρ}
    (h : fromProblem inputDim policy hasPolicy design o P = .ok S) :
    ∃ pol des, policy P = .ok pol ∧ design = .ok des ∧ ¬(pol.isNone = true ∧ des.isSome = true) ∧
      0 ≤ o.jitter.getD 1e-8 ∧ S = ⟨P, pol, ⟨o.jitter.getD 1e-8, o.scale.getD .mle⟩,
        fromProblemCrit inputDim.toNat o.maxEvals o.varTol o.relTol hasPolicy, des⟩ := by
  rw [fromProblem] at h
  cases h1 : policy P with
  | error e => rw [h1] at h; cases h
  | ok pol =>
    rw [h1] at h
    dsimp only at h
    rw [Update.mk?] at h
    by_cases hj : o.jitter.getD 1e-8 < 0
    · rw [if_pos hj] at h; cases h
    · rw [if_neg hj] at h
      dsimp only at h
      cases h2 : design with
      | error e => rw [h2] at h; cases h
      | ok des =>
        rw [h2] at h
        dsimp only [Solver.mk?] at h
        split at h
        · cases h
        · next hn =>
          cases h
          exact ⟨pol, des, rfl, rfl, hn, not_lt.1 hj, rfl⟩

/-- What a call of `bayesquad` that returns consists of. -/
theorem bayesquad_ok {D : ℕ} {ρ : Type} {O : Oracle D ρ} {fuel : ℕ} {f : List (Fin D → ℝ) → Rows ℝ} {inputDim : ℤ}
    {kernel : Option AnyKernel} {measure : Option SomeMeasure} {domain : Option (List (Arr ℝ))} {policy design : Option String}
    {hasRng : Bool} {r : ρ} {o : Options} {belief : ℝ × ℝ} {info : Info} {log : Log (Fin D → ℝ)}
    (h : bayesquad O fuel f inputDim kernel measure domain policy design hasRng r o = some (.ok (belief, info, log))) :
    ∃ (m : AnyMeasure D) (w : Bool) (P : Problem (Fin D → ℝ)) (S : Solver (Fin D → ℝ) ρ) (s : State (Fin D → ℝ)),
      checkCompat inputDim domain measure = .ok (⟨D, m⟩, w) ∧
      problemOf (kernel.getD (defaultKernel inputDim)) ⟨D, m⟩ = .ok P ∧
      fromProblem inputDim (fun P => choosePolicy O m P o policy) policy.isSome
        (chooseDesign O m (o.nInitial.getD (5 * inputDim).toNat) design) o P = .ok S ∧
      S.integrate fuel (some f) none none hasRng r = some (.ok (s, info, log)) ∧ belief = s.belief := by
  unfold bayesquad at h
  cases hcc : checkCompat inputDim domain measure with
  | error e => rw [hcc] at h; cases h
  | ok z =>
    obtain ⟨⟨D', m⟩, w⟩ := z
    rw [hcc] at h
    dsimp only at h
    by_cases hD : D' = D
    · subst hD
      rw [dif_pos rfl] at h
      dsimp only at h
      rw [runSolver.eq_def] at h
      cases hp : problemOf (D := D') (kernel.getD (defaultKernel inputDim)) ⟨D', m⟩ with
      | ok P =>
        rw [hp] at h
        dsimp only at h
        cases hS : fromProblem inputDim (fun P => choosePolicy O m P o policy) policy.isSome
            (chooseDesign O m (o.nInitial.getD (5 * inputDim).toNat) design) o P with
        | error e => rw [hS] at h; cases h
        | ok S =>
          rw [hS] at h
          dsimp only at h
          cases hi : S.integrate fuel (some f) none none hasRng r with
          | none => rw [hi] at h; cases h
          | some q =>
            rw [hi] at h
            cases q with
            | error e => cases h
            | ok t =>
              obtain ⟨s, i, l⟩ := t
              have h := Except.ok.inj (Option.some.inj h)
              obtain ⟨h1, h2⟩ := Prod.mk.inj h
              obtain ⟨h2, h3⟩ := Prod.mk.inj h2
              dsimp only at h1 h2 h3
              exact ⟨m, w, P, S, s, rfl, hp, hS, by rw [hi, h2, h3], h1.symm⟩
      | error e =>
        rw [hp] at h
        dsimp only at h
        split at h
        · cases h
        · split at h
          · cases h
          · split at h <;> cases h
    · rw [dif_neg hD] at h
      cases h

/-- **C80.**  A call of `bayesquad` that returns: the belief is the conditional distribution of the integral, given the values
of the integrand at the nodes at which it was evaluated (in the order of the evaluations), for a Gaussian process prior whose
covariance is the kernel times a scale: one if it is not estimated, and the maximum likelihood estimate for that data
otherwise. -/
theorem bayesquad_conditional {D : ℕ} {ρ : Type} {O : Oracle D ρ} {fuel : ℕ} {f : List (Fin D → ℝ) → Rows ℝ} {F : (Fin D → ℝ) → ℝ}
    (hf : ∀ xs, (f xs).rows = xs.map F) {inputDim : ℤ}
    {kernel : Option AnyKernel} {measure : Option SomeMeasure} {domain : Option (List (Arr ℝ))} {policy design : Option String}
    {hasRng : Bool} {r : ρ} {o : Options} {belief : ℝ × ℝ} {info : Info} {log : Log (Fin D → ℝ)}
    (h : bayesquad O fuel f inputDim kernel measure domain policy design hasRng r o = some (.ok (belief, info, log)))
    (hk : (kernel.getD (defaultKernel inputDim)).Proper) :
    ∃ (m : AnyMeasure D) (w : Bool) (v : ℝ), checkCompat inputDim domain measure = .ok (⟨D, m⟩, w) ∧ 0 ≤ v ∧
      (o.scale = some .keep → v = 1) ∧
      (o.scale = none ∨ o.scale = some .mle → (∃ x ∈ log, F x ≠ 0) → 0 < v ∧ ∀ v' : ℝ, 0 < v' → v' ≠ v →
        normalPdf 0 (v' • gramOf (kernel.getD (defaultKernel inputDim)) (o.jitter.getD 1e-8) log) (fun i => F log[i]) <
        normalPdf 0 (v • gramOf (kernel.getD (defaultKernel inputDim)) (o.jitter.getD 1e-8) log) (fun i => F log[i])) ∧
      ∀ (μ : Measure (Fin D → ℝ)) (Ω : Type) (_ : MeasurableSpace Ω) (Q : Measure Ω) (g : (Fin D → ℝ) → Ω → ℝ)
        (e : Fin log.length → Ω → ℝ), IsMeasure m μ →
        (∀ x ∈ log, x ∈ region (kernel.getD (defaultKernel inputDim)) m) →
        IsPrior Q g e (fun x y => v * kernelValue (kernel.getD (defaultKernel inputDim)) x y) (v * o.jitter.getD 1e-8) →
        ∃ φ : (Fin log.length → ℝ) → Fin 1 → ℝ,
          IsConditional Q (fun ω _ => ∫ x, g x ω ∂μ) (fun ω i => g log[i] ω + e i ω) φ !![belief.2] ∧
          φ (fun i => F log[i]) = ![belief.1] := by
  obtain ⟨m, w, P, S, s, hc, hp, hS, hi, rfl⟩ := bayesquad_ok h
  obtain ⟨pol, des, _, _, _, hj, rfl⟩ := fromProblem_ok hS
  generalize kernel.getD (defaultKernel inputDim) = k at *
  generalize o.jitter.getD 1e-8 = j at *
  obtain ⟨e1, e2, e3, e4⟩ := problemOf_embeds hp hk
  have sym := (isPSD_iff.1 e2).1
  obtain ⟨hreach, hnodes, hevals⟩ := integrate_evaluates sym hf hi
  have hreach : Reachable ⟨j, o.scale.getD .mle⟩ P s := hreach
  subst hnodes
  have hval : (fun i : Fin s.nodes.length => vec s.evals i) = fun i => F s.nodes[i] := by
    funext i
    rw [vec, hevals, List.getD_eq_getElem _ _ (by rw [List.length_map]; exact i.2), List.getElem_map]
    rfl
  refine ⟨m, w, s.scaleSq, hc, (reach_unified sym hreach).2.2.1, ?_, ?_, ?_⟩
  · intro hs
    by_cases hne : s.nodes = []
    · exact (reach_nil sym hreach hne).2.1
    · have hcl := (reach_spec sym hreach hne).2.1
      rw [hs, Option.getD_some, closed] at hcl
      dsimp only at hcl
      split at hcl
      · rw [estimateScale] at hcl
        dsimp only at hcl
        split at hcl
        · cases hcl
        · exact (Prod.mk.inj (Except.ok.inj hcl)).1.symm
      · cases hcl
  · intro hs hne
    have hsc : o.scale.getD .mle = .mle := by rcases hs with h | h <;> rw [h] <;> rfl
    have hd : ∃ i < s.nodes.length, vec s.evals i ≠ 0 := by
      obtain ⟨x, hx, hx0⟩ := hne
      obtain ⟨i, hi, rfl⟩ := List.mem_iff_getElem.1 hx
      refine ⟨i, hi, ?_⟩
      have := congrFun hval ⟨i, hi⟩
      exact fun h0 => hx0 (this.symm.trans h0)
    have key := bq_scale_mle sym hsc hreach hd
    dsimp only at key
    rw [hval, gramOf_eq e1] at key
    exact key
  · intro μ Ω _ Q g e hμ hn hg
    have hE := e4 μ hμ
    rw [← e1] at hg
    have hx : ∃ x, x ∈ region k m := by
      cases m with
      | lebesgue a b c =>
        cases k with
        | matern _ _ => exact ⟨a, le_refl _, hμ.1⟩
        | expQuad _ _ => exact ⟨a, trivial⟩
        | other _ => exact ⟨a, trivial⟩
      | gaussian g => cases k <;> exact ⟨g.mean, trivial⟩
      | other => cases hμ
    obtain ⟨x, hx⟩ := hx
    obtain ⟨φ, c, hf1, hf2, _⟩ := bq_conditional hE hreach hn hg hx
    have hm := conditional_map hf1 (!![1, 0] : Matrix (Fin 1) (Fin 2) ℝ)
    refine ⟨fun y => !![1, 0] *ᵥ φ y, ?_, ?_⟩
    · convert hm using 1
      · funext ω i
        simp [Matrix.mulVec, dotProduct]
      · ext a b
        fin_cases a; fin_cases b
        simp [Matrix.mul_apply, Matrix.vecMul, dotProduct]
    · dsimp only
      rw [← hval, hf2]
      funext a
      fin_cases a
      simp [Matrix.mulVec, dotProduct]

/-- The policies that can be chosen by name. -/
theorem choosePolicy_ok {D : ℕ} {ρ : Type} {O : Oracle D ρ} (hO : O.Sized) {m : AnyMeasure D} {P : Problem (Fin D → ℝ)} {o : Options}
    {name : String} {pol : Option (Policy (Fin D → ℝ) ρ)} (h : choosePolicy O m P o (some name) = .ok pol) :
    name ∈ policyNames ∧ ∃ p, pol = some p ∧ p.batchSize = batchOf o name ∧ p.Sized ∧ (p.requiresRng = false → name = "vdc") := by
  rw [choosePolicy] at h
  by_cases h1 : name = "bmc"
  · rw [if_pos h1] at h
    cases h
    subst h1
    refine ⟨by decide, _, rfl, rfl, fun s r xs r' hc => ?_, fun hr => by cases hr⟩
    have := congrArg (fun z => z.1.length) (Except.ok.inj hc)
    exact this.symm.trans (hO.sample _ _)
  rw [if_neg h1] at h
  by_cases h2 : name = "vdc"
  · rw [if_pos h2] at h
    subst h2
    rw [vdcPolicy] at h
    cases hv : VdC.mk? (o.batchSize.getD 1) D (boundsOf m).1 (boundsOf m).2 with
    | error e => rw [hv] at h; cases h
    | ok v =>
      rw [hv] at h
      cases h
      refine ⟨by decide, _, rfl, rfl, fun s r xs r' hc => ?_, fun _ => rfl⟩
      have hlen := congrArg (fun z => z.1.length) (Except.ok.inj hc)
      have hb : v.batchSize = o.batchSize.getD 1 := by
        rw [VdC.mk?.eq_def] at hv
        split at hv
        · cases hv
        · split at hv
          · cases hv; rfl
          · cases hv
      refine hlen.symm.trans ?_
      dsimp only
      rw [List.length_map, call_eq, List.length_map, List.length_range, hb]
  rw [if_neg h2] at h
  have hb : batchOf o name = 1 := if_neg (by rintro (h | h) <;> contradiction)
  by_cases h3 : name ∈ ["us_rand", "mi_rand", "ivr_rand"]
  · rw [if_pos h3] at h
    have hm : name ∈ policyNames := by
      simp only [List.mem_cons, List.not_mem_nil, or_false] at h3
      rcases h3 with rfl | rfl | rfl <;> decide
    by_cases hn : o.nCandidates.getD 100 < 1
    · rw [(random_candidates hO).1 hn] at h; cases h
    · obtain ⟨p, hp, hp1, hp2, hp3⟩ := (random_candidates hO (acq := acquisition P (stem name))).2 (not_lt.1 hn)
      rw [hp] at h
      cases h
      refine ⟨hm, p, rfl, hp1.trans hb.symm, fun s r xs r' hc => ?_, fun hr => by rw [hp2] at hr; cases hr⟩
      obtain ⟨x, _, hx, _⟩ := hp3 s r
      rw [hx] at hc
      cases hc
      exact hp1.symm
  rw [if_neg h3] at h
  by_cases h4 : name ∈ ["us", "mi", "ivr"]
  · rw [if_pos h4] at h
    have hm : name ∈ policyNames := by
      simp only [List.mem_cons, List.not_mem_nil, or_false] at h4
      rcases h4 with rfl | rfl | rfl <;> decide
    by_cases hn : o.nRestarts.getD 10 < 1
    · rw [(optimizer_restarts O _ _).1 hn] at h; cases h
    · obtain ⟨p, hp, hp1, hp2, hp3⟩ := (optimizer_restarts O (acquisition P name) _).2 (not_lt.1 hn)
      rw [hp] at h
      cases h
      refine ⟨hm, p, rfl, hp1.trans hb.symm, fun s r xs r' hc => ?_, fun hr => by rw [hp2] at hr; cases hr⟩
      rcases hp3 s r with ⟨x, v, hx, _⟩ | ⟨hx, _⟩
      · rw [hx] at hc
        cases hc
        exact hp1.symm
      · rw [hx] at hc; cases hc
  rw [if_neg h4] at h
  cases h

theorem chooseDesign_ok {D : ℕ} {ρ : Type} {O : Oracle D ρ} (hO : O.Sized) {m : AnyMeasure D} {n : ℕ} {name : String}
    {des : Option (Bool × (ρ → List (Fin D → ℝ) × ρ))} (h : chooseDesign O m n (some name) = .ok des) :
    (name = "mc" ∨ name = "latin") ∧ ∃ d, des = some (true, d) ∧ ∀ r, (d r).1.length = n := by
  rw [chooseDesign.eq_def] at h
  dsimp only at h
  by_cases h1 : name = "mc"
  · rw [if_pos h1] at h
    cases h
    exact ⟨.inl h1, _, rfl, hO.sample n⟩
  rw [if_neg h1] at h
  by_cases h2 : name = "latin"
  · rw [if_pos h2] at h
    split at h
    · cases h
      exact ⟨.inr h2, _, rfl, hO.latin n⟩
    · cases h
  · rw [if_neg h2] at h
    cases h

/-- **C80.**  A call of `bayesquad` that returns: there is a known policy, and a random number generator unless the nodes are
those of the van der Corput sequence without an initial design.  The reported number of
evaluations is the number of evaluations; with `max_evals`, or no stopping option (then `25 * input_dim`), it is below this
limit plus the batch size, unless the initial design already reaches it.  Only `bmc` and `vdc` take a batch size. -/
theorem bayesquad_budget {D : ℕ} {ρ : Type} {O : Oracle D ρ} (hO : O.Sized) {fuel : ℕ} {f : List (Fin D → ℝ) → Rows ℝ} {inputDim : ℤ}
    {kernel : Option AnyKernel} {measure : Option SomeMeasure} {domain : Option (List (Arr ℝ))} {policy design : Option String}
    {hasRng : Bool} {r : ρ} {o : Options} {belief : ℝ × ℝ} {info : Info} {log : Log (Fin D → ℝ)}
    (h : bayesquad O fuel f inputDim kernel measure domain policy design hasRng r o = some (.ok (belief, info, log)))
    (hk : (kernel.getD (defaultKernel inputDim)).Proper) :
    ∃ name ∈ policyNames, policy = some name ∧ (hasRng = true ∨ (name = "vdc" ∧ design = none)) ∧ info.hasConverged = true ∧
      ∀ n : ℕ, o.maxEvals = some n ∨ (o.maxEvals = none ∧ o.varTol = none ∧ o.relTol = none ∧ n = inputDim.toNat * 25) →
        info.nevals = log.length ∧
        (log.length = (if design.isSome then o.nInitial.getD (5 * inputDim).toNat else 0) ∨ log.length < n + batchOf o name) := by
  obtain ⟨m, w, P, S, s, hc, hp, hS, hi, rfl⟩ := bayesquad_ok h
  obtain ⟨pol, des, hpol, hdes, hnone, hj, rfl⟩ := fromProblem_ok hS
  obtain ⟨e1, e2, e3, e4⟩ := problemOf_embeds hp hk
  have sym := (isPSD_iff.1 e2).1
  cases policy with
  | none =>
    cases hpol
    have := ((integrate_rejects (S := (⟨P, none, ⟨o.jitter.getD 1e-8, o.scale.getD .mle⟩,
      fromProblemCrit inputDim.toNat o.maxEvals o.varTol o.relTol false, des⟩ : Solver (Fin D → ℝ) ρ)) fuel hasRng r).2.2.2.2
        (some f) none rfl)
    rw [show (Option.isSome (none : Option String)) = false from rfl, this] at hi
    cases hi
  | some name =>
    obtain ⟨hmem, p, rfl, hb, hsz, hrng⟩ := choosePolicy_ok hO hpol
    refine ⟨name, hmem, rfl, ?_, integrate_converged hi, fun n hn => ?_⟩
    · by_contra hcon
      rw [not_or] at hcon
      obtain ⟨hr, hnd⟩ := hcon
      have hr : hasRng = false := by simpa using hr
      subst hr
      have := integrate_needs_rng (S := (⟨P, some p, ⟨o.jitter.getD 1e-8, o.scale.getD .mle⟩,
        fromProblemCrit inputDim.toNat o.maxEvals o.varTol o.relTol true, des⟩ : Solver (Fin D → ℝ) ρ)) fuel (some f) none none r
      rw [show (Option.isSome (some name)) = true from rfl, this] at hi
      · cases hi
      · by_cases hq : p.requiresRng = true
        · exact .inl ⟨p, rfl, hq⟩
        · have hv := hrng (by simpa using hq)
          cases design with
          | none => exact absurd ⟨hv, rfl⟩ hnd
          | some dn =>
            obtain ⟨_, d, rfl, _⟩ := chooseDesign_ok hO hdes
            exact .inr ⟨d, rfl⟩
    · have hlim : (fromProblemCrit (X := Fin D → ℝ) inputDim.toNat o.maxEvals o.varTol o.relTol true).Limits n := by
        rcases hn with hn | ⟨h1, h2, h3, rfl⟩
        · exact (from_problem_limits _ _ _ _ _ hn).1
        · rw [h1, h2, h3]
          exact (from_problem_limits (X := Fin D → ℝ) inputDim.toNat (some 0) none none 0 rfl).2
      obtain ⟨given, dsg, chosen, hg, hd, h1, h2, h3, _, h4⟩ := integrate_budget sym rfl hsz hlim hi
      have hg : given = [] := hg
      subst hg
      have hlog : log = dsg ++ chosen := by simpa using h2
      have hnev : info.nevals = log.length := by
        rw [h3, h1, hlog]
        simp
      have hdl : dsg.length = if design.isSome then o.nInitial.getD (5 * inputDim).toNat else 0 := by
        rw [hd]
        cases design with
        | none => cases hdes; rfl
        | some dn =>
          obtain ⟨_, d, rfl, hdl⟩ := chooseDesign_ok hO hdes
          exact hdl r
      refine ⟨hnev, ?_⟩
      rw [← hdl, ← hnev, ← hb]
      rcases h4 with h4 | h4
      · refine .inl ?_
        rw [hnev, hlog, h4, List.append_nil]
      · exact .inr h4

theorem integrate_terminates {X ρ : Type} {S : Solver X ρ} {p : Policy X ρ} (hS : S.policy = some p) (hb : 0 < p.batchSize) {n : ℕ}
    (hn : S.crit.Limits n) {fuel : ℕ} (hfuel : n < fuel) (f : Option (List X → Rows ℝ)) (nodes : Option (Rows X))
    (evals : Option (Rows ℝ)) (hasRng : Bool) (r : ρ) : S.integrate fuel f nodes evals hasRng r ≠ none := by
  rw [Solver.integrate]
  split
  · exact Option.some_ne_none _
  · split
    · exact Option.some_ne_none _
    · dsimp only
      split
      · exact Option.some_ne_none _
      · next s _ =>
        rw [hS, if_pos (by rfl)]
        exact bq_terminates (c := ⟨s, ⟨0, s.evals.length, false⟩, _, _⟩) hn hb (by omega) (by omega)

/-- **C80.**  With `max_evals`, or without any stopping option, and a positive batch size, `bayesquad` terminates: it runs for
at most as many iterations as evaluations are allowed. -/
theorem bayesquad_terminates {D : ℕ} {ρ : Type} {O : Oracle D ρ} (hO : O.Sized) {fuel n : ℕ} (hfuel : n < fuel)
    (f : List (Fin D → ℝ) → Rows ℝ) (inputDim : ℤ)
    (kernel : Option AnyKernel) (measure : Option SomeMeasure) (domain : Option (List (Arr ℝ))) (policy design : Option String)
    (hasRng : Bool) (r : ρ) {o : Options} (hb : 0 < o.batchSize.getD 1)
    (hn : o.maxEvals = some n ∨ (o.maxEvals = none ∧ o.varTol = none ∧ o.relTol = none ∧ n = inputDim.toNat * 25)) :
    bayesquad O fuel f inputDim kernel measure domain policy design hasRng r o ≠ none := by
  unfold bayesquad
  split
  · exact Option.some_ne_none _
  · next D' m w _ =>
    by_cases hD : D' = D
    · subst hD
      rw [dif_pos rfl]
      dsimp only
      rw [Ne, Option.map_eq_none_iff, runSolver.eq_def]
      split
      · next P _ =>
        split
        · exact Option.some_ne_none _
        · next S hS =>
          obtain ⟨pol, des, hpol, hdes, hnone, hj, rfl⟩ := fromProblem_ok hS
          cases policy with
          | none =>
            cases hpol
            rw [((integrate_rejects (S := (⟨P, none, ⟨o.jitter.getD 1e-8, o.scale.getD .mle⟩,
              fromProblemCrit inputDim.toNat o.maxEvals o.varTol o.relTol (Option.isSome (none : Option String)), des⟩ :
                Solver (Fin D' → ℝ) ρ)) fuel hasRng r).2.2.2.2 (some f) none rfl)]
            exact Option.some_ne_none _
          | some name =>
            obtain ⟨hmem, p, rfl, hb', _, _⟩ := choosePolicy_ok hO hpol
            refine integrate_terminates rfl ?_ ?_ hfuel _ _ _ _ _
            · rw [hb', batchOf]
              split
              · exact hb
              · exact one_pos
            · rcases hn with hn | ⟨h1, h2, h3, rfl⟩
              · exact (from_problem_limits _ _ _ _ _ hn).1
              · rw [h1, h2, h3]
                exact (from_problem_limits (X := Fin D' → ℝ) inputDim.toNat (some 0) none none 0 rfl).2
      · split
        · exact Option.some_ne_none _
        · split
          · exact Option.some_ne_none _
          · split <;> exact Option.some_ne_none _
    · rw [dif_neg hD]
      exact Option.some_ne_none _

/-- **C80.**  What `bayesquad` refuses: neither a domain nor a measure (ValueError); a policy that it does not know
(NotImplementedError); no policy at all. -/
theorem bayesquad_rejects {D : ℕ} {ρ : Type} (O : Oracle D ρ) (fuel : ℕ) (f : List (Fin D → ℝ) → Rows ℝ) (inputDim : ℤ)
    (kernel : Option AnyKernel) (design : Option String) (hasRng : Bool) (r : ρ) (o : Options) :
    (∀ policy, bayesquad O fuel f inputDim kernel none none policy design hasRng r o = some (.error .valueError)) ∧
    (∀ measure domain (m : AnyMeasure D) w name, checkCompat inputDim domain measure = .ok (⟨D, m⟩, w) → name ∉ policyNames →
      bayesquad O fuel f inputDim kernel measure domain (some name) design hasRng r o = some (.error .notImplementedError)) ∧
    (∀ measure domain, ∃ e, bayesquad O fuel f inputDim kernel measure domain none design hasRng r o = some (.error e)) := by
  refine ⟨fun policy => rfl, fun measure domain m w name hc hname => ?_, fun measure domain => ?_⟩
  · unfold bayesquad
    rw [hc]
    dsimp only
    rw [dif_pos rfl]
    have hch : ∀ P, choosePolicy O m P o (some name) = .error .notImplementedError := by
      intro P
      simp only [policyNames, List.mem_cons, List.not_mem_nil, or_false, not_or] at hname
      obtain ⟨h1, h2, h3, h4, h5, h6, h7, h8⟩ := hname
      rw [choosePolicy, if_neg h1, if_neg h2, if_neg (by simp [h3, h4, h5]), if_neg (by simp [h6, h7, h8])]
    have hmake : ∀ P, fromProblem inputDim (fun P => choosePolicy O m P o (some name)) (Option.isSome (some name))
        (chooseDesign O m (o.nInitial.getD (5 * inputDim).toNat) design) o P = .error .notImplementedError := by
      intro P
      rw [fromProblem, hch]
    rw [runSolver.eq_def]
    split
    · rw [hmake]; rfl
    · rw [hmake]; rfl
  · unfold bayesquad
    split
    · exact ⟨_, rfl⟩
    · next D' m w _ =>
      by_cases hD : D' = D
      · subst hD
        rw [dif_pos rfl]
        dsimp only
        rw [runSolver.eq_def]
        split
        · next P _ =>
          split
          · exact ⟨_, rfl⟩
          · next S hS =>
            obtain ⟨pol, des, hpol, hdes, hnone, hj, rfl⟩ := fromProblem_ok hS
            cases hpol
            rw [((integrate_rejects (S := (⟨P, none, ⟨o.jitter.getD 1e-8, o.scale.getD .mle⟩,
              fromProblemCrit inputDim.toNat o.maxEvals o.varTol o.relTol (Option.isSome (none : Option String)), des⟩ :
                Solver (Fin D' → ℝ) ρ)) fuel hasRng r).2.2.2.2 (some f) none rfl)]
            exact ⟨_, rfl⟩
        · split
          · exact ⟨_, rfl⟩
          · split
            · exact ⟨_, rfl⟩
            · split <;> exact ⟨_, rfl⟩
      · rw [dif_neg hD]
        exact ⟨_, rfl⟩

/-! ## Success -/

theorem call_succeeds {D : ℕ} {k : AnyKernel} {P : Problem (Fin D → ℝ)} (e1 : P.k = kernelValue k) (e2 : IsPSD P.k) {j : ℝ}
    (hj : 0 < j) {sc : ScaleEst} (hsc : sc ≠ .other) {s : State (Fin D → ℝ)} (hs : Fits P s) {xs : List (Fin D → ℝ)} {ys : List ℝ}
    (hl : ys.length = xs.length) (hne : xs ≠ []) : ∃ t, Update.call ⟨j, sc⟩ P s xs ys = .ok t := by
  obtain ⟨G, _, hcall⟩ := call_closed ⟨j, sc⟩ P (isPSD_iff.1 e2).1 hs xs ys
  rw [hcall, closed]
  dsimp only
  rw [gramOf_eq e1, if_pos (gramOf_posDef (by rw [← e1]; exact e2) hj _)]
  have hlen : ¬ (s.evals ++ ys).length ≠ (s.nodes ++ xs).length := by
    rw [not_not, List.length_append, List.length_append, hs.evals, hl]
  have hne' : (s.nodes ++ xs).length ≠ 0 := by
    rw [List.length_append]
    have := List.length_pos_iff.2 hne
    omega
  cases sc with
  | keep =>
    rw [estimateScale]
    dsimp only
    rw [if_neg hlen]
    exact ⟨_, rfl⟩
  | mle =>
    rw [estimateScale, if_neg hlen, if_neg hne']
    dsimp only
    rw [if_neg hlen]
    exact ⟨_, rfl⟩
  | other => exact absurd rfl hsc

theorem loop_succeeds {D : ℕ} {ρ : Type} {k : AnyKernel} {P : Problem (Fin D → ℝ)} (e1 : P.k = kernelValue k) (e2 : IsPSD P.k) {j : ℝ}
    (hj : 0 < j) {sc : ScaleEst} (hsc : sc ≠ .other) {crit : Crit (Fin D → ℝ)} {p : Policy (Fin D → ℝ) ρ} {f : List (Fin D → ℝ) → List ℝ}
    (hf : ∀ xs, (f xs).length = xs.length) (hp : ∀ s r, ∃ xs r', p.call s r = .ok (xs, r') ∧ xs ≠ []) :
    ∀ (fuel : ℕ) (s : State (Fin D → ℝ)) (info : Info) (r : ρ) (log : Log (Fin D → ℝ)) (e : PyErr), Fits P s →
      bqLoop P ⟨j, sc⟩ crit (some p) f fuel s info r log ≠ some (.error e)
  | 0, _, _, _, _, _, _ => by
    intro h
    cases h
  | fuel + 1, s, info, r, log, e, hs => by
    rw [bqLoop.eq_def]
    dsimp only
    split
    · intro h; cases h
    · obtain ⟨xs, r', h1, h2⟩ := hp s r
      rw [h1]
      dsimp only
      obtain ⟨t, ht⟩ := call_succeeds e1 e2 hj hsc hs (hf xs) h2
      rw [ht]
      exact loop_succeeds e1 e2 hj hsc hf hp fuel t _ _ _ e (hs.call (isPSD_iff.1 e2).1 ht).1

/-- **C80.**  Bayesian Monte Carlo succeeds: with a measure or a valid domain, a kernel whose embedding is known, a positive
jitter, a known way to estimate the scale, a positive batch size, an integrand that returns one value per node, a generator,
and an evaluation budget, `bayesquad` with the policy `bmc` returns a belief; no numerical failure is possible. -/
theorem bayesquad_succeeds {D : ℕ} {ρ : Type} {O : Oracle D ρ} (hO : O.Sized) {fuel n : ℕ} (hfuel : n < fuel)
    {f : List (Fin D → ℝ) → Rows ℝ} (hf : ∀ xs, (f xs).rows.length = xs.length) {inputDim : ℤ} {kernel : Option AnyKernel}
    {measure : Option SomeMeasure} {domain : Option (List (Arr ℝ))} {m : AnyMeasure D} {w : Bool}
    (hc : checkCompat inputDim domain measure = .ok (⟨D, m⟩, w)) (hk : (kernel.getD (defaultKernel inputDim)).Proper)
    (hm : Compatible (kernel.getD (defaultKernel inputDim)) m) {o : Options} (hj : 0 < o.jitter.getD 1e-8)
    (hsc : o.scale ≠ some .other) (hb : 0 < o.batchSize.getD 1)
    (hn : o.maxEvals = some n ∨ (o.maxEvals = none ∧ o.varTol = none ∧ o.relTol = none ∧ n = inputDim.toNat * 25))
    {design : Option String} (hd : design = none ∨ design = some "mc" ∧ 0 < o.nInitial.getD (5 * inputDim).toNat) (r : ρ) :
    ∃ z, bayesquad O fuel f inputDim kernel measure domain (some "bmc") design true r o = some (.ok z) := by
  have hsome := bayesquad_terminates hO hfuel f inputDim kernel measure domain (some "bmc") design true r hb hn
  obtain ⟨P, hP⟩ := problem_iff.2 hm
  obtain ⟨e1, e2, _, _⟩ := problemOf_embeds hP hk
  have hsc' : o.scale.getD .mle ≠ .other := by
    cases h : o.scale with
    | none => intro h'; cases h'
    | some t => exact fun h' => hsc (h.trans (congrArg some h'))
  obtain ⟨q, hq⟩ := Option.ne_none_iff_exists'.1 hsome
  rw [hq]
  cases q with
  | ok z => exact ⟨z, rfl⟩
  | error err =>
    exfalso
    unfold bayesquad at hq
    rw [hc] at hq
    dsimp only at hq
    rw [dif_pos rfl] at hq
    obtain ⟨des, hdes, hdne⟩ : ∃ des, chooseDesign O m (o.nInitial.getD (5 * inputDim).toNat) design = .ok des ∧
        ∀ d, des = some d → (d.2 r).1 ≠ [] := by
      rcases hd with rfl | ⟨rfl, h0⟩
      · exact ⟨none, rfl, fun d hd => (by cases hd)⟩
      · refine ⟨_, rfl, fun d hd => ?_⟩
        cases hd
        intro hnil
        have := hO.sample (o.nInitial.getD (5 * inputDim).toNat) r
        rw [hnil] at this
        exact absurd this.symm (by simpa using h0.ne')
    have hmake : fromProblem inputDim (fun P => choosePolicy O m P o (some "bmc")) (Option.isSome (some "bmc"))
        (chooseDesign O m (o.nInitial.getD (5 * inputDim).toNat) design) o P =
        .ok ⟨P, some (randomPolicy O (o.batchSize.getD 1)), ⟨o.jitter.getD 1e-8, o.scale.getD .mle⟩,
          fromProblemCrit inputDim.toNat o.maxEvals o.varTol o.relTol true, des⟩ := by
      rw [fromProblem, hdes]
      dsimp only
      rw [choosePolicy, if_pos rfl]
      dsimp only
      rw [Update.mk?, if_neg (not_lt.2 hj.le)]
      rfl
    rw [hP, runSolver, hmake] at hq
    dsimp only at hq
    have hpol : ∀ s r', ∃ xs r'', (randomPolicy O (o.batchSize.getD 1)).call s r' = .ok (xs, r'') ∧ xs ≠ [] := by
      intro s r'
      refine ⟨_, _, rfl, fun hnil => ?_⟩
      have := hO.sample (o.batchSize.getD 1) r'
      rw [hnil] at this
      exact absurd this.symm (by simpa using hb.ne')
    rw [Solver.integrate, show Solver.prepare _ (some f) none none true = .ok (none, [], []) from rfl] at hq
    dsimp only at hq
    rw [Solver.start] at hq
    cases des with
    | none =>
      dsimp only at hq
      rw [if_pos (by rfl)] at hq
      revert hq
      generalize hL : bqLoop _ _ _ _ _ _ _ _ _ _ = L
      intro hq
      cases L with
      | none => cases hq
      | some l =>
        cases l with
        | ok _ => cases hq
        | error e =>
          exact loop_succeeds e1 e2 hj hsc' (f := integrand (some f)) hf hpol _ _ _ _ _ _ (fits_initial P) hL
    | some d =>
      obtain ⟨needs, d⟩ := d
      dsimp only at hq
      rw [if_neg (by simp)] at hq
      dsimp only at hq
      obtain ⟨t, ht⟩ := call_succeeds (s := State.initial P) (xs := (d r).1) (ys := (f (d r).1).rows) e1 e2 hj hsc' (fits_initial P) (hf _)
        (hdne _ rfl)
      rw [show Update.call _ P (State.initial P) (d r).1 (integrand (some f) (d r).1) = .ok t from ht] at hq
      dsimp only at hq
      rw [if_pos (by rfl)] at hq
      revert hq
      generalize hL : bqLoop _ _ _ _ _ _ _ _ _ _ = L
      intro hq
      cases L with
      | none => cases hq
      | some l =>
        cases l with
        | ok _ => cases hq
        | error e =>
          exact loop_succeeds e1 e2 hj hsc' (f := integrand (some f)) hf hpol _ _ _ _ _ _
            ((fits_initial P).call (isPSD_iff.1 e2).1 ht).1 hL

/-! ## A disagreement -/

/-- **C80, disagreement.**  Nodes outside the domain are accepted, but the kernel mean of a Matérn kernel is not the integral
there: with the value one at the node two, and the domain from zero to one, the mean of the integral is negative, although
the kernel is positive (and with it every conditional mean given a positive value). -/
theorem from_data_outside : ∃ belief info,
    bayesquadFromData (D := 1) ⟨2, [fun _ => 2]⟩ ⟨1, [1]⟩ (some (.matern 1 (.matern (.inl 1) (1 / 2))))
      (some ⟨1, .lebesgue (fun _ => 0) (fun _ => 1) 1⟩) none { scale := some .keep } = .ok (belief, info) ∧
    belief.1 < 0 ∧ ∀ z : Fin 1 → ℝ, 0 < kernelValue (.matern 1 (.matern (.inl 1) (1 / 2))) (fun _ => 2) z := by
  have hk : AnyKernel.Proper (.matern 1 (.matern (.inl 1) (1 / 2))) := ⟨by norm_num, one_pos⟩
  have hval : ∀ x z : Fin 1 → ℝ, kernelValue (.matern 1 (.matern (.inl 1) (1 / 2))) x z = Real.exp (-|x 0 - z 0|) := by
    intro x z
    have hp : (⟨1 / 2, 1⟩ : Matern1).p = some 0 := by
      rw [Matern1.p]
      norm_num
    simp only [kernelValue, dif_pos, convertToProduct, productValue]
    rw [if_neg (by decide)]
    rw [show ((1 : ℚ) / 2) = 2⁻¹ by norm_num] at hp
    simp [List.finRange, Matern1.value, hp]
    rw [matern1_eq 0 one_pos, matern_value, coeffs0]
    simp
  obtain ⟨⟨belief, info⟩, h⟩ := (from_data_outcome (D := 1) ⟨2, [fun _ => 2]⟩ ⟨1, [1]⟩ (some (.matern 1 (.matern (.inl 1) (1 / 2))))
    (some ⟨1, .lebesgue (fun _ => 0) (fun _ => 1) 1⟩) none { scale := some .keep } hk (by norm_num) (by simp)).2
    ⟨rfl, rfl, rfl, by decide, _, _, rfl, rfl, le_refl _, fun _ => .inl rfl⟩
  refine ⟨belief, info, h, ?_, fun z => by rw [hval]; exact Real.exp_pos _⟩
  rw [from_data_eq, if_neg (by simp)] at h
  dsimp only [checkCompat] at h
  rw [if_neg (by norm_num), if_neg (by simp), Option.getD_some] at h
  cases hp : problemOf (D := 1) (.matern 1 (.matern (.inl 1) (1 / 2))) ⟨1, .lebesgue (fun _ => 0) (fun _ => 1) 1⟩ with
  | error e => rw [hp] at h; cases h
  | ok P =>
    rw [hp] at h
    dsimp only at h
    obtain ⟨e1, e2, e3, e4⟩ := problemOf_embeds hp hk
    have sym := (isPSD_iff.1 e2).1
    cases hu : Update.call ⟨(none : Option ℝ).getD 1e-8, (some ScaleEst.keep).getD .mle⟩ P (State.initial P) [fun _ => 2] [1] with
    | error e => rw [hu] at h; cases h
    | ok s =>
      rw [hu] at h
      obtain ⟨h1, _⟩ := Prod.mk.inj (Except.ok.inj h)
      obtain ⟨_, hn, hev, _⟩ := (fits_initial P).call sym hu
      have hn : s.nodes = [fun _ => 2] := hn
      have hev : s.evals = [1] := hev
      have hreach : Reachable ⟨(none : Option ℝ).getD 1e-8, (some ScaleEst.keep).getD .mle⟩ P s := ⟨[([fun _ => 2], [1])], by rw [updates, hu]; rfl⟩
      have hm := reach_mean sym hreach
      have hpd := (reach_unified sym hreach).2.2.2.1
      have hsol := choSolve_solves hpd (vec (s.nodes.map P.mean)) 0 (by rw [hn]; exact Nat.one_pos)
      have hPm : P.mean (fun _ => 2) = 2 - Real.exp (-2) - Real.exp 1 := by
        have he := problem_mean (μ := (volume : Measure (Fin 1 → ℝ)).restrict (Set.Icc (fun _ => 0) fun _ => 1)) hp hk ?_
        · obtain ⟨emb, he, _, hmean⟩ := he
          have hmean := hmean fun _ => 2
          rw [kernelEmbedding, if_neg (by simp [AnyKernel.shape]), getEmbedding, dif_pos rfl] at he
          have he := Except.ok.inj he
          rw [← he] at hmean
          simp [kernelMean, convertToProduct, kernelMeanProduct, prodLoop, List.finRange, kernelMean1] at hmean
          rw [← hmean]
          norm_num
        · exact ⟨fun _ => zero_le_one, zero_le_one, by simp⟩
      rw [hn] at hm hsol
      rw [hev] at hm
      simp [dot, vec, hPm, kernelMatrix, e1, eye] at hm hsol
      have hv2 := hval (fun _ => 2) fun _ => 2
      rw [show ((1 : ℚ) / 2) = 2⁻¹ by norm_num] at hv2
      rw [← hm, hv2] at hsol
      simp only [sub_self, abs_zero, neg_zero, Real.exp_zero] at hsol
      rw [← h1]
      have g1 : 0 < Real.exp (-2) := Real.exp_pos _
      have g2 := Real.add_one_lt_exp (x := 1) one_ne_zero
      by_contra hcon
      have : 0 ≤ (1 + 1e-8) * s.belief.1 := mul_nonneg (by norm_num) (not_lt.1 hcon)
      linarith

/-- **C80**: the kernel used if none is given. -/
theorem default_kernel {D : ℕ} (n : ℤ) (x y : Fin D → ℝ) : kernelValue (defaultKernel n) x y = Real.exp (-(∑ i, (x i - y i) ^ 2) / 2) := by
  simp [defaultKernel, kernelValue, expquad]

/-! ## Examples -/

/-- Data as in `from_data_conditional`, for the default kernel: the call succeeds, and the priors exist for every scale. -/
example : (∃ r, bayesquadFromData (D := 1) ⟨2, [fun _ => 0, fun _ => 1]⟩ ⟨1, [1, 3]⟩ none
      (some ⟨1, .lebesgue (fun _ => 0) (fun _ => 1) 1⟩) none {} = .ok r) ∧
    IsMeasure (D := 1) (.lebesgue (fun _ => 0) (fun _ => 1) 1) (ENNReal.ofReal 1 • volume.restrict (Set.Icc (fun _ => 0) fun _ => 1)) ∧
    ∀ v : ℝ, 0 ≤ v → ∃ (Ω : Type) (_ : MeasurableSpace Ω) (Q : Measure Ω) (g : (Fin 1 → ℝ) → Ω → ℝ) (e : Fin 2 → Ω → ℝ),
      IsPrior Q g e (fun x y => v * kernelValue (defaultKernel 1) x y) (v * 1e-8) := by
  refine ⟨(from_data_outcome _ _ _ _ _ _ one_pos (by norm_num) (by simp)).2 ⟨rfl, rfl, rfl, by simp, _, _, rfl, rfl⟩,
    ⟨fun _ => zero_le_one, zero_le_one, rfl⟩, fun v hv => ?_⟩
  exact exists_expquad_prior one_ne_zero hv (mul_nonneg hv (by norm_num))

/-- Data on two levels as in `multilevel_conditional`, the second level with its own lengthscale. -/
example : (∃ r, multilevelFromData (D := 1) [⟨2, [fun _ => 0]⟩, ⟨2, [fun _ => 1, fun _ => 2]⟩] [⟨1, [1]⟩, ⟨1, [2, 3]⟩]
      (some [.expQuad [1] (.inl 1), .expQuad [1] (.inl 2)])
      (some ⟨1, .lebesgue (fun _ => 0) (fun _ => 1) 1⟩) none {} = .ok r) ∧
    ∀ v : Fin 2 → ℝ, (∀ l, 0 ≤ v l) →
      ∃ (Ω : Type) (_ : MeasurableSpace Ω) (Q : Measure Ω) (g : Fin 2 → (Fin 1 → ℝ) → Ω → ℝ) (e : ∀ l : Fin 2, Fin (![1, 2] l) → Ω → ℝ),
        IsMultiPrior Q g e (fun l x y => v l * kernelValue (![.expQuad [1] (.inl 1), .expQuad [1] (.inl 2)] l) x y)
          (fun l => v l * 1e-8) := by
  constructor
  · have h0 := (from_data_outcome (D := 1) ⟨2, [fun _ => 0]⟩ ⟨1, [1]⟩ (some (.expQuad [1] (.inl 1)))
      (some ⟨1, .lebesgue (fun _ => 0) (fun _ => 1) 1⟩) none {} one_pos (by norm_num) (by simp)).2 ⟨rfl, rfl, rfl, by simp, _, _, rfl, rfl⟩
    have h1 := (from_data_outcome (D := 1) ⟨2, [fun _ => 1, fun _ => 2]⟩ ⟨1, [2, 3]⟩ (some (.expQuad [1] (.inl 2)))
      (some ⟨1, .lebesgue (fun _ => 0) (fun _ => 1) 1⟩) none {} two_pos (by norm_num) (by simp)).2 ⟨rfl, rfl, rfl, by simp, _, _, rfl, rfl⟩
    obtain ⟨r0, h0⟩ := h0
    obtain ⟨r1, h1⟩ := h1
    refine ⟨_, (multilevel_iff ..).2 ⟨.inr rfl, fun ks hks => by cases hks; rfl, ![r0, r1], fun l => ?_, rfl⟩⟩
    fin_cases l
    · exact ⟨_, rfl, h0⟩
    · exact ⟨_, rfl, h1⟩
  · intro v hv
    obtain ⟨Ω, m, Q, g, e, h⟩ := exists_expquad_priors (D := 1) (L := Fin 2) (ι := fun l => Fin (![1, 2] l)) (ell := ![1, 2]) (s := v)
      (v := fun l => v l * 1e-8) (fun l => by fin_cases l <;> simp) hv fun l => mul_nonneg (hv l) (by norm_num)
    refine ⟨Ω, m, Q, g, e, ?_⟩
    convert h using 1
    funext l x y
    fin_cases l <;> rfl

/-- A source of nodes for the examples: the origin, again and again; the optimizer stays at its starting point. -/
def originOracle (D : ℕ) : Oracle D Unit where
  sample n r := (List.replicate n 0, r)
  latin n r := (List.replicate n 0, r)
  minimize f x := (true, f x, x)

theorem originOracle_sized (D : ℕ) : (originOracle D).Sized :=
  ⟨fun _ _ => List.length_replicate, fun _ _ => List.length_replicate⟩

/-- A run of `bayesquad` as in `bayesquad_conditional` and `bayesquad_budget`: seven evaluations of a function of two
variables, two of them in the initial design. -/
example : ∃ z, bayesquad (originOracle 2) 8 (fun xs => ⟨1, xs.map fun x => x 0 + 2 * x 1⟩) 2 none
    (some ⟨2, .lebesgue (fun _ => 0) (fun _ => 1) 1⟩) none (some "bmc") (some "mc") true ()
      { maxEvals := some 7, batchSize := some 5, nInitial := some 2 } = some (.ok z) :=
  bayesquad_succeeds (originOracle_sized 2) (n := 7) (by norm_num) (fun xs => by simp) (m := .lebesgue (fun _ => 0) (fun _ => 1) 1)
    (kernel := none) (inputDim := 2) rfl one_pos rfl (by norm_num) (by simp) (by norm_num) (.inl rfl) (.inr ⟨rfl, by norm_num⟩) ()

end Probnum.Quad
