import Verif.Linalg.LemmasCG
import Verif.Linalg.PropsLoop
import Verif.GramSchmidt.Model
import Mathlib.Tactic.FinCases

/-!
# C61: the conjugate gradient policy
-/

namespace Probnum.Linalg.CG

open Matrix Loop

variable {n : Type} [Fintype n]

/-- The inner product given by an optional matrix. -/
def dotIn (ip : Option (Matrix n n ℝ)) (u v : n → ℝ) : ℝ :=
  match ip with
  | none => u ⬝ᵥ v
  | some M => u ⬝ᵥ M *ᵥ v

/-- A reorthogonalisation function that leaves a vector alone which is orthogonal to all vectors of a non-empty basis (as
the Gram-Schmidt functions of the library do, see `gramSchmidt_idle`). -/
def Idle (f : Reorth n) : Prop :=
  ∀ v us ip, us ≠ [] → (∀ u ∈ us, dotIn ip u u ≠ 0) → (∀ u ∈ us, dotIn ip u v = 0) → f v us ip = .ok v

/-- A stopping criterion that only looks at the state (which may cache the current residual). -/
def Looks (A : Matrix n n ℝ) (rhs : n → ℝ) (stop : Cmp n Bool) : Prop :=
  ∀ st b st', stop st = .ok (b, st') → st' = st ∨ st' = st.touch (resid A rhs)

/-- What the run has produced after `k` completed iterations: residuals `r i` (of the beliefs at the start of step `i`) and
actions `s i`. -/
private structure RunInv (A : Matrix n n ℝ) (rhs : n → ℝ) (S0 : Matrix n n ℝ) (keep : Prop) (st : St n)
    (r s : ℕ → n → ℝ) (k : ℕ) : Prop where
  step : st.step = k
  cur : r k = resid A rhs st.belief
  acts : ∀ i < k, st.actions[i]? = some (some (s i))
  act : st.actions[k]? = some none
  alen : st.actions.length = k + 1
  obs : st.observations[k]? = some none
  olen : st.observations.length = k + 1
  ress : ∀ i < k, st.residuals[i]? = some (some (r i))
  res : st.residuals[k]? = some none ∨ st.residuals[k]? = some (some (r k))
  rlen : st.residuals.length = k + 1
  cache : keep → st.cache = (List.range k).map r
  cg : CgInv A S0 r s st.belief.cov k

private theorem RunInv.touch {A : Matrix n n ℝ} {rhs : n → ℝ} {S0 : Matrix n n ℝ} {keep : Prop} {st : St n}
    {r s : ℕ → n → ℝ} {k : ℕ} (h : RunInv A rhs S0 keep st r s k) :
    RunInv A rhs S0 keep (st.touch (resid A rhs)) r s k ∧
      st.residual (resid A rhs) = .ok (r k, st.touch (resid A rhs)) ∧
      (st.touch (resid A rhs)).residuals[k]? = some (some (r k)) := by
  rcases h.res with h1 | h1
  · have e : st.touch (resid A rhs) = { st with residuals := st.residuals.set k (some (r k)) } := by
      unfold State.touch
      rw [h.step, h1]
      dsimp only
      rw [h.cur]
    have hk : (st.residuals.set k (some (r k)))[k]? = some (some (r k)) := by
      simp [h.rlen]
    rw [e]
    refine ⟨⟨h.step, h.cur, h.acts, h.act, h.alen, h.obs, h.olen, ?_, Or.inr hk, ?_, h.cache, h.cg⟩, ?_, hk⟩
    · intro i hi
      show (st.residuals.set k (some (r k)))[i]? = _
      rw [List.getElem?_set]
      rw [if_neg (by omega : k ≠ i)]
      exact h.ress i hi
    · simp [h.rlen]
    · unfold State.residual
      rw [e, h.step]
      dsimp only
      rw [hk]
  · have e : st.touch (resid A rhs) = st := by
      unfold State.touch
      rw [h.step, h1]
    rw [e]
    refine ⟨h, ?_, h1⟩
    unfold State.residual
    rw [e, h.step, h1]

private theorem norm2_ratio (u v : n → ℝ) : (norm2 u / norm2 v) ^ 2 = (u ⬝ᵥ u) / (v ⬝ᵥ v) := by
  have h0 : ∀ w : n → ℝ, 0 ≤ w ⬝ᵥ w := fun w => by simpa using dotProduct_self_star_nonneg (v := w)
  rw [div_pow, norm2, norm2, Real.sq_sqrt (h0 u), Real.sq_sqrt (h0 v)]

private theorem norm2_eq_zero (v : n → ℝ) : norm2 v = 0 ↔ v = 0 := by
  have h0 : 0 ≤ v ⬝ᵥ v := by simpa using dotProduct_self_star_nonneg (v := v)
  rw [norm2, Real.sqrt_eq_zero h0, dotProduct_self_eq_zero]

/-- The action computed by the policy. -/
private theorem policy_spec {A : Matrix n n ℝ} {rhs : n → ℝ} {S0 : Matrix n n ℝ} (hS : IsPsd S0)
    (hG : ∀ v, v ⬝ᵥ (A * S0 * Aᵀ) *ᵥ v = 0 → v = 0) {reR reA : Option (Reorth n)}
    (hR : ∀ f, reR = some f → Idle f) (hA : ∀ f, reA = some f → Idle f)
    {st st' : St n} {r s : ℕ → n → ℝ} {k : ℕ} {a : n → ℝ}
    (h : RunInv A rhs S0 (reR.isSome) st r s k) (hp : policy A rhs S0 reR reA st = .ok (a, st')) :
    (k = 0 → a = r 0) ∧ (∀ j, k = j + 1 → r j ≠ 0 ∧ a = r k + ((r k ⬝ᵥ r k) / (r j ⬝ᵥ r j)) • s j) ∧
    ∃ c, st' = { st.touch (resid A rhs) with cache := c, step := k } ∧ (reR.isSome → c = (List.range (k + 1)).map r) := by
  obtain ⟨ht, hres, hk⟩ := h.touch
  unfold policy at hp
  rw [hres] at hp
  dsimp only at hp
  rw [ht.step] at hp
  split at hp
  · rename_i hk0
    subst hk0
    refine ⟨fun _ => ?_, fun j hj => by omega, ?_⟩
    · cases reR with
      | none => exact (congrArg Prod.fst (Except.ok.inj hp)).symm
      | some f => exact (congrArg Prod.fst (Except.ok.inj hp)).symm
    · cases reR with
      | none =>
        refine ⟨(st.touch (resid A rhs)).cache, ?_, by simp⟩
        have := (congrArg Prod.snd (Except.ok.inj hp)).symm
        dsimp only at this
        rw [this, ← ht.step]
      | some f =>
        refine ⟨(st.touch (resid A rhs)).cache ++ [r 0], (congrArg Prod.snd (Except.ok.inj hp)).symm, fun _ => ?_⟩
        rw [ht.cache rfl]
        simp
  · rename_i hk0
    obtain ⟨j, rfl⟩ : ∃ j, k = j + 1 := ⟨k - 1, by omega⟩
    cases hrp : residualPair reR (r (j + 1)) (st.touch (resid A rhs)) with
    | error e => rw [hrp] at hp; cases hp
    | ok p =>
      obtain ⟨res, prev, cache⟩ := p
      rw [hrp] at hp
      dsimp only at hp
      rw [Nat.add_sub_cancel, ht.acts j (by omega)] at hp
      dsimp only at hp
      cases hc : correct res prev (s j) with
      | error e => rw [hc] at hp; cases hp
      | ok act =>
        rw [hc] at hp
        dsimp only at hp
        have hprev0 : prev ≠ 0 ∧ act = res + ((res ⬝ᵥ res) / (prev ⬝ᵥ prev)) • s j := by
          unfold correct at hc
          split at hc
          · cases hc
          · rename_i hne
            rw [norm2_eq_zero] at hne
            refine ⟨hne, ?_⟩
            rw [← norm2_ratio]
            exact (Except.ok.inj hc).symm
        -- the pair of residuals
        have hpair : prev = r j ∧ res = r (j + 1) ∧ (reR.isSome → cache = (List.range (j + 2)).map r) := by
          unfold residualPair at hrp
          cases reR with
          | none =>
            dsimp only at hrp
            rw [ht.step, Nat.add_sub_cancel, ht.ress j (by omega)] at hrp
            have := Except.ok.inj hrp
            simp only [Prod.mk.injEq] at this
            exact ⟨this.2.1.symm, this.1.symm, by simp⟩
          | some f =>
            dsimp only at hrp
            cases hf : f (r (j + 1)) (st.touch (resid A rhs)).cache none with
            | error e => rw [hf] at hrp; cases hrp
            | ok res' =>
              rw [hf] at hrp
              dsimp only at hrp
              have hcache := ht.cache rfl
              rw [ht.step, Nat.add_sub_cancel, hcache] at hrp
              have hget : ((List.range (j + 1)).map r ++ [res'])[j]? = some (r j) := by
                rw [List.getElem?_append_left (by simp)]
                simp
              rw [hget] at hrp
              have h3 := Except.ok.inj hrp
              simp only [Prod.mk.injEq] at h3
              have hrj : r j ≠ 0 := by rw [h3.2.1]; exact hprev0.1
              have hall : ∀ i ≤ j, r i ≠ 0 := by
                intro i hi
                rcases Nat.lt_or_ge i j with h4 | h4
                · exact ht.cg.nz i (by omega)
                · obtain rfl : i = j := by omega
                  exact hrj
              have hidle := hR f rfl (r (j + 1)) ((List.range (j + 1)).map r) none (by simp [List.range_succ])
                (by
                  intro u hu
                  obtain ⟨i, hi, rfl⟩ := List.mem_map.1 hu
                  exact fun h0 => hall i (by have := List.mem_range.1 hi; omega) (dotProduct_self_eq_zero.1 h0))
                (by
                  intro u hu
                  obtain ⟨i, hi, rfl⟩ := List.mem_map.1 hu
                  exact ht.cg.orth i (j + 1) (List.mem_range.1 hi) le_rfl)
              rw [hcache, hidle] at hf
              have h5 := Except.ok.inj hf
              refine ⟨h3.2.1.symm, by rw [← h3.1, ← h5], fun _ => ?_⟩
              rw [← h3.2.2, ← h5, List.range_succ (n := j + 1)]
              simp
        obtain ⟨e1, e2, e3⟩ := hpair
        rw [e1] at hprev0
        rw [e2] at hprev0
        obtain ⟨hrj, hact⟩ := hprev0
        -- the action is already conjugate, so that reorthogonalising does nothing
        have hre : reorthAction A S0 reA act (st.touch (resid A rhs)) = .ok act := by
          unfold reorthAction
          cases reA with
          | none => rfl
          | some f =>
            dsimp only
            have hbasis : ((st.touch (resid A rhs)).actions.take (j + 1)).filterMap id = (List.range (j + 1)).map s := by
              have : (st.touch (resid A rhs)).actions.take (j + 1) = (List.range (j + 1)).map (fun i => some (s i)) := by
                apply List.ext_getElem?
                intro i
                rcases Nat.lt_or_ge i (j + 1) with h4 | h4
                · rw [List.getElem?_take_of_lt h4, ht.acts i h4]
                  simp [h4]
                · rw [List.getElem?_eq_none (by simp; omega), List.getElem?_eq_none (by simp; omega)]
              rw [this, List.filterMap_map]
              induction List.range (j + 1) with
              | nil => rfl
              | cons x xs ih =>
                rw [List.filterMap_cons]
                simp [ih]
            rw [ht.step, hbasis]
            -- conjugacy by one more (hypothetical) step of the invariant
            have hstep := CgInv.step hS
              (r := fun i => if i ≤ j + 1 then r i else
                r (j + 1) - ((act ⬝ᵥ r (j + 1)) * gramPinv ((act ᵥ* A) ⬝ᵥ (st.touch (resid A rhs)).belief.cov *ᵥ (act ᵥ* A))) •
                  (A *ᵥ ((st.touch (resid A rhs)).belief.cov *ᵥ (act ᵥ* A))))
              (s := fun i => if i < j + 1 then s i else act)
              (P := (st.touch (resid A rhs)).belief.cov) (k := j + 1)
              (ht.cg.congr (fun i hi => by simp [hi]) (fun i hi => by simp [hi])) hG (by omega)
              (by
                intro l hl
                obtain rfl : j = l := by omega
                simp only [(by omega : j ≤ j + 1), if_true, le_refl, lt_irrefl, if_false, (by omega : j < j + 1)]
                exact ⟨hrj, hact⟩)
              (by simp)
            refine hA f rfl act _ _ (by simp [List.range_succ]) ?_ ?_
            · intro u hu
              obtain ⟨i, hi, rfl⟩ := List.mem_map.1 hu
              have hi' := List.mem_range.1 hi
              intro h0
              have h6 := ht.cg.ss i hi'
              rw [hG _ h0, zero_dotProduct] at h6
              have h7 : r i = 0 := dotProduct_self_eq_zero.1 h6.symm
              rcases Nat.lt_or_ge i j with h4 | h4
              · exact ht.cg.nz i (by omega) h7
              · obtain rfl : i = j := by omega
                exact hrj h7
            · intro u hu
              obtain ⟨i, hi, rfl⟩ := List.mem_map.1 hu
              have hi' := List.mem_range.1 hi
              have := hstep.conj i (j + 1) hi' (by omega)
              have h10 : s i ⬝ᵥ (A * S0 * Aᵀ) *ᵥ act = 0 := by simpa [hi'] using this
              exact h10
        rw [hre] at hp
        have h8 := Except.ok.inj hp
        simp only [Prod.mk.injEq] at h8
        refine ⟨fun h9 => by omega, ?_, cache, h8.2.symm, e3⟩
        intro l hl
        obtain rfl : j = l := by omega
        exact ⟨hrj, by rw [← h8.1]; exact hact⟩

/-- One iteration keeps the invariant. -/
private theorem iteration_inv {A : Matrix n n ℝ} {rhs : n → ℝ} {S0 : Matrix n n ℝ} (hS : IsPsd S0)
    (hG : ∀ v, v ⬝ᵥ (A * S0 * Aᵀ) *ᵥ v = 0 → v = 0) {reR reA : Option (Reorth n)}
    (hR : ∀ f, reR = some f → Idle f) (hA : ∀ f, reA = some f → Idle f) {stop : Cmp n Bool} (hstop : Looks A rhs stop)
    {st st' : St n} {r s : ℕ → n → ℝ} {k : ℕ}
    (h : RunInv A rhs S0 (reR.isSome) st r s k)
    (hit : (bayesCG A rhs S0 reR reA stop).iteration st = .ok (st', false)) :
    ∃ r' s', (∀ i ≤ k, r' i = r i) ∧ (∀ i < k, s' i = s i) ∧ RunInv A rhs S0 (reR.isSome) st' r' s' (k + 1) := by
  unfold Solver.iteration bayesCG at hit
  dsimp only at hit
  cases h1 : stop st with
  | error e => rw [h1] at hit; cases hit
  | ok p =>
    obtain ⟨b, st1⟩ := p
    rw [h1] at hit
    cases b with
    | true => simp at hit
    | false =>
      dsimp only at hit
      have i1 : RunInv A rhs S0 (reR.isSome) st1 r s k := by
        rcases hstop st false st1 h1 with rfl | rfl
        · exact h
        · exact h.touch.1
      cases h2 : policy A rhs S0 reR reA st1 with
      | error e => rw [h2] at hit; cases hit
      | ok p =>
        obtain ⟨a, st2⟩ := p
        rw [h2] at hit
        dsimp only at hit
        obtain ⟨a0, a1, c, e2, hc⟩ := policy_spec hS hG hR hA i1 h2
        obtain ⟨it, hres, hk⟩ := i1.touch
        generalize st1.touch (resid A rhs) = T at *
        obtain ⟨bel, acts, obs, ress, cch, stp⟩ := T
        have hstp := it.step
        dsimp only at hstp
        subst hstp
        have it_act := it.act
        have it_obs := it.obs
        have it_alen := it.alen
        have it_olen := it.olen
        have it_rlen := it.rlen
        dsimp only at it_act it_obs it_alen it_olen it_rlen e2 hk
        subst e2
        have hset : (acts.set stp (some a))[stp]? = some (some a) := by simp [it_alen]
        unfold State.setAction at hit
        dsimp only at hit
        rw [it_act] at hit
        dsimp only at hit
        unfold info at hit
        dsimp only at hit
        rw [hset] at hit
        dsimp only at hit
        have hres2 : State.residual (resid A rhs) (⟨bel, acts.set stp (some a), obs, ress, c, stp⟩ : St n)
            = .ok (r stp, ⟨bel, acts.set stp (some a), obs, ress, c, stp⟩) := by
          have et : State.touch (resid A rhs) (⟨bel, acts.set stp (some a), obs, ress, c, stp⟩ : St n)
              = ⟨bel, acts.set stp (some a), obs, ress, c, stp⟩ := by
            unfold State.touch
            dsimp only
            rw [hk]
          unfold State.residual
          rw [et]
          dsimp only
          rw [hk]
        rw [hres2] at hit
        dsimp only at hit
        unfold State.setObservation at hit
        dsimp only at hit
        rw [it_obs] at hit
        dsimp only at hit
        unfold update at hit
        dsimp only at hit
        have hset2 : (obs.set stp (some (a ⬝ᵥ r stp)))[stp]? = some (some (a ⬝ᵥ r stp)) := by simp [it_olen]
        rw [hset2, hset] at hit
        dsimp only at hit
        have hst' := (congrArg Prod.fst (Except.ok.inj hit)).symm
        dsimp only [State.next] at hst'
        subst hst'
        have hcur := it.cur
        dsimp only at hcur
        set r' : ℕ → n → ℝ := fun i => if i ≤ stp then r i else
          resid A rhs (projectedUpdate A 0 bel a (a ⬝ᵥ r stp)) with hr'
        set s' : ℕ → n → ℝ := fun i => if i < stp then s i else a with hs'
        have er : ∀ i ≤ stp, r' i = r i := fun i hi => by simp [hr', hi]
        have es : ∀ i < stp, s' i = s i := fun i hi => by simp [hs', hi]
        have er1 : r' (stp + 1) = resid A rhs (projectedUpdate A 0 bel a (a ⬝ᵥ r stp)) := by simp [hr']
        have es1 : s' stp = a := by simp [hs']
        refine ⟨r', s', er, es, ⟨rfl, er1, ?_, ?_, ?_, ?_, ?_, ?_, ?_, ?_, ?_, ?_⟩⟩
        · intro i hi
          dsimp only
          rw [List.getElem?_append_left (by simp [it_alen]; omega)]
          rcases Nat.lt_or_ge i stp with h4 | h4
          · rw [List.getElem?_set, if_neg (by omega : stp ≠ i), es i h4]
            exact it.acts i h4
          · obtain rfl : i = stp := by omega
            rw [hset, es1]
        · dsimp only
          rw [List.getElem?_append_right (by simp [it_alen])]
          simp [it_alen]
        · simp [it_alen]
        · dsimp only
          rw [List.getElem?_append_right (by simp [it_olen])]
          simp [it_olen]
        · simp [it_olen]
        · intro i hi
          dsimp only
          rw [List.getElem?_append_left (by rw [it_rlen]; omega), er i (by omega)]
          rcases Nat.lt_or_ge i stp with h4 | h4
          · exact it.ress i h4
          · obtain rfl : i = stp := by omega
            exact hk
        · left
          dsimp only
          rw [List.getElem?_append_right (by rw [it_rlen])]
          simp [it_rlen]
        · simp [it_rlen]
        · intro hkeep
          dsimp only
          rw [hc hkeep]
          refine List.map_congr_left fun i hi => ?_
          exact (er i (by have := List.mem_range.1 hi; omega)).symm
        · have hcg := CgInv.step (r := r') (s := s') (k := stp) hS (it.cg.congr er es) hG
            (fun h0 => by subst h0; rw [es1, er 0 le_rfl]; exact a0 rfl)
            (fun j hj => by
              rw [es1, er stp le_rfl, er j (by omega), es j (by omega)]
              exact a1 j hj)
            (by
              rw [er1, es1, er stp le_rfl, resid, residual, projectedUpdate]
              dsimp only
              rw [mulVec_add, mulVec_smul, mulVec_smul, smul_smul, add_zero, ← sub_sub, hcur, resid, residual])
          rw [es1] at hcg
          exact hcg

private theorem gram_pd [DecidableEq n] {A S0 : Matrix n n ℝ} (hA : IsUnit A.det) (hS : IsPd S0) (v : n → ℝ)
    (hv : v ⬝ᵥ (A * S0 * Aᵀ) *ᵥ v = 0) : v = 0 := by
  rw [gram_dot] at hv
  have h0 : v ᵥ* A = 0 := by
    by_contra hc
    exact (hS.2 _ hc).ne' hv
  have h1 := congrArg (fun w => w ᵥ* A⁻¹) h0
  simp only [vecMul_vecMul, mul_nonsing_inv _ hA, vecMul_one, zero_vecMul] at h1
  exact h1

private theorem run_inv [DecidableEq n] (A : Matrix n n ℝ) (hA : IsUnit A.det) (rhs : n → ℝ) (prior : SolBelief n)
    (hS : IsPd prior.cov)
    (reR reA : Option (Reorth n)) (hR : ∀ f, reR = some f → Idle f) (hRA : ∀ f, reA = some f → Idle f)
    (stop : Cmp n Bool) (hstop : Looks A rhs stop) (k : ℕ) (st : St n)
    (hrun : (bayesCG A rhs prior.cov reR reA stop).runFor (State.new (resid A rhs) prior []) k = .ok (st, false)) :
    ∃ r s, r 0 = rhs - A *ᵥ prior.mean ∧ RunInv A rhs prior.cov (reR.isSome) st r s k := by
  have hG := gram_pd hA hS
  have key : ∀ k (st : St n),
      (bayesCG A rhs prior.cov reR reA stop).runFor (State.new (resid A rhs) prior []) k = .ok (st, false) →
      ∃ r s, r 0 = rhs - A *ᵥ prior.mean ∧ RunInv A rhs prior.cov (reR.isSome) st r s k := by
    intro k
    induction k with
    | zero =>
      intro st h
      rw [Solver.runFor] at h
      have := (congrArg Prod.fst (Except.ok.inj h)).symm
      dsimp only [State.new] at this
      subst this
      refine ⟨fun _ => resid A rhs prior, fun _ => 0, rfl, ⟨rfl, rfl, by simp, rfl, rfl, rfl, rfl, by simp, Or.inr rfl, rfl,
        fun _ => rfl, CgInv.zero _ _ _ _⟩⟩
    | succ k ih =>
      intro st h
      rw [Solver.runFor] at h
      cases hr : (bayesCG A rhs prior.cov reR reA stop).runFor (State.new (resid A rhs) prior []) k with
      | error e => rw [hr] at h; cases h
      | ok p =>
        obtain ⟨st', b⟩ := p
        rw [hr] at h
        cases b with
        | true => simp at h
        | false =>
          dsimp only at h
          obtain ⟨r, s, h0, hinv⟩ := ih st' hr
          obtain ⟨r', s', er, -, hinv'⟩ := iteration_inv hS.psd hG hR hRA hstop hinv h
          exact ⟨r', s', by rw [er 0 (by omega), h0], hinv'⟩
  exact key k st hrun

/-- **C61 (a).**  Bayesian conjugate gradients on a nonsingular system with a positive definite prior covariance `Σ₀`, any
prior mean, any reorthogonalisation functions (or none), any stopping criterion: after any number `k` of iterations there are
actions `s 0, …, s (k-1)` and residuals `r 0, …, r k` recorded in (and being) the actions and residuals of the solver state,
such that the actions are pairwise conjugate with respect to `A Σ₀ Aᵀ`, the residuals are mutually orthogonal, every
residual is orthogonal to all earlier actions, and no action is zero except possibly the last one. -/
theorem actions_conjugate [DecidableEq n] (A : Matrix n n ℝ) (hA : IsUnit A.det) (rhs : n → ℝ) (prior : SolBelief n)
    (hS : IsPd prior.cov)
    (reR reA : Option (Reorth n)) (hR : ∀ f, reR = some f → Idle f) (hRA : ∀ f, reA = some f → Idle f)
    (stop : Cmp n Bool) (hstop : Looks A rhs stop) (k : ℕ) (st : St n)
    (hrun : (bayesCG A rhs prior.cov reR reA stop).runFor (State.new (resid A rhs) prior []) k = .ok (st, false)) :
    ∃ r s : ℕ → n → ℝ, r 0 = rhs - A *ᵥ prior.mean ∧ r k = rhs - A *ᵥ st.belief.mean ∧
      (∀ i < k, st.actions[i]? = some (some (s i)) ∧ st.residuals[i]? = some (some (r i))) ∧
      (∀ i j, i < j → j < k → s i ⬝ᵥ (A * prior.cov * Aᵀ) *ᵥ s j = 0) ∧
      (∀ i j, i < j → j ≤ k → r i ⬝ᵥ r j = 0) ∧
      (∀ i j, i < j → j ≤ k → s i ⬝ᵥ r j = 0) ∧
      (∀ i, i + 1 < k → s i ≠ 0 ∧ r i ≠ 0) ∧
      (∀ i < k, s i = 0 ↔ r i = 0) := by
  obtain ⟨r, s, h0, hinv⟩ := run_inv A hA rhs prior hS reR reA hR hRA stop hstop k st hrun
  have hzero : ∀ i < k, s i = 0 ↔ r i = 0 := by
    intro i hi
    constructor
    · intro h1
      have := hinv.cg.ss i hi
      rw [h1, zero_dotProduct] at this
      exact dotProduct_self_eq_zero.1 this.symm
    · intro h1
      rcases Nat.lt_or_ge (i + 1) k with h2 | h2
      · exact absurd h1 (hinv.cg.nz i h2)
      · rcases Nat.eq_zero_or_pos i with h3 | h3
        · subst h3; rw [hinv.cg.first hi, h1]
        · obtain ⟨j, rfl⟩ : ∃ j, i = j + 1 := ⟨i - 1, by omega⟩
          rw [hinv.cg.span j hi, h1]
          simp
  refine ⟨r, s, h0, hinv.cur, fun i hi => ⟨hinv.acts i hi, hinv.ress i hi⟩, hinv.cg.conj, hinv.cg.orth, hinv.cg.rs,
    fun i hi => ?_, hzero⟩
  have hr := hinv.cg.nz i hi
  exact ⟨fun h => hr ((hzero i (by omega)).1 h), hr⟩

/-- **C61 (b), finite termination.**  After `n` (or more) iterations the system is solved exactly. -/
theorem solved_after_n [DecidableEq n] (A : Matrix n n ℝ) (hA : IsUnit A.det) (rhs : n → ℝ) (prior : SolBelief n)
    (hS : IsPd prior.cov)
    (reR reA : Option (Reorth n)) (hR : ∀ f, reR = some f → Idle f) (hRA : ∀ f, reA = some f → Idle f)
    (stop : Cmp n Bool) (hstop : Looks A rhs stop) (k : ℕ) (hk : Fintype.card n ≤ k) (st : St n)
    (hrun : (bayesCG A rhs prior.cov reR reA stop).runFor (State.new (resid A rhs) prior []) k = .ok (st, false)) :
    A *ᵥ st.belief.mean = rhs ∧ k ≤ Fintype.card n + 1 := by
  obtain ⟨r, s, h0, hinv⟩ := run_inv A hA rhs prior hS reR reA hR hRA stop hstop k st hrun
  obtain ⟨i, hi, hri⟩ := exists_zero_of_orthogonal r fun i j hij hj => hinv.cg.orth i j hij (by omega)
  have hik : k ≤ i + 1 := by
    by_contra hc
    exact hinv.cg.nz i (by omega) hri
  refine ⟨?_, by omega⟩
  have hrk : r k = 0 := by
    rcases Nat.lt_or_ge i k with h1 | h1
    · obtain rfl : k = i + 1 := by omega
      rw [hinv.cg.move i (by omega), hri]
      simp
    · obtain rfl : i = k := by omega
      exact hri
  have := hinv.cur
  rw [hrk, resid, residual] at this
  exact (sub_eq_zero.1 this.symm).symm

/-- The shipped solver (no reorthogonalisation) makes a step as long as the earlier residuals do not vanish. -/
private theorem iteration_ok {A : Matrix n n ℝ} {rhs : n → ℝ} {S0 : Matrix n n ℝ} {stop : Cmp n Bool}
    (hstop : Looks A rhs stop) {st st1 : St n} {r s : ℕ → n → ℝ} {k : ℕ}
    (h : RunInv A rhs S0 False st r s k) (hnz : ∀ i < k, r i ≠ 0) (h1 : stop st = .ok (false, st1)) :
    ∃ st', (bayesCG A rhs S0 none none stop).iteration st = .ok (st', false) := by
  have i1 : RunInv A rhs S0 False st1 r s k := by
    rcases hstop st false st1 h1 with rfl | rfl
    · exact h
    · exact h.touch.1
  obtain ⟨it, hres, hk⟩ := i1.touch
  have hp : ∃ a, policy A rhs S0 none none st1 = .ok (a, st1.touch (resid A rhs)) := by
    unfold policy
    rw [hres]
    dsimp only
    by_cases hk0 : (st1.touch (resid A rhs)).step = 0
    · rw [if_pos hk0]; exact ⟨r k, rfl⟩
    · rw [if_neg hk0]
      unfold residualPair
      dsimp only
      rw [it.step] at hk0 ⊢
      rw [it.ress (k - 1) (by omega)]
      dsimp only
      rw [it.acts (k - 1) (by omega)]
      dsimp only
      unfold correct
      rw [if_neg (by rw [norm2_eq_zero]; exact hnz (k - 1) (by omega))]
      refine ⟨r k + (norm2 (r k) / norm2 (r (k - 1))) ^ 2 • s (k - 1), ?_⟩
      dsimp only [reorthAction]
      refine congrArg Except.ok (Prod.ext rfl ?_)
      dsimp only
      rw [← it.step]
  obtain ⟨a, hp⟩ := hp
  unfold Solver.iteration bayesCG
  dsimp only
  rw [h1]
  dsimp only
  rw [hp]
  dsimp only
  generalize st1.touch (resid A rhs) = T at *
  obtain ⟨bel, acts, obs, ress, cch, stp⟩ := T
  have hstp := it.step
  dsimp only at hstp
  subst hstp
  have it_act := it.act
  have it_obs := it.obs
  have it_alen := it.alen
  have it_olen := it.olen
  dsimp only at it_act it_obs it_alen it_olen hk
  have hset : (acts.set stp (some a))[stp]? = some (some a) := by simp [it_alen]
  unfold State.setAction
  dsimp only
  rw [it_act]
  dsimp only
  unfold info
  dsimp only
  rw [hset]
  dsimp only
  have hres2 : State.residual (resid A rhs) (⟨bel, acts.set stp (some a), obs, ress, cch, stp⟩ : St n)
      = .ok (r stp, ⟨bel, acts.set stp (some a), obs, ress, cch, stp⟩) := by
    have et : State.touch (resid A rhs) (⟨bel, acts.set stp (some a), obs, ress, cch, stp⟩ : St n)
        = ⟨bel, acts.set stp (some a), obs, ress, cch, stp⟩ := by
      unfold State.touch
      dsimp only
      rw [hk]
    unfold State.residual
    rw [et]
    dsimp only
    rw [hk]
  rw [hres2]
  dsimp only
  unfold State.setObservation
  dsimp only
  rw [it_obs]
  dsimp only
  unfold update
  dsimp only
  have hset2 : (obs.set stp (some (a ⬝ᵥ r stp)))[stp]? = some (some (a ⬝ᵥ r stp)) := by simp [it_olen]
  rw [hset2, hset]
  exact ⟨_, rfl⟩

/-- **C61 (c).**  `BayesCG` with a criterion that never raises and that accepts an exact solution returns after at most
`n` iterations. -/
theorem bayescg_returns [DecidableEq n] (A : Matrix n n ℝ) (hA : IsUnit A.det) (rhs : n → ℝ) (prior : SolBelief n)
    (hS : IsPd prior.cov) (stop : Cmp n Bool) (hstop : Looks A rhs stop) (htotal : ∀ st : St n,
      (st.residuals[st.step]? = some none ∨ st.residuals[st.step]? = some (some (resid A rhs st.belief))) →
      ∃ b st', stop st = .ok (b, st') ∧ (A *ᵥ st.belief.mean = rhs → b = true)) :
    ∃ st, (bayesCG A rhs prior.cov none none stop).Solves (resid A rhs) prior [] st.belief st ∧
      st.step ≤ Fintype.card n := by
  set S := bayesCG A rhs prior.cov none none stop with hSdef
  have hnone : ∀ f : Reorth n, (none : Option (Reorth n)) = some f → Idle f := fun f hf => by cases hf
  -- as long as the loop has not been left, it goes on
  have turn : ∀ k st, S.runFor (State.new (resid A rhs) prior []) k = .ok (st, false) →
      (∃ st', S.Solves (resid A rhs) prior [] st'.belief st' ∧ st'.step = k) ∨
      (A *ᵥ st.belief.mean ≠ rhs ∧ ∃ st', S.runFor (State.new (resid A rhs) prior []) (k + 1) = .ok (st', false)) := by
    intro k st hrun
    obtain ⟨r, s, h0, hinv⟩ := run_inv A hA rhs prior hS none none hnone hnone stop hstop k st hrun
    obtain ⟨b, st', hb, himp⟩ := htotal st (by
      rw [hinv.step, ← hinv.cur]; exact hinv.res)
    cases b with
    | true =>
      refine Or.inl ⟨st', ⟨k + 1, ?_, rfl⟩, ?_⟩
      · rw [Solver.runFor, hrun]
        show S.iteration st = _
        have hb' : S.stop st = .ok (true, st') := hb
        rw [Solver.iteration, hb']
      · rcases hstop st true st' hb with rfl | rfl
        · exact hinv.step
        · exact hinv.touch.1.step
    | false =>
      have hne : A *ᵥ st.belief.mean ≠ rhs := fun h => by have := himp h; cases this
      refine Or.inr ⟨hne, ?_⟩
      have hrk : r k ≠ 0 := by
        rw [hinv.cur, resid, residual]
        exact fun h => hne (sub_eq_zero.1 h).symm
      have hnz : ∀ i < k, r i ≠ 0 := by
        intro i hi h1
        rcases Nat.lt_or_ge (i + 1) k with h2 | h2
        · exact hinv.cg.nz i h2 h1
        · obtain rfl : k = i + 1 := by omega
          apply hrk
          rw [hinv.cg.move i (by omega), h1]
          simp
      obtain ⟨st'', h''⟩ := iteration_ok (S0 := prior.cov) hstop
        ⟨hinv.step, hinv.cur, hinv.acts, hinv.act, hinv.alen, hinv.obs, hinv.olen, hinv.ress, hinv.res, hinv.rlen,
          fun h => h.elim, hinv.cg⟩ hnz hb
      refine ⟨st'', ?_⟩
      rw [Solver.runFor, hrun]
      exact h''
  have prog : ∀ k ≤ Fintype.card n, (∃ st', S.Solves (resid A rhs) prior [] st'.belief st' ∧ st'.step ≤ Fintype.card n) ∨
      ∃ st, S.runFor (State.new (resid A rhs) prior []) k = .ok (st, false) := by
    intro k
    induction k with
    | zero => exact fun _ => Or.inr ⟨_, rfl⟩
    | succ k ih =>
      intro hk
      rcases ih (by omega) with h | ⟨st, h⟩
      · exact Or.inl h
      · rcases turn k st h with ⟨st', h', hs⟩ | ⟨-, h'⟩
        · exact Or.inl ⟨st', h', by omega⟩
        · exact Or.inr h'
  rcases prog _ le_rfl with ⟨st, h, hs⟩ | ⟨st, h⟩
  · exact ⟨st, h, hs⟩
  · rcases turn _ st h with ⟨st', h', hs⟩ | ⟨hne, -⟩
    · exact ⟨st', h', hs.le⟩
    · exact absurd (solved_after_n A hA rhs prior hS none none hnone hnone stop hstop _ le_rfl st h).1 hne

/-- The default criterion of `BayesCG` (`_probabilistic_linear_solver.py` 236-239):
`MaxIterations() | ResidualNorm(atol=1e-5, rtol=1e-5)`. -/
noncomputable def defaultStop (A : Matrix n n ℝ) (rhs : n → ℝ) : Cmp n Bool :=
  orStop (maxIterations (Fintype.card n) none) (residualNorm (resid A rhs) norm2 (norm2 rhs) 1e-5 1e-5)

/-- **C61 (d).**  `BayesCG` as shipped, with its default stopping criterion, on any nonsingular system with a positive
definite prior covariance: it returns, after at most `n` iterations, and the residual of the returned solution estimate
is within the tolerances. -/
theorem bayescg_default [DecidableEq n] (A : Matrix n n ℝ) (hA : IsUnit A.det) (rhs : n → ℝ) (prior : SolBelief n)
    (hS : IsPd prior.cov) :
    ∃ st, (bayesCG A rhs prior.cov none none (defaultStop A rhs)).Solves (resid A rhs) prior [] st.belief st ∧
      st.step ≤ Fintype.card n ∧
      norm2 (rhs - A *ᵥ st.belief.mean) ≤ max 1e-5 (1e-5 * norm2 rhs) := by
  have hnorm : ∀ st : St n, (st.residuals[st.step]? = some none ∨
      st.residuals[st.step]? = some (some (resid A rhs st.belief))) →
      ∃ b, residualNorm (resid A rhs) norm2 (norm2 rhs) 1e-5 1e-5 st = .ok (b, st.touch (resid A rhs)) ∧
        (b = true ↔ norm2 (resid A rhs st.belief) ≤ max 1e-5 (1e-5 * norm2 rhs)) :=
    fun st h => (criteria_exact (resid A rhs) norm2 (norm2 rhs) 1e-5 1e-5 1 0 (fun _ => .ok 0) st h).2.2.1
  have hlooks : Looks A rhs (defaultStop A rhs) := by
    intro st b st' h
    unfold defaultStop orStop maxIterations at h
    dsimp only at h
    cases hd : decide (Fintype.card n * 10 ≤ st.step) with
    | true =>
      rw [hd] at h
      exact Or.inl (congrArg Prod.snd (Except.ok.inj h)).symm
    | false =>
      rw [hd] at h
      dsimp only at h
      unfold residualNorm at h
      cases hr : st.residual (resid A rhs) with
      | error e => rw [hr] at h; cases h
      | ok p =>
        rw [hr] at h
        have h2 := congrArg Prod.snd (Except.ok.inj h)
        have h3 : p.2 = st.touch (resid A rhs) := by
          unfold State.residual at hr
          split at hr
          · exact (congrArg Prod.snd (Except.ok.inj hr)).symm
          · cases hr
          · cases hr
        exact Or.inr (h2.symm.trans h3)
  have hnonneg : (0 : ℝ) ≤ max 1e-5 (1e-5 * norm2 rhs) := le_max_of_le_left (by norm_num)
  have htotal : ∀ st : St n,
      (st.residuals[st.step]? = some none ∨ st.residuals[st.step]? = some (some (resid A rhs st.belief))) →
      ∃ b st', defaultStop A rhs st = .ok (b, st') ∧ (A *ᵥ st.belief.mean = rhs → b = true) := by
    intro st h
    unfold defaultStop orStop maxIterations
    dsimp only
    cases hd : decide (Fintype.card n * 10 ≤ st.step) with
    | true => exact ⟨true, st, rfl, fun _ => rfl⟩
    | false =>
      obtain ⟨b, hb, hiff⟩ := hnorm st h
      refine ⟨b, _, hb, fun he => hiff.2 ?_⟩
      have : resid A rhs st.belief = 0 := by rw [resid, residual, he, sub_self]
      rw [this, (norm2_eq_zero _).2 rfl]
      exact hnonneg
  obtain ⟨st, hsol, hstep⟩ := bayescg_returns A hA rhs prior hS (defaultStop A rhs) hlooks htotal
  refine ⟨st, hsol, hstep, ?_⟩
  obtain ⟨k, hk, -⟩ := hsol
  -- the last state at which the criterion was evaluated
  have hlast : ∀ k, (bayesCG A rhs prior.cov none none (defaultStop A rhs)).runFor (State.new (resid A rhs) prior []) k
      = .ok (st, true) → ∃ j stj, (bayesCG A rhs prior.cov none none (defaultStop A rhs)).runFor
        (State.new (resid A rhs) prior []) j = .ok (stj, false) ∧ defaultStop A rhs stj = .ok (true, st) := by
    intro k
    induction k with
    | zero => intro h; rw [Solver.runFor] at h; simp at h
    | succ k ih =>
      intro h
      rw [Solver.runFor] at h
      cases hr : (bayesCG A rhs prior.cov none none (defaultStop A rhs)).runFor (State.new (resid A rhs) prior []) k with
      | error e => rw [hr] at h; cases h
      | ok p =>
        obtain ⟨st', b⟩ := p
        rw [hr] at h
        cases b with
        | true => exact ih (by rw [hr]; exact h)
        | false =>
          dsimp only at h
          obtain ⟨b, st1, h1, -⟩ := htotal st' (by
            obtain ⟨r, s, h0, hinv⟩ := run_inv A hA rhs prior hS none none (fun f hf => by cases hf)
              (fun f hf => by cases hf) _ hlooks k st' hr
            rw [hinv.step, ← hinv.cur]; exact hinv.res)
          cases b with
          | true =>
            refine ⟨k, st', hr, ?_⟩
            unfold Solver.iteration bayesCG at h
            dsimp only at h
            rw [h1] at h
            have := congrArg Prod.fst (Except.ok.inj h)
            dsimp only at this
            rw [h1, this]
          | false =>
            exfalso
            unfold Solver.iteration bayesCG at h
            dsimp only at h
            rw [h1] at h
            dsimp only at h
            cases h2 : policy A rhs prior.cov none none st1 with
            | error e => rw [h2] at h; cases h
            | ok p =>
              rw [h2] at h
              dsimp only at h
              cases h3 : p.2.setAction p.1 with
              | error e => rw [h3] at h; cases h
              | ok st3 =>
                rw [h3] at h
                dsimp only at h
                cases h4 : info A rhs st3 with
                | error e => rw [h4] at h; cases h
                | ok p =>
                  rw [h4] at h
                  dsimp only at h
                  cases h5 : p.2.setObservation p.1 with
                  | error e => rw [h5] at h; cases h
                  | ok st5 =>
                    rw [h5] at h
                    dsimp only at h
                    cases h6 : update A 0 st5 with
                    | error e => rw [h6] at h; cases h
                    | ok p =>
                      rw [h6] at h
                      have := congrArg Prod.snd (Except.ok.inj h)
                      cases this
  obtain ⟨j, stj, hj, hstopj⟩ := hlast k hk
  obtain ⟨r, s, h0, hinv⟩ := run_inv A hA rhs prior hS none none (fun f hf => by cases hf)
    (fun f hf => by cases hf) _ hlooks j stj hj
  have hbel : st.belief = stj.belief ∧ st.step = stj.step := by
    rcases hlooks stj true st hstopj with rfl | rfl
    · exact ⟨rfl, rfl⟩
    · unfold State.touch; split <;> exact ⟨rfl, rfl⟩
  rw [hbel.1]
  have hcur : stj.residuals[stj.step]? = some none ∨ stj.residuals[stj.step]? = some (some (resid A rhs stj.belief)) := by
    rw [hinv.step, ← hinv.cur]; exact hinv.res
  obtain ⟨b, hb, hiff⟩ := hnorm stj hcur
  unfold defaultStop orStop maxIterations at hstopj
  dsimp only at hstopj
  cases hd : decide (Fintype.card n * 10 ≤ stj.step) with
  | true =>
    have hle := of_decide_eq_true hd
    rw [← hbel.2] at hle
    have hcard : Fintype.card n = 0 := by omega
    have : IsEmpty n := Fintype.card_eq_zero_iff.1 hcard
    have hz : rhs - A *ᵥ stj.belief.mean = 0 := Subsingleton.elim _ _
    rw [hz, (norm2_eq_zero _).2 rfl]
    exact hnonneg
  | false =>
    rw [hd] at hstopj
    dsimp only at hstopj
    rw [hb] at hstopj
    have := congrArg Prod.fst (Except.ok.inj hstopj)
    exact hiff.1 this

/-- The argument `inner_product` of the Gram-Schmidt functions. -/
def innerOf {m : ℕ} : Option (Matrix (Fin m) (Fin m) ℝ) → GramSchmidt.Inner m
  | none => .euclidean
  | some M => .matrix M

/-- `gram_schmidt`, `modified_gram_schmidt` (without normalisation) as reorthogonalisation functions; `nan`s are errors. -/
noncomputable def gsReorth {m : ℕ} (modified : Bool) : Reorth (Fin m) := fun v us ip =>
  match (if modified then GramSchmidt.modifiedGramSchmidt v us (innerOf ip) false
    else GramSchmidt.gramSchmidt v us (innerOf ip) false) with
  | .error e => .error e
  | .ok none => .error .zeroDivisionError
  | .ok (some w) => .ok w

/-- The Gram-Schmidt functions of the library are admissible reorthogonalisation functions in the theorems above. -/
theorem gramSchmidt_idle {m : ℕ} (modified : Bool) : Idle (gsReorth (m := m) modified) := by
  intro v us ip hne huu huv
  set inner : GramSchmidt.Inner m := innerOf ip with hin
  have hprod : ∀ a b, inner.prod a b = dotIn ip a b := by
    intro a b
    rw [hin]
    cases ip <;> rfl
  have hproj : ∀ u ∈ us, GramSchmidt.projectOut inner u v v = some v := by
    intro u hu
    unfold GramSchmidt.projectOut
    rw [hprod, hprod, if_neg (huu u hu), huv u hu]
    simp
  have h1 : ∀ l : List (Fin m → ℝ), (∀ u ∈ l, u ∈ us) → GramSchmidt.classicalLoop inner v l v = some v := by
    intro l
    induction l with
    | nil => intro _; rfl
    | cons u l ih =>
      intro hl
      rw [GramSchmidt.classicalLoop, hproj u (hl u (by simp))]
      exact ih fun w hw => hl w (by simp [hw])
  have h2 : ∀ l : List (Fin m → ℝ), (∀ u ∈ l, u ∈ us) → GramSchmidt.modifiedLoop inner l v = some v := by
    intro l
    induction l with
    | nil => intro _; rfl
    | cons u l ih =>
      intro hl
      rw [GramSchmidt.modifiedLoop, hproj u (hl u (by simp))]
      exact ih fun w hw => hl w (by simp [hw])
  have hrows : GramSchmidt.rowsOf us = .ok us := by
    cases us with
    | nil => exact absurd rfl hne
    | cons u l => rfl
  unfold gsReorth
  rw [← hin]
  cases modified
  · simp only [Bool.false_eq_true, if_false]
    unfold GramSchmidt.gramSchmidt
    rw [hrows]
    dsimp only
    rw [h1 us fun _ h => h]
    rfl
  · simp only [if_true]
    unfold GramSchmidt.modifiedGramSchmidt
    rw [hrows]
    dsimp only
    rw [h2 us fun _ h => h]
    rfl

/-- A nonsingular 2 × 2 system with a correlated prior. -/
example : ∃ st, (bayesCG !![2, 1; 0, 3] ![1, 1] !![2, 1; 1, 2] none none (defaultStop !![2, 1; 0, 3] ![1, 1])).Solves
      (resid !![2, 1; 0, 3] ![1, 1]) ⟨![5, 7], !![2, 1; 1, 2]⟩ [] st.belief st ∧
      st.step ≤ Fintype.card (Fin 2) ∧
      norm2 (![1, 1] - !![2, 1; 0, 3] *ᵥ st.belief.mean) ≤ max 1e-5 (1e-5 * norm2 ![1, 1]) := by
  refine bayescg_default _ (by simp) _ ⟨![5, 7], !![2, 1; 1, 2]⟩ ⟨?_, ?_⟩
  · ext i j; fin_cases i <;> fin_cases j <;> rfl
  · intro x hx
    have e : x ⬝ᵥ (!![2, 1; 1, 2] : Matrix (Fin 2) (Fin 2) ℝ) *ᵥ x = x 0 ^ 2 + x 1 ^ 2 + (x 0 + x 1) ^ 2 := by
      simp [dotProduct, mulVec, Fin.sum_univ_two]; ring
    show 0 < x ⬝ᵥ (!![2, 1; 1, 2] : Matrix (Fin 2) (Fin 2) ℝ) *ᵥ x
    rw [e]
    by_contra hc
    apply hx
    have h0 : x 0 = 0 := by nlinarith [sq_nonneg (x 0), sq_nonneg (x 1), sq_nonneg (x 0 + x 1)]
    have h1 : x 1 = 0 := by nlinarith [sq_nonneg (x 0), sq_nonneg (x 1), sq_nonneg (x 0 + x 1)]
    ext i; fin_cases i <;> simp [h0, h1]

/-- **C61 (e), violated by a limit on the iterations alone.**  Once the residual vanishes, the next but one iteration divides
by zero: the run cannot have more than `n + 1` iterations, and with the criterion `MaxIterations(maxiter=n + 2)` (or more) `BayesCG`
does not return a solution; its actions and beliefs are `nan` from then on (an error value in this model). -/
theorem breakdown_after_convergence [DecidableEq n] (A : Matrix n n ℝ) (hA : IsUnit A.det) (rhs : n → ℝ)
    (prior : SolBelief n) (hS : IsPd prior.cov) (m : ℕ) (hm : Fintype.card n + 2 ≤ m) :
    ¬ ∃ st, (bayesCG A rhs prior.cov none none (maxIterations (Fintype.card n) (some m))).Solves (resid A rhs) prior []
      st.belief st := by
  have hlooks : Looks A rhs (maxIterations (Fintype.card n) (some (m : ℤ)) : Cmp n Bool) := by
    intro st b st' h
    exact Or.inl (congrArg Prod.snd (Except.ok.inj h)).symm
  rintro ⟨st, hsol⟩
  have hben : (bayesCG A rhs prior.cov none none (maxIterations (Fintype.card n) (some (m : ℤ)))).Benign (resid A rhs) := by
    refine ⟨?_, ?_, ?_, ?_⟩
    · intro st a st' h
      change policy A rhs prior.cov none none st = _ at h
      unfold policy at h
      cases hr : st.residual (resid A rhs) with
      | error e => rw [hr] at h; cases h
      | ok p =>
        have h3 : p.2 = st.touch (resid A rhs) := by
          unfold State.residual at hr
          split at hr
          · exact (congrArg Prod.snd (Except.ok.inj hr)).symm
          · cases hr
          · cases hr
        rw [hr] at h
        dsimp only at h
        rw [h3] at h
        split at h
        · exact ⟨(st.touch (resid A rhs)).cache, Or.inr (congrArg Prod.snd (Except.ok.inj h)).symm⟩
        · cases h4 : residualPair none p.1 (st.touch (resid A rhs)) with
          | error e => rw [h4] at h; cases h
          | ok q =>
            rw [h4] at h
            dsimp only at h
            split at h
            · cases h
            · cases h
            · split at h
              · cases h
              · split at h
                · cases h
                · exact ⟨_, Or.inr (congrArg Prod.snd (Except.ok.inj h)).symm⟩
    · intro st a st' h
      change info A rhs st = _ at h
      unfold info at h
      split at h
      · cases h
      · cases h
      · cases hr : st.residual (resid A rhs) with
        | error e => rw [hr] at h; cases h
        | ok p =>
          have h3 : p.2 = st.touch (resid A rhs) := by
            unfold State.residual at hr
            split at hr
            · exact (congrArg Prod.snd (Except.ok.inj hr)).symm
            · cases hr
            · cases hr
          rw [hr] at h
          have := (congrArg Prod.snd (Except.ok.inj h)).symm
          exact ⟨(st.touch (resid A rhs)).cache, Or.inr (this.trans h3)⟩
    · intro st a st' h
      change update A 0 st = _ at h
      unfold update at h
      split at h
      · cases h
      · cases h
      · split at h
        · cases h
        · cases h
        · exact ⟨st.cache, Or.inl (congrArg Prod.snd (Except.ok.inj h)).symm⟩
    · intro st a st' h
      exact ⟨st.cache, Or.inl (congrArg Prod.snd (Except.ok.inj h)).symm⟩
  obtain ⟨k, stk, hk, hstop, -⟩ := (solve_returns_iff _ (resid A rhs) hben prior [] st.belief st).1 hsol
  have hstep := (lists_aligned _ (resid A rhs) hben prior [] k stk hk).1
  have hmk : m ≤ k := by
    have h1 := congrArg Prod.fst (Except.ok.inj hstop)
    have h2 := of_decide_eq_true h1
    rw [hstep] at h2
    exact_mod_cast h2
  have := (solved_after_n A hA rhs prior hS none none (fun f hf => by cases hf) (fun f hf => by cases hf) _ hlooks k
    (by omega) stk hk).2
  omega

end Probnum.Linalg.CG
