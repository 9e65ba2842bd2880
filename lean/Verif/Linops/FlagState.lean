import Verif.Linops.Model

/-!
# Property C26: structure flags are write-once

The object is a state (shape and flags) that assignments and calls of `cholesky` change.  A step returns the new state
and the exception it raised, so that a setter that changes the state and raises can be expressed.
-/

namespace Probnum.Linops

/-- The four flags. -/
inductive Flag
  | sym | low | up | pd
  deriving DecidableEq

/-- Values that may be assigned: None, a bool, an int, or any other object (unequal to bools). -/
inductive FlagVal
  | none | bool (b : Bool) | int (z : ℤ) | other
  deriving DecidableEq

/-- Reads `is_…` (`_linear_operator.py` 417-486). -/
def Flags.get (fl : Flags) : Flag → Option Bool
  | .sym => fl.sym
  | .low => fl.low
  | .up => fl.up
  | .pd => fl.pd

/-- `setattr(self, attr_name, value)`. -/
def Flags.put (fl : Flags) (v : Option Bool) : Flag → Flags
  | .sym => { fl with sym := v }
  | .low => { fl with low := v }
  | .up => { fl with up := v }
  | .pd => { fl with pd := v }

/-- `curr_value == value` in python, where `True == 1` and `False == 0`. -/
def pyEq : Option Bool → FlagVal → Bool
  | .none, .none => true
  | some b, .bool c => b == c
  | some b, .int z => z == (if b then 1 else 0)
  | _, _ => false

/-- `_set_property` (497-518). -/
def setProperty (h : Hdr) (f : Flag) (v : FlagVal) : Hdr × Option PyErr :=
  if pyEq (h.fl.get f) v then (h, none)
  else if h.fl.get f ≠ none then (h, some .valueError)
  else match v with
    | .bool b => ({ h with fl := h.fl.put (some b) f }, none)
    | _ => (h, some .typeError)

/-- The four setters (437-442, 453-455, 466-468, 488-493). -/
def assignFlag (h : Hdr) (f : Flag) (v : FlagVal) : Hdr × Option PyErr :=
  match f with
  | .sym => if v = .bool true ∧ h.rows ≠ h.cols then (h, some .valueError) else setProperty h .sym v
  | .low => setProperty h .low v
  | .up => setProperty h .up v
  | .pd => if v = .bool true ∧ h.fl.sym ≠ some true then (h, some .valueError) else setProperty h .pd v

/-- What happens to the object. -/
inductive FlagEvent
  | assign (f : Flag) (v : FlagVal)
  /-- `cholesky()`, where the computation of the factor succeeds or raises. -/
  | cholesky (outcome : Option PyErr)

/-- The operator with its flags and whether a Cholesky factor is cached. -/
structure FlagState where
  hdr : Hdr
  cached : Bool

/-- One event; `cholesky`: 836-867.  (The assertions on the cached factor's own flags are not modelled.) -/
def FlagState.step (s : FlagState) : FlagEvent → FlagState × Option PyErr
  | .assign f v =>
    let (h, e) := assignFlag s.hdr f v
    (⟨h, s.cached⟩, e)
  | .cholesky outcome =>
    if s.hdr.fl.sym ≠ some true then (s, some .linAlgError)
    else if s.hdr.fl.pd = some false then (s, some .linAlgError)
    else if s.cached then (s, none)
    else match outcome with
      | none =>
        let (h, e) := assignFlag s.hdr .pd (.bool true)
        (⟨h, true⟩, e)
      | some .linAlgError =>
        match assignFlag s.hdr .pd (.bool false) with
        | (h, some e) => (⟨h, false⟩, some e)
        | (h, none) => (⟨h, false⟩, some .linAlgError)
      | some e => (s, some e)

/-- The state after a history of events (exceptions are caught by the caller). -/
def FlagState.run (s : FlagState) : List FlagEvent → FlagState
  | [] => s
  | e :: l => FlagState.run (s.step e).1 l

/-! ## Proofs -/

theorem get_put_self (fl : Flags) (v : Option Bool) (f : Flag) : (fl.put v f).get f = v := by cases f <;> rfl

theorem get_put_ne (fl : Flags) (v : Option Bool) {f g : Flag} (h : g ≠ f) : (fl.put v f).get g = fl.get g := by
  cases f <;> cases g <;> first | rfl | exact absurd rfl h

theorem setProperty_keeps {h : Hdr} {f g : Flag} {v : FlagVal} {b : Bool} (hg : h.fl.get g = some b) :
    (setProperty h f v).1.fl.get g = some b ∧ (setProperty h f v).1.rows = h.rows ∧
    (setProperty h f v).1.cols = h.cols := by
  unfold setProperty
  split
  · exact ⟨hg, rfl, rfl⟩
  · split
    · exact ⟨hg, rfl, rfl⟩
    · next hn =>
      split
      · by_cases hgf : g = f
        · subst hgf
          rw [hg] at hn
          exact absurd (fun h => by cases h) hn
        · exact ⟨by rw [get_put_ne _ _ hgf]; exact hg, rfl, rfl⟩
      · exact ⟨hg, rfl, rfl⟩

theorem assignFlag_keeps {h : Hdr} {f g : Flag} {v : FlagVal} {b : Bool} (hg : h.fl.get g = some b) :
    (assignFlag h f v).1.fl.get g = some b := by
  cases f <;> simp only [assignFlag] <;> (try split) <;> first | exact hg | exact (setProperty_keeps hg).1

theorem step_keeps {s : FlagState} {g : Flag} {b : Bool} (hg : s.hdr.fl.get g = some b) (e : FlagEvent) :
    (s.step e).1.hdr.fl.get g = some b := by
  cases e with
  | assign f v => exact assignFlag_keeps hg
  | cholesky o =>
    have h1 := assignFlag_keeps (f := .pd) (v := .bool true) hg
    have h2 := assignFlag_keeps (f := .pd) (v := .bool false) hg
    simp only [FlagState.step]
    split
    · exact hg
    · split
      · exact hg
      · split
        · exact hg
        · split
          · exact h1
          · split
            · next e => rw [e] at h2; exact h2
            · next e => rw [e] at h2; exact h2
          · exact hg

/-- Once a flag has a boolean value, no history of assignments and Cholesky decompositions changes it. -/
theorem flags_write_once (l : List FlagEvent) (s : FlagState) (f : Flag) (b : Bool) (h : s.hdr.fl.get f = some b) :
    (s.run l).hdr.fl.get f = some b := by
  induction l generalizing s with
  | nil => exact h
  | cons e l ih => exact ih _ (step_keeps h e)

example : ((⟨base 2 2, false⟩ : FlagState).run [.assign .sym (.bool true), .assign .sym (.bool false),
    .assign .low (.int 1), .cholesky (some .linAlgError), .assign .pd (.bool true)]).hdr.fl =
      ⟨some true, none, none, some false⟩ := by decide +kernel

/-- What holds after every history: flags and shape are consistent. -/
structure Consistent (h : Hdr) : Prop where
  sym : h.fl.sym = some true → h.rows = h.cols
  pd : h.fl.pd = some true → h.fl.sym = some true

theorem setProperty_fl (h : Hdr) (f : Flag) (v : FlagVal) :
    (setProperty h f v).1 = h ∨ ∃ b, v = .bool b ∧ h.fl.get f = none ∧
      (setProperty h f v).1 = { h with fl := h.fl.put (some b) f } := by
  unfold setProperty
  split
  · exact .inl rfl
  · split
    · exact .inl rfl
    · next hn =>
      split
      · exact .inr ⟨_, rfl, not_not.1 hn, rfl⟩
      · exact .inl rfl

theorem assignFlag_consistent {h : Hdr} (hc : Consistent h) (f : Flag) (v : FlagVal) :
    Consistent (assignFlag h f v).1 := by
  have key := setProperty_fl h f v
  cases f <;> simp only [assignFlag]
  · split
    · exact hc
    · next hn =>
      rcases key with k | ⟨b, rfl, hf, k⟩
      · rw [k]; exact hc
      · rw [k]
        refine ⟨fun e => ?_, fun e => ?_⟩
        · by_contra hne
          refine hn ⟨?_, hne⟩
          have : some b = some true := e
          rw [Option.some.inj this]
        · have : h.fl.sym = some true := hc.pd e
          have hf' : h.fl.sym = none := hf
          rw [hf'] at this
          cases this
  · rcases key with k | ⟨b, rfl, hf, k⟩ <;> rw [k] <;> exact ⟨hc.sym, hc.pd⟩
  · rcases key with k | ⟨b, rfl, hf, k⟩ <;> rw [k] <;> exact ⟨hc.sym, hc.pd⟩
  · split
    · exact hc
    · next hn =>
      rcases key with k | ⟨b, rfl, hf, k⟩
      · rw [k]; exact hc
      · rw [k]
        refine ⟨hc.sym, fun e => ?_⟩
        by_contra hne
        refine hn ⟨?_, hne⟩
        have : some b = some true := e
        rw [Option.some.inj this]

theorem step_consistent {s : FlagState} (hc : Consistent s.hdr) (e : FlagEvent) : Consistent (s.step e).1.hdr := by
  cases e with
  | assign f v => exact assignFlag_consistent hc f v
  | cholesky o =>
    have h1 := assignFlag_consistent hc .pd (.bool true)
    have h2 := assignFlag_consistent hc .pd (.bool false)
    simp only [FlagState.step]
    split
    · exact hc
    · split
      · exact hc
      · split
        · exact hc
        · split
          · exact h1
          · split
            · next e => rw [e] at h2; exact h2
            · next e => rw [e] at h2; exact h2
          · exact hc

theorem step_shape (s : FlagState) (e : FlagEvent) :
    (s.step e).1.hdr.rows = s.hdr.rows ∧ (s.step e).1.hdr.cols = s.hdr.cols := by
  have hp : ∀ (h : Hdr) (f : Flag) (v : FlagVal),
      (assignFlag h f v).1.rows = h.rows ∧ (assignFlag h f v).1.cols = h.cols := by
    intro h f v
    have k : (setProperty h f v).1.rows = h.rows ∧ (setProperty h f v).1.cols = h.cols := by
      rcases setProperty_fl h f v with k | ⟨b, -, -, k⟩ <;> rw [k] <;> exact ⟨rfl, rfl⟩
    cases f <;> simp only [assignFlag] <;> (try split) <;> first | exact ⟨rfl, rfl⟩ | exact k
  cases e with
  | assign f v => exact hp _ f v
  | cholesky o =>
    have h1 := hp s.hdr .pd (.bool true)
    have h2 := hp s.hdr .pd (.bool false)
    simp only [FlagState.step]
    split
    · exact ⟨rfl, rfl⟩
    · split
      · exact ⟨rfl, rfl⟩
      · split
        · exact ⟨rfl, rfl⟩
        · split
          · exact h1
          · split
            · next e => rw [e] at h2; exact h2
            · next e => rw [e] at h2; exact h2
          · exact ⟨rfl, rfl⟩

/-- Whatever is assigned to a new `r × c` operator: it is never flagged symmetric unless it is square, never flagged
positive definite unless it is flagged symmetric, and a non-square operator stays flagged non-symmetric. -/
theorem flags_consistent (l : List FlagEvent) (r c : ℕ) :
    let h := ((⟨base r c, false⟩ : FlagState).run l).hdr
    (h.fl.sym = some true → r = c) ∧ (h.fl.pd = some true → h.fl.sym = some true) ∧
    (r ≠ c → h.fl.sym = some false) := by
  have gen : ∀ (l : List FlagEvent) (s : FlagState), Consistent s.hdr →
      Consistent (s.run l).hdr ∧ (s.run l).hdr.rows = s.hdr.rows ∧ (s.run l).hdr.cols = s.hdr.cols := by
    intro l
    induction l with
    | nil => exact fun s h => ⟨h, rfl, rfl⟩
    | cons e l ih =>
      intro s h
      obtain ⟨h1, h2, h3⟩ := ih _ (step_consistent h e)
      exact ⟨h1, h2.trans (step_shape s e).1, h3.trans (step_shape s e).2⟩
  have hb : Consistent (base r c) := by
    refine ⟨fun h => ?_, fun h => by cases h⟩
    by_contra hne
    have hne' : r ≠ c := hne
    rw [base] at h
    simp [hne'] at h
  obtain ⟨h1, h2, h3⟩ := gen l ⟨base r c, false⟩ hb
  refine ⟨fun h => ?_, h1.pd, fun h => ?_⟩
  · have := h1.sym h
    rw [h2, h3] at this
    exact this
  · exact flags_write_once l ⟨base r c, false⟩ .sym false (by simp [base, Flags.get, h])

/-- The effect of one assignment on a consistent object.  A flag that has a value: assigning an equal value is a no-op,
any other assignment raises ValueError; the object does not change.  A flag without a value: None is a no-op, a bool is
stored, except that True raises ValueError for `is_symmetric` of a non-square operator and for `is_positive_definite`
of an operator that is not flagged symmetric; anything else raises TypeError.  Other flags do not change. -/
theorem assign_exact (h : Hdr) (hc : Consistent h) (f : Flag) :
    (∀ b, h.fl.get f = some b → ∀ v, pyEq (some b) v = true → assignFlag h f v = (h, none)) ∧
    (∀ b, h.fl.get f = some b → ∀ v, pyEq (some b) v = false → assignFlag h f v = (h, some .valueError)) ∧
    (h.fl.get f = none → assignFlag h f .none = (h, none)) ∧
    (h.fl.get f = none → ∀ b,
      if b = true ∧ (f = .sym ∧ h.rows ≠ h.cols ∨ f = .pd ∧ h.fl.sym ≠ some true)
      then assignFlag h f (.bool b) = (h, some .valueError)
      else assignFlag h f (.bool b) = ({ h with fl := h.fl.put (some b) f }, none)) ∧
    (h.fl.get f = none → ∀ v, v ≠ .none → (∀ b, v ≠ .bool b) → assignFlag h f v = (h, some .typeError)) := by
  have noop : ∀ v, pyEq (h.fl.get f) v = true → setProperty h f v = (h, none) := fun v e => by
    unfold setProperty
    rw [if_pos e]
  have fail : ∀ b, h.fl.get f = some b → ∀ v, pyEq (some b) v = false → setProperty h f v = (h, some .valueError) :=
    fun b hb v e => by
      unfold setProperty
      rw [hb, if_neg (by rw [e]; exact Bool.false_ne_true), if_pos (by simp)]
  have put : h.fl.get f = none → ∀ b, setProperty h f (.bool b) = ({ h with fl := h.fl.put (some b) f }, none) :=
    fun hn b => by
      rw [setProperty, hn]
      rfl
  have type : h.fl.get f = none → ∀ v, v ≠ .none → (∀ b, v ≠ .bool b) → setProperty h f v = (h, some .typeError) :=
    fun hn v h1 h2 => by
      unfold setProperty
      rw [hn]
      cases v with
      | none => exact absurd rfl h1
      | bool b => exact absurd rfl (h2 b)
      | int z => rfl
      | other => rfl
  have lift : ∀ v, ¬ (v = .bool true ∧ (f = .sym ∧ h.rows ≠ h.cols ∨ f = .pd ∧ h.fl.sym ≠ some true)) →
      assignFlag h f v = setProperty h f v := by
    intro v hv
    cases f
    · rw [assignFlag]
      exact if_neg fun e => hv ⟨e.1, .inl ⟨rfl, e.2⟩⟩
    · rfl
    · rfl
    · rw [assignFlag]
      exact if_neg fun e => hv ⟨e.1, .inr ⟨rfl, e.2⟩⟩
  have bad : (f = .sym ∧ h.rows ≠ h.cols ∨ f = .pd ∧ h.fl.sym ≠ some true) →
      assignFlag h f (.bool true) = (h, some .valueError) := by
    rintro (⟨rfl, e⟩ | ⟨rfl, e⟩)
    · rw [assignFlag]
      exact if_pos ⟨rfl, e⟩
    · rw [assignFlag]
      exact if_pos ⟨rfl, e⟩
  refine ⟨fun b hb v e => ?_, fun b hb v e => ?_, fun hn => ?_, fun hn b => ?_, fun hn v h1 h2 => ?_⟩
  · rw [lift, noop _ (by rw [hb]; exact e)]
    rintro ⟨rfl, ⟨rfl, hne⟩ | ⟨rfl, hne⟩⟩
    · have : b = true := by cases b <;> simp [pyEq] at e ⊢
      subst this
      exact hne (hc.sym hb)
    · have : b = true := by cases b <;> simp [pyEq] at e ⊢
      subst this
      exact hne (hc.pd hb)
  · by_cases hx : v = .bool true ∧ (f = .sym ∧ h.rows ≠ h.cols ∨ f = .pd ∧ h.fl.sym ≠ some true)
    · rw [hx.1, bad hx.2]
    · rw [lift _ hx, fail b hb v e]
  · rw [lift _ (fun e => by cases e.1), noop _ (by rw [hn]; rfl)]
  · split
    · next hx =>
      rw [hx.1, bad hx.2]
    · next hx =>
      rw [lift _ (fun e => hx ⟨by cases e.1; rfl, e.2⟩), put hn]
  · rw [lift _ (fun e => h2 true e.1), type hn v h1 h2]

example : Consistent ⟨2, 2, ⟨some true, none, some false, some true⟩⟩ := ⟨fun _ => rfl, fun _ => rfl⟩

/-- `cholesky()` of an operator declared positive definite whose decomposition fails raises ValueError (from the
setter) instead of LinAlgError. -/
theorem cholesky_wrong_error (n : ℕ) (l u : Option Bool) :
    (FlagState.step ⟨⟨n, n, ⟨some true, l, u, some true⟩⟩, false⟩ (.cholesky (some .linAlgError))).2 =
      some .valueError := rfl

/-- The setters of the operator model are those of this state machine. -/
theorem setters_agree (h : Hdr) (v : Option Bool) :
    let val : FlagVal := match v with
      | none => .none
      | some b => .bool b
    let out := fun r : Res Hdr => match r with
      | .ok h' => (h', (none : Option PyErr))
      | .error e => (h, some e)
    out (setSym h v) = assignFlag h .sym val ∧
    out (setLow h v) = assignFlag h .low val ∧ out (setUp h v) = assignFlag h .up val ∧
    out (setPd h v) = assignFlag h .pd val := by
  obtain ⟨r, c, ⟨s, l, u, p⟩⟩ := h
  refine ⟨?_, ?_, ?_, ?_⟩
  · by_cases hrc : r = c <;> rcases s with _ | _ | _ <;> rcases v with _ | _ | _ <;>
      simp [setSym, setProp, assignFlag, setProperty, pyEq, Flags.get, Flags.put, hrc, bind, Except.bind]
  · rcases l with _ | _ | _ <;> rcases v with _ | _ | _ <;> rfl
  · rcases u with _ | _ | _ <;> rcases v with _ | _ | _ <;> rfl
  · rcases s with _ | _ | _ <;> rcases p with _ | _ | _ <;> rcases v with _ | _ | _ <;> rfl

end Probnum.Linops
