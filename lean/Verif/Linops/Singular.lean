import Verif.Linops.Apply

/-! # Solving with a singular operator raises LinAlgError -/

namespace Probnum.Linops

open Finset

/-- The call returns a value satisfying `P` and `bad` does not hold, or it raises LinAlgError or RecursionError. -/
def Out {α : Type _} (bad : Prop) (P : α → Prop) (r : Res α) : Prop :=
  match r with
  | .ok a => P a ∧ ¬ bad
  | .error e => e = .linAlgError ∨ e = .recursionError

theorem Out.lin {α : Type _} {bad : Prop} {P : α → Prop} : Out bad P (.error .linAlgError) := .inl rfl
theorem Out.fuel {α : Type _} {bad : Prop} {P : α → Prop} : Out bad P (.error .recursionError) := .inr rfl

theorem Meets.out {α : Type _} {r : Res α} {P : α → Prop} {bad : Prop} (h : Meets r P) (hb : ¬ bad) : Out bad P r := by
  cases r with
  | ok a => exact ⟨h, hb⟩
  | error e => exact .inr h

theorem Out.mono {α : Type _} {r : Res α} {P Q : α → Prop} {bad bad' : Prop} (h : Out bad P r) (hb : bad' → bad)
    (hPQ : ∀ a, P a → Q a) : Out bad' Q r := by
  cases r with
  | ok a => exact ⟨hPQ a h.1, fun hb' => h.2 (hb hb')⟩
  | error e => exact h

theorem Out.bind {α γ : Type _} {r : Res α} {f : α → Res γ} {P : α → Prop} {Q : γ → Prop} {b₁ b₂ bad : Prop}
    (h : Out b₁ P r) (hf : ∀ a, P a → Out b₂ Q (f a)) (hb : bad → b₁ ∨ b₂) : Out bad Q (r >>= f) := by
  cases r with
  | ok a => exact (hf a h.1).mono (fun hbad => (hb hbad).resolve_left h.2) fun _ hq => hq
  | error e => exact h

theorem Out.mapM {α γ : Type} {f : α → Res γ} {P : α → γ → Prop} {bad : α → Prop} :
    ∀ {l : List α}, (∀ a ∈ l, Out (bad a) (P a) (f a)) →
      Out (∃ a ∈ l, bad a) (fun ys => List.Forall₂ P l ys) (l.mapM f)
  | [], _ => by
    rw [List.mapM_nil]
    exact ⟨List.Forall₂.nil, by simp⟩
  | a :: l, h => by
    rw [List.mapM_cons]
    refine Out.bind (h a (by simp)) (fun b hb => ?_) (b₂ := ∃ a ∈ l, bad a) ?_
    · refine Out.bind (Out.mapM fun c hc => h c (List.mem_cons_of_mem _ hc)) (fun bs hbs => ?_) (b₂ := False) (by simp)
      exact ⟨List.Forall₂.cons hb hbs, id⟩
    · rintro ⟨c, hc, hb⟩
      rcases List.mem_cons.1 hc with rfl | hc
      · exact .inl hb
      · exact .inr ⟨c, hc, hb⟩

/-! ## Running an operator -/

/-- Multiplying `p` with arrays raises nothing but LinAlgError and RecursionError. -/
def SafeRun (p : Op) : Prop := ∀ (m : ℕ) {β : Type} (k : ℕ) (x : β → Mat), Out False (fun _ => True) (matArr m p p.cols k x)

/-- Multiplying `p` with arrays always raises LinAlgError or RecursionError. -/
def Bad (p : Op) : Prop := ∀ (m : ℕ) {β : Type} (k : ℕ) (x : β → Mat), Out True (fun _ => True) (matArr m p p.cols k x)

/-- Both together, for a condition under which the operator cannot be applied. -/
def Run (bad : Prop) (p : Op) : Prop :=
  ∀ (m : ℕ) {β : Type} (k : ℕ) (x : β → Mat), Out bad (fun _ => True) (matArr m p p.cols k x)

theorem Run.safe {bad : Prop} {p : Op} (h : Run bad p) : SafeRun p := fun m _ k x => (h m k x).mono (by simp) fun _ h => h
theorem Run.bad {bad : Prop} {p : Op} (h : Run bad p) (hb : bad) : Bad p := fun m _ k x => (h m k x).mono (fun _ => hb) fun _ h => h
theorem Run.of {bad : Prop} {p : Op} (h : SafeRun p) (hb : bad → Bad p) : Run bad p := fun m _ k x => by
  by_cases h' : bad
  · exact (hb h' m k x).mono (fun _ => trivial) fun _ h => h
  · exact (h m k x).mono h' fun _ h => h

theorem Valid.run {full : Prop} {p : Op} (h : Valid full p) {bad : Prop} (hb : ¬ bad) : Run bad p := fun m _ k x =>
  (((level full m).mat h k x).mono fun _ _ => trivial).out hb

/-! ## Singular dense operators -/

theorem luSolve_out {β : Type} {n k : ℕ} {D M : Mat} (h : Eqv n n D M) (B : β → Mat) :
    Out (detM n M = 0) (fun _ => True) (luSolve n D B) := by
  by_cases hd : detM n M = 0
  · rw [luSolve, if_pos (by rwa [detM_congr h])]
    exact .lin
  · exact ((luSolve_meets (k := k) h hd B).mono fun _ _ => trivial).out hd

theorem cholSolve_out {β : Type} {n : ℕ} {M : Mat} {r : Res Mat} {B : β → Mat} {lu : Res (β → Mat)}
    (hr : CholOk n M r) (hlu : Out (detM n M = 0) (fun _ => True) lu) :
    Out (detM n M = 0) (fun _ => True) (match r with
      | .ok U => luSolve n (mmul n (trn (triangle false U)) (triangle false U)) B
      | .error .linAlgError => lu
      | .error e => .error e) := by
  match r, hr with
  | .ok U, hr => exact luSolve_out (k := 0) hr.2 B
  | .error .linAlgError, _ => exact hlu
  | .error .recursionError, _ => exact .fuel
  | .error .valueError, h => exact absurd h (by simp [CholOk])
  | .error .typeError, h => exact absurd h (by simp [CholOk])
  | .error .keyError, h => exact absurd h (by simp [CholOk])
  | .error .attributeError, h => exact absurd h (by simp [CholOk])
  | .error .indexError, h => exact absurd h (by simp [CholOk])
  | .error .runtimeError, h => exact absurd h (by simp [CholOk])
  | .error .notImplementedError, h => exact absurd h (by simp [CholOk])
  | .error .zeroDivisionError, h => exact absurd h (by simp [CholOk])
  | .error .stopIteration, h => exact absurd h (by simp [CholOk])
  | .error .assertionError, h => exact absurd h (by simp [CholOk])

theorem lu_out {full : Prop} {op : Op} (n : ℕ) (hV : Valid full op) (hsq : op.rows = op.cols) {β : Type} (x : β → Mat) :
    Out (detM op.rows (den op) = 0) (fun _ => True) (do
      let D ← todense n op
      luSolve op.rows D x) := by
  refine Out.bind (((level full n).dense hV).out (bad := False) id) (fun D hD => ?_) Or.inr
  rw [← hsq] at hD
  exact luSolve_out (k := 0) hD x

theorem dense_out {full : Prop} {op : Op} (n : ℕ) (hV : Valid full op) (hC : DenseC op) (hsq : op.rows = op.cols)
    {β : Type} (x : β → Mat) :
    Out (detM op.rows (den op) = 0) (fun _ => True) (if op.fl.low = some true ∨ op.fl.up = some true then do
          let D ← todense n op
          luSolve op.rows (triangle (op.fl.low = some true) D) x
        else if op.fl.sym = some true ∧ op.fl.pd ≠ some false then
          match (cholesky n op false >>= fun U => todense n U) with
          | .ok U => luSolve op.rows (mmul op.rows (trn (triangle false U)) (triangle false U)) x
          | .error .linAlgError => do
            let D ← todense n op
            luSolve op.rows D x
          | .error e => .error e
        else do
          let D ← todense n op
          luSolve op.rows D x) := by
  have hN := hV.node
  have hL := level full n
  split
  · rename_i htri
    refine Out.bind ((hL.dense hV).out (bad := False) id) (fun D hD => ?_) Or.inr
    rw [← hsq] at hD
    have sl := hN.sound.low.1
    have su := hN.sound.up.1
    rw [← hsq] at sl su
    by_cases hlow : op.fl.low = some true
    · rw [decide_eq_true hlow]
      exact luSolve_out (k := 0) (triangle_low (sl hlow) hD) x
    · rw [decide_eq_false hlow]
      exact luSolve_out (k := 0) (triangle_up (su (htri.resolve_left hlow)) hD) x
  · split
    · exact cholSolve_out (hL.chol hV hC) (lu_out n hV hsq x)
    · exact lu_out n hV hsq x

theorem InvBase.denseC {op : Op} (h : InvBase op) : DenseC op := by
  cases op <;> first | exact h | exact h.elim

theorem solve_invBase {full : Prop} {op : Op} (n : ℕ) (hV : Valid full op) (hi : InvBase op) (hsq : op.rows = op.cols)
    {β : Type} (k : ℕ) (x : β → Mat) :
    Out (detM op.rows (den op) = 0) (fun _ => True) (solveArr n op op.rows k x) := by
  cases n with
  | zero => rw [solveArr]; exact .fuel
  | succ n =>
    have key := dense_out n hV hi.denseC hsq x
    rw [solveArr, if_neg (by simpa using hsq), if_neg (by simp)]
    cases op with
    | matrix _ _ => exact key
    | lam _ _ => exact key
    | zero _ => exact key
    | symmetrize _ _ => exact key
    | sum _ _ => exact key
    | selection _ _ => exact key
    | embedding _ _ _ _ => exact key
    | symkron _ same _ _ =>
      have hi : same = false := hi
      subst hi
      exact key
    | transposed _ _ => exact hi.elim
    | inverse _ _ => exact hi.elim
    | identity _ => exact hi.elim
    | scaling _ _ _ => exact hi.elim
    | kron _ _ _ => exact hi.elim
    | idkron _ _ _ => exact hi.elim
    | scaled _ _ _ _ => exact hi.elim
    | prod _ _ => exact hi.elim
    | block _ _ => exact hi.elim

/-! ## Running composite operators whose components may be singular inverses -/

theorem run_inverse {full : Prop} {A : Op} (hV : Valid full A) (hi : InvBase A) (hsq : A.rows = A.cols) {h : Hdr}
    (hc : h.cols = A.rows) : Run (detM A.rows (den A) = 0) (.inverse h A) := by
  intro m β k x
  have c : (Op.inverse h A).cols = A.rows := hc
  cases m with
  | zero => rw [matArr]; exact .fuel
  | succ m =>
    rw [matArr.eq_def]
    dsimp only
    rw [if_neg (by simp), c]
    exact solve_invBase m hV hi hsq k x

theorem run_transposedInverse {full : Prop} {C : Op} (hV : Valid full C) (hi : InvBase C) (hsq : C.rows = C.cols)
    {h g : Hdr} : Run (detM C.rows (den C) = 0) (.transposed h (.inverse g C)) := by
  intro m β k x
  cases m with
  | zero => rw [matArr]; exact .fuel
  | succ m =>
    rw [matArr.eq_def]
    dsimp only
    rw [if_neg (by simp)]
    have hlu : Out (detM C.rows (den C) = 0) (fun _ => True) (do
        let D ← todense m C
        luSolve C.rows (trn D) x) := by
      refine Out.bind (((level full m).dense hV).out (bad := False) id) (fun D hD => ?_) Or.inr
      rw [← hsq] at hD
      have := luSolve_out (k := 0) (trn_congr hD) x
      rwa [detM_trn] at this
    split
    · exact cholSolve_out ((level full m).chol hV hi.denseC) hlu
    · exact hlu

theorem run_kron {A B : Op} {h : Hdr} {bA bB : Prop} (hA : Run bA A) (hB : Run bB B) :
    Run (bA ∨ bB) (.kron h A B) := by
  intro m β k x
  cases m with
  | zero => rw [matArr]; exact .fuel
  | succ m =>
    rw [matArr.eq_def]
    dsimp only
    rw [if_neg (by simp)]
    refine Out.bind (hB m _ _) (fun y _ => ?_) (b₂ := bA) Or.symm
    exact Out.bind (hA m _ _) (fun z _ => ⟨trivial, id⟩) Or.inl

theorem run_idkron {k : ℕ} {B : Op} {h : Hdr} {bB : Prop} (hk : 0 < k) (hB : Run bB B) :
    Run bB (.idkron h k B) := by
  intro m β j x
  cases m with
  | zero => rw [matArr]; exact .fuel
  | succ m =>
    rw [matArr.eq_def]
    dsimp only
    rw [if_neg (by simp)]
    refine Out.bind (hB m _ _) (fun y _ => ?_) (b₂ := False) Or.inl
    exact Out.bind ((valid_identity (full := False) hk).run (bad := False) id m _ _) (fun z _ => ⟨trivial, id⟩) Or.inl

theorem run_symkron {A : Op} {h : Hdr} {bA : Prop} (hA : Run bA A) : Run bA (.symkron h true A A) := by
  intro m β j x
  cases m with
  | zero => rw [matArr]; exact .fuel
  | succ m =>
    rw [matArr.eq_def]
    dsimp only
    rw [if_neg (by simp)]
    simp only [if_true]
    refine Out.bind (hA m _ _) (fun y _ => ?_) (b₂ := False) Or.inl
    exact Out.bind ((hA m _ _).mono (bad' := False) (by simp) fun _ h => h) (fun z _ => ⟨trivial, id⟩) Or.inl

theorem run_scaled {A : Op} {h : Hdr} {neg : Bool} {s : ℝ} {bA : Prop} (hA : Run bA A) (hc : h.cols = A.cols) :
    Run bA (.scaled h neg s A) := by
  intro m β j x
  have c : (Op.scaled h neg s A).cols = A.cols := hc
  cases m with
  | zero => rw [matArr]; exact .fuel
  | succ m =>
    rw [matArr.eq_def]
    dsimp only
    rw [if_neg (by simp), c]
    exact Out.bind (hA m _ _) (fun y _ => ⟨trivial, id⟩) Or.inl

theorem prodApply_out {β : Type} {f : Op → ℕ → (β → Mat) → Res (β → Mat)} {r : ℕ} {bad : Op → Prop} {x : β → Mat} :
    ∀ {l : List Op}, (∀ a ∈ l, a.rows = r ∧ ∀ y, Out (bad a) (fun _ => True) (f a r y)) →
      Out (∃ a ∈ l, bad a) (fun p => p.1 = r) (prodApply f l r x)
  | [], _ => ⟨rfl, by simp⟩
  | a :: t, hf => by
    simp only [prodApply]
    refine Out.bind (prodApply_out fun b hb => hf b (List.mem_cons_of_mem _ hb)) (fun p hp => ?_) (b₂ := bad a) ?_
    · rw [hp]
      refine Out.bind ((hf a (by simp)).2 _) (fun z _ => ?_) (b₂ := False) Or.inl
      exact ⟨(hf a (by simp)).1, id⟩
    · rintro ⟨c, hc, hb⟩
      rcases List.mem_cons.1 hc with rfl | hc
      · exact .inr hb
      · exact .inl ⟨c, hc, hb⟩

theorem run_prod {l : List Op} {h : Hdr} {r : ℕ} {bad : Op → Prop} (hc : h.cols = r)
    (hl : ∀ a ∈ l, a.rows = r ∧ a.cols = r ∧ Run (bad a) a) : Run (∃ a ∈ l, bad a) (.prod h l) := by
  intro m β k x
  have c : (Op.prod h l).cols = r := hc
  cases m with
  | zero => rw [matArr]; exact .fuel
  | succ m =>
    rw [matArr.eq_def]
    dsimp only
    rw [if_neg (by simp), c]
    refine Out.bind (prodApply_out (bad := bad) fun a ha => ⟨(hl a ha).1, fun y => ?_⟩) (fun p _ => ⟨trivial, id⟩) Or.inl
    have := (hl a ha).2.2 m k y
    rwa [(hl a ha).2.1] at this

theorem exists_zip_of_mem {β : Type} {l : List Op} {a : Op} (ha : a ∈ l) (γ : Op → ℕ) (x : β → Mat) :
    ∃ p ∈ l.zip (splitRows (l.map γ) x), p.1 = a := by
  induction l generalizing x with
  | nil => simp at ha
  | cons b l ih =>
    rw [List.map_cons, splitRows, List.zip_cons_cons]
    rcases List.mem_cons.1 ha with rfl | ha
    · exact ⟨_, List.mem_cons_self, rfl⟩
    · obtain ⟨p, hp, e⟩ := ih ha _
      exact ⟨p, List.mem_cons_of_mem _ hp, e⟩

theorem run_block {l : List Op} {h : Hdr} {bad : Op → Prop} (hl : ∀ a ∈ l, Run (bad a) a) :
    Run (∃ a ∈ l, bad a) (.block h l) := by
  intro m β k x
  cases m with
  | zero => rw [matArr]; exact .fuel
  | succ m =>
    rw [matArr.eq_def]
    dsimp only
    rw [if_neg (by simp)]
    refine Out.bind (Out.mapM (bad := fun p : Op × (β → Mat) => bad p.1) (P := fun _ _ => True) fun p hp =>
      hl p.1 (List.of_mem_zip hp).1 m k p.2) (fun ys _ => ⟨trivial, id⟩) ?_
    rintro ⟨a, ha, hb⟩
    obtain ⟨p, hp, rfl⟩ := exists_zip_of_mem ha Op.cols x
    exact .inl ⟨p, hp, hb⟩

/-! ## The result of `inv` on a possibly singular operator -/

/-- The factors that a product made of `t` keeps. -/
def parts : Op → List Op
  | .prod _ l => l
  | t => [t]

theorem expandProd_parts (l : List Op) : expandProd l = l.flatMap parts := by
  induction l with
  | nil => rfl
  | cons a l ih =>
    cases a <;> simp [expandProd, parts, ih]

/-- What `inv` guarantees whether or not `op` is singular. -/
structure AnyPost (op t : Op) : Prop where
  rows : t.rows = op.rows
  cols : t.cols = op.rows
  pdsym : t.fl.pd = some true → t.fl.sym = some true
  ne : parts t ≠ []
  safe : ∀ p ∈ parts t, p.rows = op.rows ∧ p.cols = op.rows ∧ SafeRun p
  bad : detM op.rows (den op) = 0 → ∃ p ∈ parts t, Bad p

theorem AnyPost.coh {op t : Op} (h : AnyPost op t) : Coh t := ⟨fun hne => absurd (h.rows.trans h.cols.symm) hne, h.pdsym⟩

theorem AnyPost.run {op t : Op} (h : AnyPost op t) : Run (detM op.rows (den op) = 0) t := by
  cases ht : t with
  | prod g l =>
    have hs := h.safe
    have hb := h.bad
    have hc := h.cols
    rw [ht] at hs hb hc
    have := run_prod (h := g) (bad := fun p => Bad p) (l := l) (r := op.rows) hc fun p hp =>
      ⟨(hs p hp).1, (hs p hp).2.1, Run.of (hs p hp).2.2 id⟩
    exact fun m _ k x => (this m k x).mono hb fun _ h => h
  | _ =>
    have hs := h.safe
    have hb := h.bad
    rw [ht] at hs hb
    refine Run.of (hs _ (by simp [parts])).2.2 fun h0 => ?_
    obtain ⟨p, hp, hpb⟩ := hb h0
    simp only [parts, List.mem_singleton] at hp
    rw [← hp]
    exact hpb

theorem anyPost_of_run {op t : Op} (hr : t.rows = op.rows) (hc : t.cols = op.rows)
    (hp : t.fl.pd = some true → t.fl.sym = some true) (hparts : parts t = [t])
    (h : Run (detM op.rows (den op) = 0) t) : AnyPost op t where
  rows := hr
  cols := hc
  pdsym := hp
  ne := by simp [hparts]
  safe p hp := by
    rw [hparts, List.mem_singleton] at hp
    subst hp
    exact ⟨hr, hc, h.safe⟩
  bad h0 := ⟨t, by simp [hparts], h.bad h0⟩

theorem parts_withHdr (t : Op) (h : Hdr) (ht : parts t = [t]) : parts (t.withHdr h) = [t.withHdr h] := by
  cases t with
  | prod g l =>
    have : l = [.prod g l] := ht
    have := congrArg sizeOf this
    simp at this
    omega
  | _ => rfl

theorem bind_eq_ok {α γ : Type _} {r : Res α} {f : α → Res γ} {c : γ} (h : (r >>= f) = .ok c) :
    ∃ a, r = .ok a ∧ f a = .ok c := by
  cases r with
  | ok a => exact ⟨a, rfl, h⟩
  | error e => cases h

theorem parts_copyFlags {op t t' : Op} (ht : parts t = [t]) (h : copyFlags op t = .ok t') : parts t' = [t'] := by
  unfold copyFlags at h
  obtain ⟨h1, _, h⟩ := bind_eq_ok h
  obtain ⟨h2, _, h⟩ := bind_eq_ok h
  obtain ⟨h3, _, h⟩ := bind_eq_ok h
  obtain ⟨h4, _, h⟩ := bind_eq_ok h
  cases h
  exact parts_withHdr t h4 ht

theorem parts_T {n : ℕ} {C t : Op} (hi : InvBase C) (h : T n C = .ok t) : parts t = [t] := by
  cases n with
  | zero => cases h
  | succ n =>
    rw [T] at h
    split at h
    · cases h
      cases C <;> first | rfl | exact hi.elim
    · obtain ⟨s, hs, h⟩ := bind_eq_ok h
      refine parts_copyFlags ?_ h
      cases C with
      | matrix _ _ => cases hs; rfl
      | lam _ _ => cases hs; rfl
      | zero g =>
        cases hs
        rfl
      | symmetrize _ _ => cases hs; rfl
      | sum g l =>
        obtain ⟨l', _, hs⟩ := bind_eq_ok hs
        unfold mkSum at hs
        split at hs
        · cases hs
        · split at hs
          · cases hs
          · simp only [bind, Except.bind] at hs
            repeat' split at hs
            all_goals first | (cases hs; rfl) | cases hs
      | selection g idx =>
        have hs : mkEmbedding _ _ _ _ _ = .ok s := hs
        unfold mkEmbedding at hs
        repeat' split at hs
        all_goals first | (cases hs; rfl) | cases hs
      | embedding g a b c =>
        have hs : mkSelection _ _ _ = .ok s := hs
        unfold mkSelection at hs
        repeat' split at hs
        all_goals first | (cases hs; rfl) | cases hs
      | symkron g same A B =>
        have hi : same = false := hi
        subst hi
        obtain ⟨A', _, hs⟩ := bind_eq_ok hs
        obtain ⟨B', _, hs⟩ := bind_eq_ok hs
        unfold mkSymkron at hs
        simp only [bind, Except.bind] at hs
        repeat' split at hs
        all_goals first | (cases hs; rfl) | cases hs
      | transposed _ _ => exact hi.elim
      | inverse _ _ => exact hi.elim
      | identity _ => exact hi.elim
      | scaling _ _ _ => exact hi.elim
      | kron _ _ _ => exact hi.elim
      | idkron _ _ _ => exact hi.elim
      | scaled _ _ _ _ => exact hi.elim
      | prod _ _ => exact hi.elim
      | block _ _ => exact hi.elim

theorem mkInverse_any {full : Prop} {op : Op} (hV : Valid full op) (hsq : op.rows = op.cols) (hi : InvBase op) :
    Out False (AnyPost op) (mkInverse op) := by
  rw [mkInverse_eq hV.coh hsq op.fl]
  refine ⟨anyPost_of_run rfl rfl ?_ rfl (run_inverse hV hi hsq rfl), id⟩
  rw [fl_build]
  exact hV.node.pdsym

theorem det_kron_eq_zero {n m : ℕ} {A B : Mat} (h : detM (n * m) (kronM m m A B) = 0) : detM n A = 0 ∨ detM m B = 0 := by
  by_contra hne
  push Not at hne
  exact kron_nonsing_of hne.1 hne.2 h

theorem det_smul_eq_zero {n : ℕ} {s : ℝ} {A : Mat} (hs : s ≠ 0) (h : detM n (s • A) = 0) : detM n A = 0 := by
  obtain ⟨v, hv, hM⟩ := detM_eq_zero_iff.1 h
  refine detM_eq_zero_iff.2 ⟨v, hv, fun i hi => ?_⟩
  have := hM i hi
  simp only [Pi.smul_apply, smul_eq_mul, mul_assoc] at this
  rw [← Finset.mul_sum] at this
  exact (mul_eq_zero.1 this).resolve_left hs

theorem det_prod_eq_zero {r : ℕ} {l : List Op} (hr : ∀ b ∈ l, b.cols = r) (h : detM r (denProd l) = 0) :
    ∃ b ∈ l, detM r (den b) = 0 := by
  induction l with
  | nil =>
    rw [denProd, detM_eye] at h
    exact absurd h one_ne_zero
  | cons a l ih =>
    rw [denProd, hr a (by simp), detM_mmul] at h
    rcases mul_eq_zero.1 h with h | h
    · exact ⟨a, by simp, h⟩
    · obtain ⟨b, hb, hb0⟩ := ih (fun b hb => hr b (List.mem_cons_of_mem _ hb)) h
      exact ⟨b, List.mem_cons_of_mem _ hb, hb0⟩

theorem det_block_eq_zero {full : Prop} {l : List Op} (hv : ∀ a ∈ l, Valid full a) (hsq : ∀ a ∈ l, a.rows = a.cols)
    (h : detM (l.map Op.rows).sum (denBlock l) = 0) : ∃ b ∈ l, detM b.rows (den b) = 0 := by
  by_contra hne
  push Not at hne
  exact detM_ne_zero_of_left (block_inv (inverses_post hv) fun b hb => ⟨hsq b hb, hne b hb⟩) h

theorem det_scaling_eq_zero {n : ℕ} {f : ℕ → ℝ} (h : detM n (fun i j => if i = j then f i else 0) = 0) :
    ∃ i < n, f i = 0 := by
  obtain ⟨v, ⟨i, hi, hv⟩, hM⟩ := detM_eq_zero_iff.1 h
  refine ⟨i, hi, ?_⟩
  have := hM i hi
  simp only [ite_mul, zero_mul] at this
  rw [Finset.sum_ite_eq, if_pos (Finset.mem_range.2 hi)] at this
  exact (mul_eq_zero.1 this).resolve_right hv

theorem inv_base {n : ℕ} {A : Op} (hi : InvBase A) (hsq : A.rows = A.cols) : inv (n + 1) A = mkInverse A := by
  cases A with
  | matrix _ _ => simp only [inv]; rw [if_neg (by simpa using hsq)]
  | lam _ _ => simp only [inv]; rw [if_neg (by simpa using hsq)]
  | zero _ => simp only [inv]; rw [if_neg (by simpa using hsq)]
  | symmetrize _ _ => simp only [inv]; rw [if_neg (by simpa using hsq)]
  | sum _ _ => simp only [inv]; rw [if_neg (by simpa using hsq)]
  | selection _ _ => simp only [inv]; rw [if_neg (by simpa using hsq)]
  | embedding _ _ _ _ => simp only [inv]; rw [if_neg (by simpa using hsq)]
  | symkron _ same _ _ =>
    have hi : same = false := hi
    subst hi
    simp only [inv]
    rw [if_neg (by simpa using hsq), if_neg (by simp)]
  | transposed _ _ => exact hi.elim
  | inverse _ _ => exact hi.elim
  | identity _ => exact hi.elim
  | scaling _ _ _ => exact hi.elim
  | kron _ _ _ => exact hi.elim
  | idkron _ _ _ => exact hi.elim
  | scaled _ _ _ _ => exact hi.elim
  | prod _ _ => exact hi.elim
  | block _ _ => exact hi.elim

theorem rows_of_any {l l' : List Op} (h : List.Forall₂ AnyPost l l') : l'.map Op.rows = l.map Op.rows := by
  induction h with
  | nil => rfl
  | cons h _ ih => rw [List.map_cons, List.map_cons, h.rows, ih]

theorem inv_any {full : Prop} : ∀ (n : ℕ) {op : Op}, Valid full op → Regular op → op.rows = op.cols →
    Out False (AnyPost op) (inv n op)
  | 0, _, _, _, _ => .fuel
  | n + 1, op, hV, hR, hsq => by
    have ih := fun {op : Op} => @inv_any full n op
    have hN := hV.node
    have base := mkInverse_any hV hsq
    have ok : ∀ {t : Op}, AnyPost op t → Out False (AnyPost op) (.ok t) := fun h => ⟨h, id⟩
    simp only [inv]
    rw [if_neg (by simpa using hsq)]
    cases hV with
    | matrix _ => exact base trivial
    | lam _ => exact base trivial
    | zero _ => exact base trivial
    | symmetrize _ _ _ => exact base trivial
    | sum _ _ _ _ => exact base trivial
    | selection _ _ _ _ _ => exact base trivial
    | embedding _ _ _ _ _ => exact base trivial
    | @identity h h1 hN' =>
      refine ok (anyPost_of_run rfl h1.symm hN.pdsym rfl ((Valid.identity h1 hN').run ?_))
      rw [den, detM_eye]
      exact one_ne_zero
    | @scaling h iso f h1 hiso hN' =>
      have hr : 0 < h.rows := hN.rows
      have hden : den (Op.scaling h iso f) = fun i j => if i = j then f i else 0 := by rw [den]
      simp only
      by_cases hi : iso = true
      · rw [if_pos hi]
        by_cases h1' : f 0 = 1
        · rw [if_pos h1']
          refine ok (anyPost_of_run rfl h1.symm hN.pdsym rfl ((Valid.scaling h1 hiso hN').run fun h0 => ?_))
          rw [hden] at h0
          obtain ⟨i, _, hi0⟩ := det_scaling_eq_zero h0
          rw [hiso hi i, h1'] at hi0
          exact one_ne_zero hi0
        · rw [if_neg h1']
          split
          · exact .lin
          · rename_i hnz
            refine ok (anyPost_of_run rfl rfl (fun _ => rfl) rfl ((valid_scalingIso (full := full) hr _).run fun h0 => ?_))
            rw [hden] at h0
            obtain ⟨i, _, hi0⟩ := det_scaling_eq_zero h0
            rw [hiso hi i] at hi0
            exact hnz ⟨hi0, hr⟩
      · rw [if_neg hi]
        split
        · exact .lin
        · rename_i hnz
          refine ok (anyPost_of_run rfl rfl (fun _ => rfl) rfl ((valid_scalingAniso (full := full) hr _).run fun h0 => ?_))
          rw [hden] at h0
          exact hnz (det_scaling_eq_zero h0)
    | @kron h A B hA hB h1 h2 _ =>
      obtain ⟨hRA, hRB, e1, e2⟩ : Regular A ∧ Regular B ∧ A.rows = A.cols ∧ B.rows = B.cols := by
        cases hR with
        | dense h => exact h.elim
        | kron a b c d => exact ⟨a, b, c, d⟩
      simp only
      rw [if_pos ⟨e1, e2⟩]
      refine Out.bind (ih hA hRA e1) (fun A' hA' => Out.bind (ih hB hRB e2) (fun B' hB' => ?_) (b₂ := False) Or.inl) (b₂ := False) Or.inl
      rw [mkKron_eq hA'.coh hB'.coh h.fl]
      refine ok (anyPost_of_run ?_ ?_ ?_ rfl ?_)
      · rw [rows_build]
        show A'.rows * B'.rows = h.rows
        rw [hA'.rows, hB'.rows, h1]
      · rw [cols_build]
        show A'.cols * B'.cols = h.rows
        rw [hA'.cols, hB'.cols, h1]
      · rw [fl_build]
        intro h
        simp [derived, Linops.base] at h
      · have r : (Op.kron h A B).rows = A.rows * B.rows := h1
        rw [r, den, ← e2]
        exact fun m _ k x => (run_kron hA'.run hB'.run m k x).mono det_kron_eq_zero fun _ h => h
    | @idkron h k B hB h1 h2 _ =>
      have hk : 0 < k := by
        rcases Nat.eq_zero_or_pos k with rfl | hk
        · have : 0 < h.rows := hN.rows
          omega
        · exact hk
      have e2 : B.rows = B.cols := by
        have e : k * B.rows = k * B.cols := by rw [← h1, ← h2]; exact hsq
        exact Nat.eq_of_mul_eq_mul_left hk e
      have hRB : Regular B := by
        cases hR with
        | dense h => exact h.elim
        | idkron b => exact b
      refine Out.bind (ih hB hRB e2) (fun B' hB' => ?_) (b₂ := False) Or.inl
      rw [mkIdkron_eq hB'.coh h.fl]
      refine ok (anyPost_of_run ?_ ?_ ?_ rfl ?_)
      · rw [rows_build]
        show k * B'.rows = h.rows
        rw [hB'.rows, h1]
      · rw [cols_build]
        show k * B'.cols = h.rows
        rw [hB'.cols, h1]
      · rw [fl_build]
        intro h
        simp [derived, Linops.base] at h
      · have r : (Op.idkron h k B).rows = k * B.rows := h1
        rw [r, den, ← e2]
        refine fun m _ k x => (run_idkron hk hB'.run m k x).mono (fun h0 => ?_) fun _ h => h
        refine (det_kron_eq_zero h0).resolve_left ?_
        rw [detM_eye]
        exact one_ne_zero
    | @symkron h same A B hA hB hsame h1 h2 h3 h4 h5 _ =>
      cases same with
      | false => exact base rfl
      | true =>
        obtain rfl := hsame rfl
        have hr : (Op.symkron h true B B).rows = B.rows * B.rows := h4
        have hRA : Regular B := by
          cases hR with
          | dense h => simp [InvBase] at h
          | symkron b => exact b
        simp only [if_true]
        refine Out.bind (ih hA hRA h1) (fun A' hA' => ?_) (b₂ := False) Or.inl
        rw [mkSymkron_eq (hA'.rows.trans hA'.cols.symm) rfl rfl h.fl]
        refine ok (anyPost_of_run ?_ ?_ ?_ rfl ?_)
        · rw [rows_build, hr]
          show A'.rows * A'.rows = _
          rw [hA'.rows]
        · rw [cols_build, hr]
          show A'.rows * A'.rows = _
          rw [hA'.rows]
        · rw [fl_build]
          intro h
          simp [derived, Linops.base] at h
        · rw [hr, den_symkron_same, ← h1]
          exact fun m _ k x => (run_symkron hA'.run m k x).mono (fun h0 => (det_kron_eq_zero h0).elim id id) fun _ h => h
    | @scaled h neg s A hA h1 h2 hs hneg _ =>
      have hr : (Op.scaled h neg s A).rows = A.rows := h1
      have hsA : A.rows = A.cols := by rw [← h1, ← h2]; exact hsq
      have hRA : Regular A := by
        cases hR with
        | dense h => exact h.elim
        | scaled b => exact b
      simp only
      split
      · exact .lin
      · rename_i hs0
        refine Out.bind (ih hA hRA hsA) (fun A' hA' => ?_) (b₂ := False) Or.inl
        rw [mkScaled_eq hA'.coh h.fl]
        refine ok (anyPost_of_run ?_ ?_ ?_ rfl ?_)
        · rw [rows_build, hr]
          exact hA'.rows
        · rw [cols_build, hr]
          exact hA'.cols
        · rw [fl_build]
          intro h
          have h : (if A'.fl.pd = some true then some (decide (0 < 1 / s)) else none) = some true := h
          split at h
          · exact hA'.pdsym ‹_›
          · cases h
        · rw [hr, den]
          have hrun := run_scaled (h := ⟨A'.rows, A'.cols, derived (.scaled ⟨A'.rows, A'.cols, h.fl⟩ false (1 / s) A')⟩)
            (neg := false) (s := 1 / s) hA'.run rfl
          exact fun m _ k x => (hrun m k x).mono (det_smul_eq_zero hs0) fun _ h => h
    | @prod h a l hv hch h1 h2 _ =>
      have hRl : ∀ b ∈ a :: l, Regular b ∧ b.rows = b.cols := by
        cases hR with
        | dense h => exact h.elim
        | prod b c => exact fun a ha => ⟨b a ha, c a ha⟩
      obtain ⟨hrows, hlast⟩ := prod_square hch fun b hb => (hRl b hb).2
      have hrc : ∀ b ∈ a :: l, b.rows = a.rows ∧ b.cols = a.rows := fun b hb =>
        ⟨hrows b hb, (hRl b hb).2.symm.trans (hrows b hb)⟩
      have hr : (Op.prod h (a :: l)).rows = a.rows := h1
      refine Out.bind (Out.mapM (bad := fun _ => False) fun b hb => ih (hv b (List.mem_reverse.1 hb))
        (hRl b (List.mem_reverse.1 hb)).1 (hRl b (List.mem_reverse.1 hb)).2) (fun l' hl' => ?_) (b₂ := False) False.elim
      have hP : ∀ p ∈ l'.flatMap parts, p.rows = a.rows ∧ p.cols = a.rows ∧ SafeRun p := by
        intro p hp
        obtain ⟨t, ht, hpt⟩ := List.mem_flatMap.1 hp
        obtain ⟨b, hb, hbt⟩ := forall₂_mem_right hl' t ht
        have := hbt.safe p hpt
        rwa [(hrc b (List.mem_reverse.1 hb)).1] at this
      have hl'rc : ∀ t ∈ l', t.rows = a.rows ∧ t.cols = a.rows := by
        intro t ht
        obtain ⟨b, hb, hbt⟩ := forall₂_mem_right hl' t ht
        have := (hrc b (List.mem_reverse.1 hb)).1
        exact ⟨hbt.rows.trans this, hbt.cols.trans this⟩
      have hchain : ∀ e : List Op, (∀ b ∈ e, b.rows = a.rows ∧ b.cols = a.rows) → chained e ∧
          ∀ d t, e = d :: t → lastCols d.cols t = a.rows := by
        intro e
        induction e with
        | nil => exact fun _ => ⟨trivial, by simp⟩
        | cons d e ihc =>
          intro h
          obtain ⟨i1, i2⟩ := ihc fun b hb => h b (List.mem_cons_of_mem _ hb)
          cases e with
          | nil =>
            refine ⟨trivial, ?_⟩
            rintro d' t ⟨⟩
            exact (h d (by simp)).2
          | cons c e =>
            refine ⟨⟨by rw [(h d (by simp)).2, (h c (by simp)).1], i1⟩, ?_⟩
            rintro d' t ⟨⟩
            exact i2 c e rfl
      rw [mkProd, if_neg (by simpa using (hchain l' hl'rc).1), expandProd_parts]
      cases hm : l'.flatMap parts with
      | nil =>
        exfalso
        obtain ⟨t, ht, hat⟩ := forall₂_mem_left hl' a (by simp)
        rw [List.flatMap_eq_nil_iff] at hm
        exact hat.ne (hm t ht)
      | cons d e =>
        rw [hm] at hP
        have hlc := (hchain (d :: e) fun p hp => ⟨(hP p hp).1, (hP p hp).2.1⟩).2 d e rfl
        refine ok ⟨?_, ?_, ?_, ?_, ?_, ?_⟩
        · rw [hr]; exact (hP d (by simp)).1
        · rw [hr]; exact hlc
        · intro h; cases h
        · simp [parts]
        · rw [hr]; exact hP
        · rw [hr, den]
          intro h0
          obtain ⟨b, hb, hb0⟩ := det_prod_eq_zero (fun b hb => (hrc b hb).2) h0
          obtain ⟨t, ht, hbt⟩ := forall₂_mem_left hl' b (List.mem_reverse.2 hb)
          obtain ⟨p, hp, hpb⟩ := hbt.bad (by rw [(hrc b hb).1]; exact hb0)
          refine ⟨p, ?_, hpb⟩
          show p ∈ d :: e
          rw [← hm]
          exact List.mem_flatMap.2 ⟨t, ht, hp⟩
    | @transposed h A hA h1 h2 hN' =>
      have hr : (Op.transposed h A).rows = A.cols := h1
      have hsA : A.rows = A.cols := by rw [← h1, ← h2]; exact hsq.symm
      cases hR with
      | dense h => exact h.elim
      | @transposedInverse _ g C =>
        cases hA with
        | inverse hC g1 g2 g3 g4 g5 gN =>
          have hd : detM (Op.inverse g C).rows (den (Op.inverse g C)) ≠ 0 := by
            have : (Op.inverse g C).rows = C.rows := g2
            rw [this, den, g2, detM_invM]
            exact inv_ne_zero g5
          refine Out.bind (P := fun A' => A' = C) (b₁ := False) (b₂ := False) ?_ (fun A' hA' => ?_) Or.inl
          · cases n with
            | zero => exact .fuel
            | succ n =>
              simp only [inv]
              rw [if_neg (by simpa using hsA)]
              exact ⟨rfl, id⟩
          · rw [hA']
            have hTm := T_meets n hC
            cases hT : T n C with
            | error e =>
              rw [hT] at hTm
              exact .inr hTm
            | ok t =>
              rw [hT] at hTm
              have hTm : TPost full C t := hTm
              have rr : (Op.transposed h (.inverse g C)).rows = C.rows := by rw [hr]; exact g3
              refine ok (anyPost_of_run (by rw [hTm.rows, rr, g1]) (by rw [hTm.cols, rr]) hTm.valid.node.pdsym
                (parts_T g4 hT) (hTm.valid.run ?_))
              rw [hr, den, ← hsA, detM_trn]
              exact hd
      | transposed hi =>
        refine Out.bind (P := fun A' => A' = build (.inverse ⟨A.rows, A.rows, A.fl⟩ A)) (b₁ := False) (b₂ := False)
          ?_ (fun A' hA' => ?_) Or.inl
        · cases n with
          | zero => exact .fuel
          | succ n =>
            rw [inv_base hi hsA, mkInverse_eq hA.coh hsA A.fl]
            exact ⟨rfl, id⟩
        · subst hA'
          cases n with
          | zero => exact .fuel
          | succ n =>
            rw [T]
            split
            · refine ok (anyPost_of_run (by rw [hr, ← hsA]; rfl) (by rw [hr, ← hsA]; rfl) ?_ rfl ?_)
              · rw [fl_build]; exact hA.node.pdsym
              · rw [hr, den, ← hsA, detM_trn]
                exact run_inverse hA hi hsA rfl
            · have e : transposeOf n (T n) (build (.inverse ⟨A.rows, A.rows, A.fl⟩ A)) =
                  .ok (mkTransposed (build (.inverse ⟨A.rows, A.rows, A.fl⟩ A))) := rfl
              rw [e, ok_bind, copyFlags_eq]
              · refine ok (anyPost_of_run ?_ ?_ ?_ rfl ?_)
                · rw [hr, ← hsA]; rfl
                · rw [hr, ← hsA]; rfl
                · rw [fl_withFl]; exact hA.node.pdsym
                · rw [hr, den, ← hsA, detM_trn]
                  exact run_transposedInverse hA hi hsA
              · show (Linops.base A.rows A.rows).fl.Le _
                refine ⟨.inl (by simp [Linops.base]), .inl rfl, .inl rfl, .inl rfl⟩
              · intro _; rfl
              · exact hA.node.pdsym
    | @inverse h A hA h1 h2 h3 h4 h5 _ =>
      have hr : (Op.inverse h A).rows = A.rows := h2
      refine ok (anyPost_of_run hr.symm (by rw [hr]; exact h1.symm) hA.node.pdsym ?_ (hA.run ?_))
      · cases A <;> first | rfl | exact h4.elim
      · rw [hr, den, h2, detM_invM]
        exact inv_ne_zero h5
    | @block h l hne hv hsqb h1 h2 _ =>
      have hr : (Op.block h l).rows = (l.map Op.rows).sum := h1
      obtain ⟨hRl, hsql⟩ : (∀ b ∈ l, Regular b) ∧ ∀ b ∈ l, b.rows = b.cols := by
        cases hR with
        | dense h => exact h.elim
        | block b c => exact ⟨b, c⟩
      simp only
      rw [if_pos hsql]
      refine Out.bind (Out.mapM (bad := fun _ => False) fun b hb => ih (hv b hb) (hRl b hb) (hsql b hb))
        (fun l' hl' => ?_) (b₂ := False) False.elim
      have hco : ∀ b ∈ l', Coh b ∧ b.rows = b.cols := fun b hb => by
        obtain ⟨x, hx, hxb⟩ := forall₂_mem_right hl' b hb
        exact ⟨hxb.coh, by rw [hxb.rows, hxb.cols]⟩
      have hne' : l' ≠ [] := by
        rintro rfl
        cases hl'
        exact hne rfl
      have hrows : l'.map Op.rows = l.map Op.rows := rows_of_any hl'
      have hcols : l'.map Op.cols = l'.map Op.rows := List.map_congr_left fun b hb => (hco b hb).2.symm
      rw [mkBlock_eq hne' (fun b hb => (hco b hb).1) h.fl]
      refine ok (anyPost_of_run ?_ ?_ ?_ rfl ?_)
      · rw [rows_build, hr]
        show (l'.map Op.rows).sum = _
        rw [hrows]
      · rw [cols_build, hr]
        show (l'.map Op.cols).sum = _
        rw [hcols, hrows]
      · rw [fl_build]
        intro h
        have h : inferProp (fun b => b.fl.pd) l' = some true := h
        show inferProp (fun b => b.fl.sym) l' = some true
        rw [inferProp_true] at h ⊢
        exact fun b hb => (hco b hb).1.pdsym (h b hb)
      · rw [hr, den]
        have := run_block (h := ⟨(l'.map Op.rows).sum, (l'.map Op.cols).sum, derived (.block ⟨(l'.map Op.rows).sum, (l'.map Op.cols).sum, h.fl⟩ l')⟩)
          (l := l') (bad := fun p => Bad p) fun p hp => by
            obtain ⟨x, hx, hxb⟩ := forall₂_mem_right hl' p hp
            exact Run.of hxb.run.safe id
        refine fun m _ k x => (this m k x).mono (fun h0 => ?_) fun _ h => h
        obtain ⟨b, hb, hb0⟩ := det_block_eq_zero hv hsql h0
        obtain ⟨t, ht, hbt⟩ := forall₂_mem_left hl' b hb
        exact ⟨t, ht, hbt.run.bad hb0⟩

/-! ## Solving -/

theorem prodSolve_out {β : Type} {f : Op → ℕ → (β → Mat) → Res (β → Mat)} {r : ℕ} {bad : Op → Prop} :
    ∀ {l : List Op} {x : β → Mat}, (∀ a ∈ l, a.cols = r ∧ ∀ y, Out (bad a) (fun _ => True) (f a r y)) →
      Out (∃ a ∈ l, bad a) (fun _ => True) (prodSolve f l r x)
  | [], _, _ => ⟨trivial, by simp⟩
  | a :: t, x, hf => by
    simp only [prodSolve]
    refine Out.bind ((hf a (by simp)).2 _) (fun z _ => ?_) (b₂ := ∃ a ∈ t, bad a) ?_
    · rw [(hf a (by simp)).1]
      exact prodSolve_out fun b hb => hf b (List.mem_cons_of_mem _ hb)
    · rintro ⟨c, hc, hb⟩
      rcases List.mem_cons.1 hc with rfl | hc
      · exact .inl hb
      · exact .inr ⟨c, hc, hb⟩

/-- A solve with a (possibly singular) operator returns, raises LinAlgError or exceeds the recursion limit; with a
singular operator it does not return. -/
theorem solve_out {full : Prop} : ∀ (n : ℕ) {op : Op}, Valid full op → Regular op → op.rows = op.cols →
    ∀ {β : Type} (k : ℕ) (x : β → Mat),
    Out (detM op.rows (den op) = 0) (fun _ => True) (solveArr n op op.rows k x)
  | 0, _, _, _, _, _, _, _ => by rw [solveArr]; exact .fuel
  | n + 1, op, hV, hR, hsq, β, k, x => by
    have ih := fun {op : Op} => @solve_out full n op
    have hN := hV.node
    rw [solveArr, if_neg (by simpa using hsq), if_neg (by simp)]
    have viaInv : Out (detM op.rows (den op) = 0) (fun _ => True) (do
        let i ← inv n op
        matArr n i op.rows k x) := by
      refine Out.bind (inv_any n hV hR hsq) (fun t ht => ?_) Or.inr
      have := ht.run n k x
      rwa [ht.cols] at this
    have dense := fun hC => dense_out n hV hC hsq x
    cases hV with
    | matrix _ => exact dense trivial
    | lam _ => exact dense trivial
    | zero _ => exact dense trivial
    | symmetrize _ _ _ => exact dense trivial
    | sum _ _ _ _ => exact dense trivial
    | selection _ _ _ _ _ => exact dense trivial
    | embedding _ _ _ _ _ => exact dense trivial
    | transposed _ _ _ _ => exact dense trivial
    | inverse _ _ _ _ _ _ _ => exact dense trivial
    | identity h1 hN' =>
      refine ⟨trivial, ?_⟩
      rw [den, detM_eye]
      exact one_ne_zero
    | scaling _ _ _ => exact viaInv
    | scaled _ _ _ _ _ _ => exact viaInv
    | @kron h A B hA hB h1 h2 _ =>
      have e : A.rows = A.cols ∧ B.rows = B.cols := by
        cases hR with
        | dense h => exact h.elim
        | kron a b c d => exact ⟨c, d⟩
      dsimp only
      rw [if_pos e]
      exact viaInv
    | @idkron h m B hB h1 h2 _ =>
      have hm : 0 < m := by
        rcases Nat.eq_zero_or_pos m with rfl | hm
        · have : 0 < h.rows := hN.rows
          omega
        · exact hm
      have e : m * B.rows = m * B.cols := by rw [← h1, ← h2]; exact hsq
      dsimp only
      rw [if_pos (Nat.eq_of_mul_eq_mul_left hm e)]
      exact viaInv
    | @symkron h same A B hA hB hsame h1 h2 h3 h4 h5 _ =>
      cases same with
      | true => exact viaInv
      | false => exact dense rfl
    | @prod h a l hv hch h1 h2 _ =>
      have hRl : ∀ b ∈ a :: l, Regular b ∧ b.rows = b.cols := by
        cases hR with
        | dense h => exact h.elim
        | prod b c => exact fun a ha => ⟨b a ha, c a ha⟩
      obtain ⟨hrows, hlast⟩ := prod_square hch fun b hb => (hRl b hb).2
      have hrc : ∀ b ∈ a :: l, b.rows = a.rows ∧ b.cols = a.rows := fun b hb =>
        ⟨hrows b hb, (hRl b hb).2.symm.trans (hrows b hb)⟩
      have hr : (Op.prod h (a :: l)).rows = a.rows := h1
      rw [hr, den]
      refine (prodSolve_out (bad := fun b => detM a.rows (den b) = 0) fun b hb => ⟨(hrc b hb).2, fun y => ?_⟩).mono
        (det_prod_eq_zero fun b hb => (hrc b hb).2) fun _ h => h
      have := ih (hv b hb) (hRl b hb).1 (hRl b hb).2 k y
      rwa [(hrc b hb).1] at this
    | @block h l hne hv hsqb h1 h2 _ =>
      have hr : (Op.block h l).rows = (l.map Op.rows).sum := h1
      obtain ⟨hRl, hsql⟩ : (∀ b ∈ l, Regular b) ∧ ∀ b ∈ l, b.rows = b.cols := by
        cases hR with
        | dense h => exact h.elim
        | block b c => exact ⟨b, c⟩
      rw [hr, den]
      dsimp only
      refine Out.bind (Out.mapM (bad := fun p : Op × (β → Mat) => detM p.1.rows (den p.1) = 0) (P := fun _ _ => True)
        fun p hp => ?_) (fun ys _ => ⟨trivial, id⟩) (b₂ := False) ?_
      · have hm := (List.of_mem_zip hp).1
        rw [← hsql p.1 hm]
        exact ih (hv p.1 hm) (hRl p.1 hm) (hsql p.1 hm) k p.2
      · intro h0
        obtain ⟨b, hb, hb0⟩ := det_block_eq_zero hv hsql h0
        obtain ⟨p, hp, rfl⟩ := exists_zip_of_mem hb Op.cols x
        exact .inl ⟨p, hp, hb0⟩

end Probnum.Linops
